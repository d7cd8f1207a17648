import Verif.Clean.Order

/-! # The clean operation: effects on the filesystem -/

namespace Verif.Clean

theorem empty_iff (s : FS) (d : Path) : empty s d = true ↔ ¬ s.Inside d := by
  unfold empty FS.Inside
  rw [Bool.and_eq_true, Bool.not_eq_true', Bool.not_eq_true', ← Bool.not_eq_true,
    ← Bool.not_eq_true, List.any_eq_true, List.any_eq_true, not_or]
  constructor
  · rintro ⟨h1, h2⟩
    refine ⟨?_, ?_⟩
    · rintro ⟨p, c, hp, h3, h4⟩
      exact h1 ⟨(p, c), hp, by simp [h3, h4]⟩
    · rintro ⟨e, he, h3, h4⟩
      exact h2 ⟨e, he, by simp [h3, h4]⟩
  · rintro ⟨h1, h2⟩
    refine ⟨?_, ?_⟩
    · rintro ⟨⟨p, c⟩, hp, h⟩
      rw [Bool.and_eq_true] at h
      exact h1 ⟨p, c, hp, of_decide_eq_true h.1, of_decide_eq_true h.2⟩
    · rintro ⟨e, he, h⟩
      rw [Bool.and_eq_true] at h
      exact h2 ⟨e, he, of_decide_eq_true h.1, of_decide_eq_true h.2⟩

/-- What an act takes away. -/
def Act.Takes (cwd : Path) (_ : FS) : Act → Path → Prop
  | .rm p, x => x = p
  | .rmr d, x => d <+: x ∧ ¬ d <+: cwd
  | .rmdir _, _ => False

def Act.TakesDir (cwd : Path) (s : FS) : Act → Path → Prop
  | .rm _, _ => False
  | .rmr d, x => d <+: x ∧ ¬ d <+: cwd
  | .rmdir d, x => x = d ∧ ¬ d <+: cwd ∧ ¬ s.Inside d

theorem act_iff {cwd : Path} {s s' : FS} {a : Act} (h : doAct cwd s a = some s') :
    (∀ x, x ∈ s'.files ↔ x ∈ s.files ∧ ¬ a.Takes cwd s x.1) ∧
    (∀ d, d ∈ s'.dirs ↔ d ∈ s.dirs ∧ ¬ a.TakesDir cwd s d) := by
  cases a with
  | rm p =>
    simp only [doAct] at h
    split at h
    · cases h
    · injection h with h
      subst h
      simp [Act.Takes, Act.TakesDir]
  | rmr d =>
    simp only [doAct] at h
    split at h
    · rename_i hw
      injection h with h
      subst h
      simp [Act.Takes, Act.TakesDir, hw]
    · rename_i hw
      split at h
      · cases h
      · injection h with h
        subst h
        simp [Act.Takes, Act.TakesDir, hw]
  | rmdir d =>
    simp only [doAct] at h
    split at h
    · rename_i hw
      injection h with h
      subst h
      simp [Act.Takes, Act.TakesDir, hw]
    · rename_i hw
      split at h
      · cases h
      · split at h
        · rename_i he
          injection h with h
          subst h
          have he := (empty_iff s d).1 he
          simp [Act.Takes, Act.TakesDir, hw, he]
        · rename_i he
          injection h with h
          subst h
          have he : s.Inside d := Classical.byContradiction fun hn => he ((empty_iff s d).2 hn)
          simp [Act.Takes, Act.TakesDir, he]

theorem prefix_dropLast {d p : Path} (h : d <+: p.dropLast) : d <+: p :=
  h.trans (List.dropLast_prefix p)

theorem prefix_eq_or {d p : Path} (h : d <+: p) : d = p ∨ d <+: p.dropLast := by
  obtain ⟨r, rfl⟩ := h
  rcases List.eq_nil_or_concat r with rfl | ⟨r', x, rfl⟩
  · exact Or.inl (by simp)
  · right
    rw [List.concat_eq_append, ← List.append_assoc, List.dropLast_concat]
    exact List.prefix_append _ _

theorem act_ok {cwd : Path} {s s' : FS} {a : Act} (h : doAct cwd s a = some s') (ho : s.Ok) :
    s'.Ok := by
  obtain ⟨h1, h2⟩ := act_iff h
  refine ⟨?_, ?_, ?_⟩
  · intro p c hp
    obtain ⟨hp', hn⟩ := (h1 _).1 hp
    obtain ⟨h3, h4⟩ := ho.file p c hp'
    refine ⟨h3, (h2 _).2 ⟨h4, ?_⟩⟩
    cases a with
    | rm _ => exact id
    | rmr d => exact fun ⟨h5, h6⟩ => hn ⟨prefix_dropLast h5, h6⟩
    | rmdir d => exact fun ⟨h5, _, h6⟩ => h6 (Or.inl ⟨p, c, hp', h3, h5⟩)
  · intro e he hne
    obtain ⟨he', hn⟩ := (h2 _).1 he
    refine (h2 _).2 ⟨ho.dir e he' hne, ?_⟩
    cases a with
    | rm _ => exact id
    | rmr d => exact fun ⟨h5, h6⟩ => hn ⟨prefix_dropLast h5, h6⟩
    | rmdir d => exact fun ⟨h5, _, h6⟩ => h6 (Or.inr ⟨e, he', hne, h5⟩)
  · intro p c hp hd
    exact ho.both p c ((h1 _).1 hp).1 ((h2 _).1 hd).1

/-! ## What belongs to a target -/

theorem mem_extra {ef ed : List Path} {a : Act} :
    a ∈ extra ef ed ↔ (∃ p ∈ ef, a = .rm p) ∨ ∃ d ∈ ed, a = .rmr d := by
  unfold extra
  rw [List.mem_append, List.mem_map, List.mem_map]
  constructor
  · rintro (⟨p, hp, rfl⟩ | ⟨d, hd, rfl⟩)
    · exact Or.inl ⟨p, hp, rfl⟩
    · exact Or.inr ⟨d, hd, rfl⟩
  · rintro (⟨p, hp, rfl⟩ | ⟨d, hd, rfl⟩)
    · exact Or.inl ⟨p, hp, rfl⟩
    · exact Or.inr ⟨d, hd, rfl⟩

/-- The paths that acts are on, by kind of the act. -/
theorem owns_iff (t : Target) (p : Path) :
    t.Owns p ↔ .rm p ∈ acts t ∨ ∃ d, .rmr d ∈ acts t ∧ d <+: p := by
  unfold Target.Owns acts
  cases t.kind with
  | source => simp
  | alias => simp
  | fsdir => simp
  | group ef ms r =>
    simp only [List.mem_append, mem_extra]
    cases r <;> simp
  | file f ef ed ms r =>
    simp only [List.mem_append, List.mem_flatMap, mem_extra]
    constructor
    · rintro (⟨hf, h | ⟨d, hd, h⟩⟩ | ⟨m, hm, (h | ⟨d, hd, h⟩) | ⟨rfl, rfl⟩⟩ | ⟨rfl, rfl⟩)
      · refine Or.inl (Or.inl (Or.inl ?_))
        rw [if_pos (Option.isSome_iff_ne_none.2 hf)]
        exact mem_extra.2 (Or.inl ⟨p, h, rfl⟩)
      · refine Or.inr ⟨d, Or.inl (Or.inl ?_), h⟩
        rw [if_pos (Option.isSome_iff_ne_none.2 hf)]
        exact mem_extra.2 (Or.inr ⟨d, hd, rfl⟩)
      · exact Or.inl (Or.inl (Or.inr ⟨m, hm, Or.inl (Or.inl ⟨p, h, rfl⟩)⟩))
      · exact Or.inr ⟨d, Or.inl (Or.inr ⟨m, hm, Or.inl (Or.inr ⟨d, hd, rfl⟩)⟩), h⟩
      · exact Or.inl (Or.inl (Or.inr ⟨m, hm, Or.inr (by simp)⟩))
      · exact Or.inl (Or.inr (by simp))
    · have hopt : ∀ {a : Act}, a ∈ (if f.isSome = true then extra ef ed else []) →
          f ≠ none ∧ ((∃ p ∈ ef, a = .rm p) ∨ ∃ d ∈ ed, a = .rmr d) := by
        intro a h
        split at h
        · rename_i hf
          exact ⟨Option.isSome_iff_ne_none.1 hf, mem_extra.1 h⟩
        · cases h
      rintro (((h | ⟨m, hm, h | h⟩) | h) | ⟨d, (h | ⟨m, hm, h | h⟩) | h, hd⟩)
      · obtain ⟨hf, ⟨q, hq, e⟩ | ⟨q, hq, e⟩⟩ := hopt h
        · injection e with e; subst e
          exact Or.inl ⟨hf, Or.inl hq⟩
        · cases e
      · rcases h with ⟨q, hq, e⟩ | ⟨q, hq, e⟩
        · injection e with e; subst e
          exact Or.inr (Or.inl ⟨m, hm, Or.inl (Or.inl hq)⟩)
        · cases e
      · cases r with
        | false => cases h
        | true =>
          rw [if_pos rfl, List.mem_singleton] at h
          injection h with e; subst e
          exact Or.inr (Or.inl ⟨m, hm, Or.inr ⟨rfl, rfl⟩⟩)
      · cases r with
        | false => cases h
        | true =>
          rw [if_pos rfl, List.mem_map] at h
          obtain ⟨q, hq, e⟩ := h
          injection e with e; subst e
          exact Or.inr (Or.inr ⟨rfl, Option.mem_toList.1 hq⟩)
      · obtain ⟨hf, ⟨q, hq, e⟩ | ⟨q, hq, e⟩⟩ := hopt h
        · cases e
        · injection e with e; subst e
          exact Or.inl ⟨hf, Or.inr ⟨d, hq, hd⟩⟩
      · rcases h with ⟨q, hq, e⟩ | ⟨q, hq, e⟩
        · cases e
        · injection e with e; subst e
          exact Or.inr (Or.inl ⟨m, hm, Or.inl (Or.inr ⟨d, hq, hd⟩)⟩)
      · cases r with
        | false => cases h
        | true =>
          rw [if_pos rfl, List.mem_singleton] at h
          cases h
      · cases r with
        | false => cases h
        | true =>
          rw [if_pos rfl, List.mem_map] at h
          obtain ⟨q, hq, e⟩ := h
          cases e

theorem ownsDir_iff (t : Target) (p : Path) :
    t.OwnsDir p ↔ .rmdir p ∈ acts t ∨ ∃ d, .rmr d ∈ acts t ∧ d <+: p := by
  unfold Target.OwnsDir acts
  cases t.kind with
  | source => simp
  | alias => simp
  | fsdir => simp
  | group ef ms r =>
    simp only [List.mem_append, mem_extra]
    cases r <;> simp
  | file f ef ed ms r =>
    simp only [List.mem_append, List.mem_flatMap, mem_extra]
    constructor
    · rintro (⟨hf, d, hd, h⟩ | ⟨m, hm, d, hd, h⟩)
      · refine Or.inr ⟨d, Or.inl (Or.inl ?_), h⟩
        rw [if_pos (Option.isSome_iff_ne_none.2 hf)]
        exact mem_extra.2 (Or.inr ⟨d, hd, rfl⟩)
      · exact Or.inr ⟨d, Or.inl (Or.inr ⟨m, hm, Or.inl (Or.inr ⟨d, hd, rfl⟩)⟩), h⟩
    · have hopt : ∀ {a : Act}, a ∈ (if f.isSome = true then extra ef ed else []) →
          f ≠ none ∧ ((∃ p ∈ ef, a = .rm p) ∨ ∃ d ∈ ed, a = .rmr d) := by
        intro a h
        split at h
        · rename_i hf
          exact ⟨Option.isSome_iff_ne_none.1 hf, mem_extra.1 h⟩
        · cases h
      rintro (((h | ⟨m, hm, h | h⟩) | h) | ⟨d, (h | ⟨m, hm, h | h⟩) | h, hd⟩)
      · obtain ⟨hf, ⟨q, hq, e⟩ | ⟨q, hq, e⟩⟩ := hopt h <;> cases e
      · rcases h with ⟨q, hq, e⟩ | ⟨q, hq, e⟩ <;> cases e
      · cases r with
        | false => cases h
        | true => rw [if_pos rfl, List.mem_singleton] at h; cases h
      · cases r with
        | false => cases h
        | true =>
          rw [if_pos rfl, List.mem_map] at h
          obtain ⟨q, hq, e⟩ := h
          cases e
      · obtain ⟨hf, ⟨q, hq, e⟩ | ⟨q, hq, e⟩⟩ := hopt h
        · cases e
        · injection e with e; subst e
          exact Or.inl ⟨hf, d, hq, hd⟩
      · rcases h with ⟨q, hq, e⟩ | ⟨q, hq, e⟩
        · cases e
        · injection e with e; subst e
          exact Or.inr ⟨m, hm, d, hq, hd⟩
      · cases r with
        | false => cases h
        | true => rw [if_pos rfl, List.mem_singleton] at h; cases h
      · cases r with
        | false => cases h
        | true =>
          rw [if_pos rfl, List.mem_map] at h
          obtain ⟨q, hq, e⟩ := h
          cases e

theorem rmdir_mem {t : Target} {d : Path} (h : .rmdir d ∈ acts t) :
    t.kind = .fsdir ∧ d = t.dir := by
  have ho := (ownsDir_iff t d).2 (Or.inl h)
  cases hk : t.kind with
  | fsdir =>
    unfold Target.OwnsDir at ho
    rw [hk] at ho
    exact ⟨rfl, ho⟩
  | source => unfold acts at h; rw [hk] at h; cases h
  | alias => unfold acts at h; rw [hk] at h; cases h
  | group ef ms r =>
    unfold acts at h
    rw [hk] at h
    simp only [List.mem_append, mem_extra] at h
    cases r <;> simp at h
  | file f ef ed ms r =>
    unfold acts at h
    rw [hk] at h
    simp only [List.mem_append, List.mem_flatMap, mem_extra] at h
    cases r <;> cases f <;> simp [mem_extra] at h

theorem takes_owns {cwd : Path} {s : FS} {t : Target} {a : Act} {x : Path} (h : a ∈ acts t)
    (ht : a.Takes cwd s x) : t.Owns x := by
  rw [owns_iff]
  cases a with
  | rm p => cases ht; exact Or.inl h
  | rmr d => exact Or.inr ⟨d, h, ht.1⟩
  | rmdir d => cases ht

theorem takesDir_owns {cwd : Path} {s : FS} {t : Target} {a : Act} {x : Path} (h : a ∈ acts t)
    (ht : a.TakesDir cwd s x) : t.OwnsDir x := by
  rw [ownsDir_iff]
  cases a with
  | rm p => cases ht
  | rmr d => exact Or.inr ⟨d, h, ht.1⟩
  | rmdir d => obtain ⟨rfl, _⟩ := ht; exact Or.inl h

/-! ## Invariants -/

/-- What has been removed so far. -/
structure FInv (g : Graph) (fs : FS) (s : Exec) : Prop where
  ok    : s.fs.Ok
  files : ∀ x, x ∈ s.fs.files → x ∈ fs.files
  dirs  : ∀ d, d ∈ s.fs.dirs → d ∈ fs.dirs
  lost  : ∀ x, x ∈ fs.files → x ∉ s.fs.files → ∃ t ∈ s.started, (g.target t).Owns x.1
  lostDir : ∀ d, d ∈ fs.dirs → d ∉ s.fs.dirs →
    (∃ t ∈ s.started, (g.target t).OwnsDir d) ∧ ¬ d <+: g.cwd
  suffix : ∀ t as, (t, as) ∈ s.running → ∃ p, acts (g.target t) = p ++ as

theorem started_mono {g : Graph} {s s' : Exec} (h : Exec.Step g s s') :
    ∀ t, t ∈ s.started → t ∈ s'.started := by
  intro t ht
  unfold Exec.started at ht ⊢
  cases h with
  | postpone => exact ht
  | start => exact List.mem_cons_of_mem _ ht
  | act hr => rw [hr] at ht; simpa using ht
  | finish hr =>
    rw [hr] at ht
    simp only [List.map_append, List.map_cons, List.mem_append, List.mem_cons] at ht ⊢
    rcases ht with ((h | h | h) | h) | h <;> simp [h]
  | fail hr =>
    rw [hr] at ht
    simp only [List.map_append, List.map_cons, List.mem_append, List.mem_cons] at ht ⊢
    rcases ht with ((h | h | h) | h) | h <;> simp [h]

theorem fs_step {g : Graph} {fs : FS} {s s' : Exec} (hi : FInv g fs s) (hs : Exec.Step g s s') :
    FInv g fs s' := by
  have hm := started_mono hs
  have same : s'.fs = s.fs → (∀ t as, (t, as) ∈ s'.running → ∃ p, acts (g.target t) = p ++ as) →
      FInv g fs s' := by
    intro e h
    refine ⟨by rw [e]; exact hi.ok, by rw [e]; exact hi.files, by rw [e]; exact hi.dirs, ?_, ?_, h⟩
    · intro x hx hn
      rw [e] at hn
      obtain ⟨t, ht, ho⟩ := hi.lost x hx hn
      exact ⟨t, hm t ht, ho⟩
    · intro d hd hn
      rw [e] at hn
      obtain ⟨⟨t, ht, ho⟩, hw⟩ := hi.lostDir d hd hn
      exact ⟨⟨t, hm t ht, ho⟩, hw⟩
  cases hs with
  | postpone => exact same rfl hi.suffix
  | start =>
    refine same rfl fun t as h => ?_
    rcases List.mem_cons.1 h with e | h
    · injection e with e1 e2
      subst e1 e2
      exact ⟨[], rfl⟩
    · exact hi.suffix t as h
  | @act l t a as r f hr hf =>
    have hmem : (t, a :: as) ∈ s.running := by rw [hr]; simp
    obtain ⟨p, hp⟩ := hi.suffix t (a :: as) hmem
    have ha : a ∈ acts (g.target t) := by rw [hp]; simp
    have hts : t ∈ s.started := by
      unfold Exec.started; rw [hr]; simp
    obtain ⟨h1, h2⟩ := act_iff hf
    refine ⟨act_ok hf hi.ok, fun x hx => hi.files x ((h1 x).1 hx).1,
      fun d hd => hi.dirs d ((h2 d).1 hd).1, ?_, ?_, ?_⟩
    · intro x hx hn
      by_cases hx' : x ∈ s.fs.files
      · refine ⟨t, hm t hts, takes_owns (cwd := g.cwd) (s := s.fs) ha ?_⟩
        exact Classical.byContradiction fun hc => hn ((h1 x).2 ⟨hx', hc⟩)
      · obtain ⟨u, hu, ho⟩ := hi.lost x hx hx'
        exact ⟨u, hm u hu, ho⟩
    · intro d hd hn
      by_cases hd' : d ∈ s.fs.dirs
      · have ht : a.TakesDir g.cwd s.fs d :=
          Classical.byContradiction fun hc => hn ((h2 d).2 ⟨hd', hc⟩)
        refine ⟨⟨t, hm t hts, takesDir_owns ha ht⟩, fun hw => ?_⟩
        cases a with
        | rm _ => exact ht
        | rmr e => exact ht.2 (ht.1.trans hw)
        | rmdir e => obtain ⟨rfl, h3, _⟩ := ht; exact h3 hw
      · obtain ⟨⟨u, hu, ho⟩, hw⟩ := hi.lostDir d hd hd'
        exact ⟨⟨u, hm u hu, ho⟩, hw⟩
    · intro u bs h
      rcases List.mem_append.1 h with h | h
      · exact hi.suffix u bs (by rw [hr]; exact List.mem_append_left _ h)
      · rcases List.mem_cons.1 h with e | h
        · injection e with e1 e2
          subst e1 e2
          exact ⟨p ++ [a], by rw [hp]; simp⟩
        · exact hi.suffix u bs (by
            rw [hr]; exact List.mem_append_right _ (List.mem_cons_of_mem _ h))
  | @finish l t r hr =>
    refine same rfl fun u as h => hi.suffix u as ?_
    rw [hr]
    rcases List.mem_append.1 h with h | h
    · exact List.mem_append_left _ h
    · exact List.mem_append_right _ (List.mem_cons_of_mem _ h)
  | @fail l t bs r hr =>
    refine same rfl fun u as h => hi.suffix u as ?_
    rw [hr]
    rcases List.mem_append.1 h with h | h
    · exact List.mem_append_left _ h
    · exact List.mem_append_right _ (List.mem_cons_of_mem _ h)

theorem fs_inv {g : Graph} {fs : FS} {roots : List Nat} {count : Nat → Nat} {s : Exec}
    (ho : fs.Ok) (h : Star (Exec.Step g) ⟨fs, count, roots, [], [], []⟩ s) : FInv g fs s := by
  generalize hs0 : (⟨fs, count, roots, [], [], []⟩ : Exec) = s0 at h
  induction h with
  | refl =>
    subst hs0
    exact ⟨ho, fun _ h => h, fun _ h => h, fun _ h h' => absurd h h', fun _ h h' => absurd h h',
      nofun⟩
  | tail _ hs ih => exact fs_step ih hs

/-- What an act is for, if `b` including removing directories. -/
def Effect (b : Prop) (cwd : Path) (s : FS) : Act → Prop
  | .rm p => ∀ c, (p, c) ∉ s.files
  | .rmr d => d <+: cwd ∨ ((∀ x ∈ s.files, ¬ d <+: x.1) ∧ ∀ e ∈ s.dirs, ¬ d <+: e)
  | .rmdir d => b → d ∉ s.dirs ∨ d <+: cwd ∨ s.Inside d

theorem act_effect (b : Prop) {cwd : Path} {s s' : FS} {a : Act} (h : doAct cwd s a = some s') :
    Effect b cwd s' a := by
  obtain ⟨h1, h2⟩ := act_iff h
  cases a with
  | rm p => exact fun c hc => ((h1 _).1 hc).2 rfl
  | rmr d =>
    by_cases hw : d <+: cwd
    · exact Or.inl hw
    · refine Or.inr ⟨fun x hx hd => ((h1 x).1 hx).2 ⟨hd, hw⟩, fun e he hd => ((h2 e).1 he).2 ⟨hd, hw⟩⟩
  | rmdir d =>
    intro _
    by_cases hw : d <+: cwd
    · exact Or.inr (Or.inl hw)
    · by_cases hin : s.Inside d
      · refine Or.inr (Or.inr ?_)
        rcases hin with ⟨p, c, hp, h3, h4⟩ | ⟨e, he, h3, h4⟩
        · exact Or.inl ⟨p, c, (h1 _).2 ⟨hp, id⟩, h3, h4⟩
        · refine Or.inr ⟨e, (h2 _).2 ⟨he, fun ⟨h5, _, h6⟩ => ?_⟩, h3, h4⟩
          exact h6 (Or.inr ⟨e, he, h3, h4⟩)
      · exact Or.inl fun hd => ((h2 d).1 hd).2 ⟨rfl, hw, hin⟩

/-- What has been done has its effect. -/
structure DInv (b : Prop) (g : Graph) (s : Exec) : Prop where
  running : ∀ t as, (t, as) ∈ s.running → ∃ p, acts (g.target t) = p ++ as ∧
    ∀ a ∈ p, Effect b g.cwd s.fs a
  done : ∀ t, t ∈ s.done → ∀ a ∈ acts (g.target t), Effect b g.cwd s.fs a

theorem effect_stable {b : Prop} {g : Graph} {roots M : List Nat} {count : Nat → Nat}
    (hm : Matched g roots M count) (hp : b → g.Placed roots) {s : Exec} (he : EInv g M s)
    {t u : Nat} {a c : Act} (ht : t ∈ s.running.map (·.1)) (ha : a ∈ acts (g.target t))
    (hu : u ∈ s.started) (hc : c ∈ acts (g.target u)) {f : FS}
    (hf : doAct g.cwd s.fs a = some f) (h : Effect b g.cwd s.fs c) : Effect b g.cwd f c := by
  obtain ⟨h1, h2⟩ := act_iff hf
  cases c with
  | rm p => exact fun x hx => h x ((h1 _).1 hx).1
  | rmr d =>
    rcases h with h | ⟨h3, h4⟩
    · exact Or.inl h
    · exact Or.inr ⟨fun x hx => h3 x ((h1 x).1 hx).1, fun e he => h4 e ((h2 e).1 he).1⟩
  | rmdir d =>
    intro hb
    obtain ⟨hk, hd⟩ := rmdir_mem hc
    have hts : t ∈ s.started := by
      unfold Exec.started
      rw [List.append_assoc]
      exact List.mem_append_left _ ht
    have htM := he.sub t hts
    have huM := he.sub u hu
    -- Nothing that is not done takes anything from the directory.
    have key : ∀ p, p ≠ [] → p.dropLast = d →
        ¬ ((g.target t).Owns p ∨ (g.target t).OwnsDir p) := by
      intro p hne hpd ho
      have htC := (hm.cleaned t).1 htM
      have huC := (hm.cleaned u).1 huM
      obtain ⟨h5, h6⟩ := (hp hb).inside t htC u huC hk p hne (hpd.trans hd) ho
      have hi : g.Involves t u := by
        refine ⟨?_, Or.inl ⟨?_, Or.inl h6⟩⟩
        · intro hks
          rcases ho with ho | ho
          · unfold Target.Owns at ho; rw [hks] at ho; exact ho
          · unfold Target.OwnsDir at ho; rw [hks] at ho; exact ho
        · rw [h5]; exact (hp hb).fsdir u huC hk
      have hdone := dependents_done he htM hi hu
      have hn := he.nodup
      unfold Exec.started at hn
      rw [List.append_assoc, List.nodup_append] at hn
      exact hn.2.2 t ht t (List.mem_append_left _ hdone) rfl
    rcases h hb with h | h | ⟨p, c, hpm, h3, h4⟩ | ⟨e, hem, h3, h4⟩
    · exact Or.inl fun hd => h ((h2 d).1 hd).1
    · exact Or.inr (Or.inl h)
    · refine Or.inr (Or.inr (Or.inl ⟨p, c, (h1 _).2 ⟨hpm, fun ht => ?_⟩, h3, h4⟩))
      exact key p h3 h4 (Or.inl (takes_owns ha ht))
    · refine Or.inr (Or.inr (Or.inr ⟨e, (h2 _).2 ⟨hem, fun ht => ?_⟩, h3, h4⟩))
      exact key e h3 h4 (Or.inr (takesDir_owns ha ht))

theorem done_step {b : Prop} {g : Graph} {roots M : List Nat} {count : Nat → Nat}
    (hm : Matched g roots M count) (hp : b → g.Placed roots) {s s' : Exec} (he : EInv g M s)
    (hd : DInv b g s) (hs : Exec.Step g s s') : DInv b g s' := by
  cases hs with
  | postpone => exact ⟨hd.running, hd.done⟩
  | start =>
    refine ⟨fun t as h => ?_, hd.done⟩
    rcases List.mem_cons.1 h with e | h
    · injection e with e1 e2
      subst e1 e2
      exact ⟨[], rfl, nofun⟩
    · exact hd.running t as h
  | @act l t a as r f hr hf =>
    have hmem : (t, a :: as) ∈ s.running := by rw [hr]; simp
    obtain ⟨p, hpe, hpa⟩ := hd.running t (a :: as) hmem
    have ha : a ∈ acts (g.target t) := by rw [hpe]; simp
    have htr : t ∈ s.running.map (·.1) := List.mem_map.2 ⟨_, hmem, rfl⟩
    have hrs : ∀ u, u ∈ s.running.map (·.1) → u ∈ s.started := fun u h => by
      unfold Exec.started; rw [List.append_assoc]; exact List.mem_append_left _ h
    have stable : ∀ u c, u ∈ s.started → c ∈ acts (g.target u) → Effect b g.cwd s.fs c →
        Effect b g.cwd f c := fun u c hu hc h => effect_stable hm hp he htr ha hu hc hf h
    have old : ∀ u bs, (u, bs) ∈ s.running → ∃ p, acts (g.target u) = p ++ bs ∧
        ∀ a ∈ p, Effect b g.cwd f a := by
      intro u bs h
      obtain ⟨q, hq, hqa⟩ := hd.running u bs h
      refine ⟨q, hq, fun c hc => stable u c (hrs u (List.mem_map.2 ⟨_, h, rfl⟩)) ?_ (hqa c hc)⟩
      rw [hq]; exact List.mem_append_left _ hc
    refine ⟨fun u bs h => ?_, fun u hu c hc => ?_⟩
    · rcases List.mem_append.1 h with h | h
      · exact old u bs (by rw [hr]; exact List.mem_append_left _ h)
      · rcases List.mem_cons.1 h with e | h
        · injection e with e1 e2
          subst e1 e2
          refine ⟨p ++ [a], by rw [hpe]; simp, fun c hc => ?_⟩
          rcases List.mem_append.1 hc with hc | hc
          · exact stable u c (hrs u htr) (by rw [hpe]; exact List.mem_append_left _ hc) (hpa c hc)
          · rw [List.mem_singleton] at hc
            subst hc
            exact act_effect b hf
        · exact old u bs (by rw [hr]; exact List.mem_append_right _ (List.mem_cons_of_mem _ h))
    · refine stable u c ?_ hc (hd.done u hu c hc)
      unfold Exec.started
      exact List.mem_append_left _ (List.mem_append_right _ hu)
  | @finish l t r hr =>
    refine ⟨fun u as h => hd.running u as ?_, fun u hu => ?_⟩
    · rw [hr]
      rcases List.mem_append.1 h with h | h
      · exact List.mem_append_left _ h
      · exact List.mem_append_right _ (List.mem_cons_of_mem _ h)
    · rcases List.mem_cons.1 hu with rfl | hu
      · obtain ⟨p, hpe, hpa⟩ := hd.running u [] (by rw [hr]; simp)
        intro a ha
        rw [hpe, List.append_nil] at ha
        exact hpa a ha
      · exact hd.done u hu
  | @fail l t bs r hr =>
    refine ⟨fun u as h => hd.running u as ?_, hd.done⟩
    rw [hr]
    rcases List.mem_append.1 h with h | h
    · exact List.mem_append_left _ h
    · exact List.mem_append_right _ (List.mem_cons_of_mem _ h)

theorem done_inv {b : Prop} {g : Graph} {roots M : List Nat} {count : Nat → Nat} {fs : FS}
    {s : Exec} (hm : Matched g roots M count) (hp : b → g.Placed roots)
    (h : Star (Exec.Step g) ⟨fs, count, roots, [], [], []⟩ s) : EInv g M s ∧ DInv b g s := by
  refine ⟨exec_inv hm h, ?_⟩
  generalize hs0 : (⟨fs, count, roots, [], [], []⟩ : Exec) = s0 at h
  induction h with
  | refl => subst hs0; exact ⟨nofun, nofun⟩
  | tail h hs ih =>
    subst hs0
    exact done_step hm hp (exec_inv hm h) ih hs

end Verif.Clean
