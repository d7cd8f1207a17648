import Verif.Cleanup.Model
/-!
# Cleaning up after scripts: lemmas
-/

namespace Verif.Cleanup

theorem at_nil (p : Path) : FS.at [] p = none := rfl

theorem at_cons (e : Path × Kind) (fs : FS) (p : Path) :
    FS.at (e :: fs) p = if e.1 = p then some e.2 else FS.at fs p := by
  unfold FS.at
  rw [List.find?_cons]
  by_cases h : e.1 = p
  · simp [h]
  · simp [h]

theorem at_filter (fs : FS) (g : Path → Bool) (p : Path) :
    FS.at (fs.filter fun e => g e.1) p = if g p then fs.at p else none := by
  induction fs with
  | nil => simp [at_nil]
  | cons e fs ih =>
    rw [List.filter_cons]
    by_cases hg : g e.1 = true
    · rw [if_pos hg, at_cons, at_cons, ih]
      by_cases he : e.1 = p
      · rw [if_pos he, if_pos he, ← he, if_pos hg]
      · rw [if_neg he, if_neg he]
    · rw [if_neg hg, ih, at_cons]
      by_cases he : e.1 = p
      · rw [← he, if_neg hg, if_neg hg]
      · rw [if_neg he]

theorem at_append (fs fs' : FS) (p : Path) :
    FS.at (fs ++ fs') p = if fs.at p = none then fs'.at p else fs.at p := by
  induction fs with
  | nil => simp [at_nil]
  | cons e fs ih =>
    rw [List.cons_append, at_cons, at_cons, ih]
    by_cases he : e.1 = p
    · simp [he]
    · simp [he]

theorem at_none_iff (fs : FS) (p : Path) : fs.at p = none ↔ p ∉ fs.map (·.1) := by
  induction fs with
  | nil => simp [at_nil]
  | cons e fs ih =>
    rw [at_cons, List.map_cons, List.mem_cons]
    by_cases he : e.1 = p
    · simp [he]
    · rw [if_neg he, ih]
      constructor
      · rintro h (h' | h')
        · exact he h'.symm
        · exact h h'
      · exact fun h h' => h (Or.inr h')

theorem at_mem {fs : FS} {p : Path} {k : Kind} (h : fs.at p = some k) : (p, k) ∈ fs := by
  induction fs with
  | nil => cases h
  | cons e fs ih =>
    rw [at_cons] at h
    by_cases he : e.1 = p
    · rw [if_pos he] at h
      injection h with h
      rw [← he, ← h]
      exact List.mem_cons_self
    · rw [if_neg he] at h
      exact List.mem_cons_of_mem _ (ih h)

theorem mem_at {fs : FS} {p : Path} {k : Kind} (h : (p, k) ∈ fs) : fs.at p ≠ none := by
  intro hn
  rw [at_none_iff] at hn
  exact hn (List.mem_map.mpr ⟨_, h, rfl⟩)

theorem mem_at_eq {fs : FS} (hn : (fs.map (·.1)).Nodup) {p : Path} {k : Kind}
    (h : (p, k) ∈ fs) : fs.at p = some k := by
  induction fs with
  | nil => cases h
  | cons e fs ih =>
    rw [List.map_cons, List.nodup_cons] at hn
    rw [at_cons]
    rcases List.mem_cons.mp h with h | h
    · rw [← h]; simp
    · rw [if_neg, ih hn.2 h]
      rintro rfl
      exact hn.1 (List.mem_map.mpr ⟨_, h, rfl⟩)

theorem sub_iff (p d : Path) : sub p d = true ↔ d <+: p := by
  unfold sub
  exact List.isPrefixOf_iff_prefix

theorem below_any (fs : FS) (p : Path) :
    (fs.any fun e => decide (Below e.1 p)) = true ↔ ∃ q, Below q p ∧ fs.at q ≠ none := by
  rw [List.any_eq_true]
  constructor
  · rintro ⟨e, he, h⟩
    rw [decide_eq_true_eq] at h
    exact ⟨e.1, h, mem_at (k := e.2) he⟩
  · rintro ⟨q, h, hq⟩
    cases hk : fs.at q with
    | none => exact absurd hk hq
    | some k => exact ⟨(q, k), at_mem hk, by simpa using h⟩

theorem removed_refl (fs : FS) (g : Path → Prop) : Removed fs fs g := fun _ => Or.inl rfl

theorem removed_trans {a b c : FS} {g : Path → Prop} (h1 : Removed a b g) (h2 : Removed b c g) :
    Removed a c g := by
  intro p
  rcases h2 p with h | h
  · rcases h1 p with h' | h'
    · exact Or.inl (h.trans h')
    · exact Or.inr ⟨h'.1, h.trans h'.2⟩
  · exact Or.inr h

theorem removed_mono {a b : FS} {g g' : Path → Prop} (h : Removed a b g) (hg : ∀ p, g p → g' p) :
    Removed a b g' := by
  intro p
  rcases h p with h | h
  · exact Or.inl h
  · exact Or.inr ⟨hg p h.1, h.2⟩

theorem removed_filter (fs : FS) (g : Path → Bool) :
    Removed fs (fs.filter fun e => g e.1) (fun p => g p = false) := by
  intro p
  rw [at_filter]
  cases hg : g p with
  | true => exact Or.inl (if_pos rfl)
  | false => exact Or.inr ⟨hg, if_neg (by simp)⟩

theorem rmfile_removed (fs : FS) (p : Path) :
    Removed fs (rmfile fs p).1 (fun q => q = p) := by
  unfold rmfile
  split
  · exact removed_refl _ _
  · exact removed_mono (removed_filter fs fun q => decide (q ≠ p)) (by simp)
  · exact removed_refl _ _

theorem rmdir_removed (cwd : Path) (fs : FS) (p : Path) :
    Removed fs (rmdir cwd fs p).1 (fun q => q = p) := by
  unfold rmdir
  split
  · exact removed_refl _ _
  · split
    · exact removed_refl _ _
    · exact removed_refl _ _
    · split
      · exact removed_refl _ _
      · exact removed_mono (removed_filter fs fun q => decide (q ≠ p)) (by simp)

theorem rmdirR_removed (cwd : Path) (fs : FS) (p : Path) (dir : Bool) :
    Removed fs (rmdirR cwd fs p dir).1 (fun q => p <+: q ∧ (dir = false → q ≠ p)) := by
  unfold rmdirR
  split
  · exact removed_refl _ _
  · split
    · exact removed_refl _ _
    · exact removed_refl _ _
    · refine removed_mono
        (removed_filter fs fun q => !(sub q p && (dir || decide (q ≠ p)))) ?_
      intro q hq
      simp only [Bool.not_eq_false', Bool.and_eq_true] at hq
      refine ⟨(sub_iff _ _).mp hq.1, ?_⟩
      rintro rfl
      simpa using hq.2

/-! ## One after another -/

/-- What is found is there and matches. What matches is in the directory that
the components before the first one with wildcards name. -/
structure Sound (env : Env) : Prop where
  found : ∀ {p toDir fs q k}, (q, k) ∈ env.search p toDir fs →
    fs.at q = some k ∧ env.hit p q = true ∧ (k = .dir ↔ toDir = true)
  inside : ∀ {p q}, env.hit p q = true → p.takeWhile (fun a => !env.wild a) <+: q

/-- What is registered with this: the path itself, everything in the
directory for `***`, or whatever matches. -/
def Covers (env : Env) (c : Entry) (q : Path) : Prop :=
  c.type ≠ .never ∧
  if recursive c then
    if c.path.dropLast.any env.wild then ∃ d, env.hit c.path.dropLast d = true ∧ d <+: q
    else c.path.dropLast <+: q
  else if c.path.any env.wild then env.hit c.path q = true
  else q = c.path

theorem rmFound_removed (env : Env) (c : Entry) (es : List (Path × Kind)) (fs : FS)
    (hd : recursive c = true → ∀ e ∈ es, e.2 = .dir) :
    Removed fs (rmFound env c fs es).1 (fun q => ∃ e ∈ es,
      if recursive c then e.1 <+: q else q = e.1) := by
  induction es generalizing fs with
  | nil => exact removed_refl _ _
  | cons e es ih =>
    obtain ⟨p, k⟩ := e
    have ih' := fun fs => ih fs fun h e he => hd h e (List.mem_cons_of_mem _ he)
    have tail : ∀ fs, Removed fs (rmFound env c fs es).1 (fun q => ∃ e ∈ (p, k) :: es,
        if recursive c then e.1 <+: q else q = e.1) := by
      intro fs
      refine removed_mono (ih' fs) ?_
      rintro q ⟨e, he, h⟩
      exact ⟨e, List.mem_cons_of_mem _ he, h⟩
    cases k with
    | dir =>
      unfold rmFound
      by_cases hr : recursive c = true
      · rw [if_pos hr]
        have h1 : Removed fs (rmdirR env.cwd fs p (decide (p ≠ env.work))).1
            (fun q => ∃ e ∈ (p, Kind.dir) :: es, if recursive c then e.1 <+: q else q = e.1) := by
          refine removed_mono (rmdirR_removed env.cwd fs p _) ?_
          rintro q ⟨hq, -⟩
          exact ⟨_, List.mem_cons_self, by rw [if_pos hr]; exact hq⟩
        cases hs : rmdirR env.cwd fs p (decide (p ≠ env.work)) with
        | mk fs1 st =>
          rw [hs] at h1
          cases st with
          | notEmpty => exact h1
          | error => exact h1
          | success => exact removed_trans h1 (tail fs1)
          | notExist => exact removed_trans h1 (tail fs1)
      · rw [if_neg hr]
        have h1 : Removed fs (rmdir env.cwd fs p).1
            (fun q => ∃ e ∈ (p, Kind.dir) :: es, if recursive c then e.1 <+: q else q = e.1) := by
          refine removed_mono (rmdir_removed env.cwd fs p) ?_
          rintro q hq
          exact ⟨_, List.mem_cons_self, by rw [if_neg hr]; exact hq⟩
        cases hs : rmdir env.cwd fs p with
        | mk fs1 st =>
          rw [hs] at h1
          cases st with
          | notEmpty => exact h1
          | error => exact h1
          | success => exact removed_trans h1 (tail fs1)
          | notExist => exact removed_trans h1 (tail fs1)
    | file =>
      unfold rmFound
      have hr : ¬ recursive c = true := fun h => by
        have := hd h _ List.mem_cons_self
        cases this
      have h1 : Removed fs (rmfile fs p).1
          (fun q => ∃ e ∈ (p, Kind.file) :: es, if recursive c then e.1 <+: q else q = e.1) := by
        refine removed_mono (rmfile_removed fs p) ?_
        rintro q hq
        exact ⟨_, List.mem_cons_self, by rw [if_neg hr]; exact hq⟩
      cases hs : rmfile fs p with
      | mk fs1 st =>
        rw [hs] at h1
        cases st with
        | error => exact h1
        | notEmpty => exact removed_trans h1 (tail fs1)
        | success => exact removed_trans h1 (tail fs1)
        | notExist => exact removed_trans h1 (tail fs1)

theorem clean1_removed {env : Env} (hs : Sound env) (c : Entry) (fs : FS) :
    Removed fs (clean1 env fs c).1 (Covers env c) := by
  unfold clean1
  by_cases hn : c.type = .never
  · rw [if_pos hn]
    exact removed_refl _ _
  · rw [if_neg hn]
    by_cases hr : recursive c = true
    · have ht : target c = (c.path.dropLast, true) := by unfold target; rw [if_pos hr]
      rw [ht]
      simp only
      by_cases hw : c.path.dropLast.any env.wild = true
      · rw [if_pos hw]
        have h1 := rmFound_removed env c (env.search c.path.dropLast true fs) fs
          (fun _ e he => ((hs.found (q := e.1) (k := e.2) he).2.2).mpr rfl)
        have h2 : Removed fs (rmFound env c fs (env.search c.path.dropLast true fs)).1
            (Covers env c) := by
          refine removed_mono h1 ?_
          rintro q ⟨e, he, h⟩
          rw [if_pos hr] at h
          refine ⟨hn, ?_⟩
          rw [if_pos hr, if_pos hw]
          exact ⟨e.1, (hs.found (q := e.1) (k := e.2) he).2.1, h⟩
        cases hx : rmFound env c fs (env.search c.path.dropLast true fs) with
        | mk fs1 f =>
          rw [hx] at h2
          cases f with
          | some f => exact h2
          | none => simp only; split <;> exact h2
      · rw [if_neg hw]
        simp only [if_true, hr]
        have h2 : Removed fs (rmdirR env.cwd fs c.path.dropLast
            (decide (c.path.dropLast ≠ env.work))).1 (Covers env c) := by
          refine removed_mono (rmdirR_removed _ _ _ _) ?_
          rintro q ⟨h, -⟩
          refine ⟨hn, ?_⟩
          rw [if_pos hr, if_neg hw]
          exact h
        cases hx : rmdirR env.cwd fs c.path.dropLast (decide (c.path.dropLast ≠ env.work)) with
        | mk fs1 st =>
          rw [hx] at h2
          cases st with
          | success => exact h2
          | notExist => simp only; split <;> exact h2
          | notEmpty => exact h2
          | error => exact h2
    · have ht : target c = (c.path, c.toDir) := by unfold target; rw [if_neg hr]
      rw [ht]
      simp only
      by_cases hw : c.path.any env.wild = true
      · rw [if_pos hw]
        have h1 := rmFound_removed env c (env.search c.path c.toDir fs) fs
          (fun h => absurd h hr)
        have h2 : Removed fs (rmFound env c fs (env.search c.path c.toDir fs)).1
            (Covers env c) := by
          refine removed_mono h1 ?_
          rintro q ⟨e, he, h⟩
          rw [if_neg hr] at h
          refine ⟨hn, ?_⟩
          rw [if_neg hr, if_pos hw, h]
          exact (hs.found (q := e.1) (k := e.2) he).2.1
        cases hx : rmFound env c fs (env.search c.path c.toDir fs) with
        | mk fs1 f =>
          rw [hx] at h2
          cases f with
          | some f => exact h2
          | none => simp only; split <;> exact h2
      · rw [if_neg hw]
        have hc : ∀ q, q = c.path → Covers env c q := by
          rintro q rfl
          refine ⟨hn, ?_⟩
          rw [if_neg hr, if_neg hw]
        by_cases hd : c.toDir = true
        · rw [if_pos hd, if_neg hr]
          have h2 := removed_mono (rmdir_removed env.cwd fs c.path) hc
          cases hx : rmdir env.cwd fs c.path with
          | mk fs1 st =>
            rw [hx] at h2
            cases st with
            | success => exact h2
            | notExist => simp only; split <;> exact h2
            | notEmpty => exact h2
            | error => exact h2
        · rw [if_neg hd]
          have h2 := removed_mono (rmfile_removed fs c.path) hc
          cases hx : rmfile fs c.path with
          | mk fs1 st =>
            rw [hx] at h2
            cases st with
            | success => exact h2
            | notExist => simp only; split <;> exact h2
            | notEmpty => exact h2
            | error => exact h2

theorem cleanAll_removed {env : Env} (hs : Sound env) (cs : List Entry) (fs : FS) :
    Removed fs (cleanAll env fs cs).1 (fun q => ∃ c ∈ cs, Covers env c q) := by
  induction cs generalizing fs with
  | nil => exact removed_refl _ _
  | cons c cs ih =>
    unfold cleanAll
    have h1 : Removed fs (clean1 env fs c).1 (fun q => ∃ d ∈ c :: cs, Covers env d q) :=
      removed_mono (clean1_removed hs c fs) fun q h => ⟨c, List.mem_cons_self, h⟩
    cases hx : clean1 env fs c with
    | mk fs1 f =>
      rw [hx] at h1
      cases f with
      | some f => exact h1
      | none =>
        refine removed_trans h1 (removed_mono (ih fs1) ?_)
        rintro q ⟨d, hd, h⟩
        exact ⟨d, List.mem_cons_of_mem _ hd, h⟩

/-! ## Paths without wildcards -/

/-- Without wildcards. -/
def Plain (env : Env) (c : Entry) : Prop := recursive c = false ∧ c.path.any env.wild = false

/-- What removing one needs. -/
def Fine (fs : FS) (c : Entry) (spared : Path → Prop) : Prop :=
  c.type ≠ .never →
    (fs.at c.path = none → c.type = .maybe) ∧
    ∀ k, fs.at c.path = some k →
      k = c.kind ∧ (k = .dir → ∀ q, Below q c.path → fs.at q ≠ none → spared q)

theorem clean1_plain {env : Env} {c : Entry} (hp : Plain env c) (hcwd : ¬ c.path <+: env.cwd)
    (fs : FS) :
    ((clean1 env fs c).2 = none ↔ Fine fs c (fun _ => False)) ∧
    ((clean1 env fs c).2 = none → ∀ q, (clean1 env fs c).1.at q =
      if q = c.path ∧ c.type ≠ .never then none else fs.at q) := by
  obtain ⟨hr, hw⟩ := hp
  have ht : target c = (c.path, c.toDir) := by unfold target; rw [hr]; rfl
  have hcw : ¬ sub env.cwd c.path = true := fun h => hcwd ((sub_iff _ _).mp h)
  unfold clean1
  by_cases hn : c.type = .never
  · rw [if_pos hn]
    refine ⟨⟨fun _ h => absurd hn h, fun _ => rfl⟩, fun _ q => ?_⟩
    simp [hn]
  · have gone : ∀ q, FS.at (fs.filter fun e => decide (e.1 ≠ c.path)) q =
        if q = c.path ∧ c.type ≠ .never then none else fs.at q := by
      intro q
      rw [at_filter fs fun q => decide (q ≠ c.path)]
      by_cases hq : q = c.path
      · simp [hq, hn]
      · simp [hq]
    have kept : fs.at c.path = none → ∀ q, fs.at q =
        if q = c.path ∧ c.type ≠ .never then none else fs.at q := by
      intro h q
      by_cases hq : q = c.path
      · simp [hq, h]
      · simp [hq]
    rw [if_neg hn, ht]
    simp only [hw, hr, Bool.false_eq_true, if_false]
    have hk : c.kind = if c.toDir then .dir else .file := rfl
    cases hd : c.toDir with
    | true =>
      rw [hd] at hk
      simp only [if_true]
      unfold rmdir
      rw [if_neg hcw]
      cases ha : fs.at c.path with
      | none =>
        simp only
        by_cases hm : c.type = .maybe
        · rw [if_pos hm]
          exact ⟨⟨fun _ _ => ⟨fun _ => hm, by simp [ha]⟩, fun _ => rfl⟩, fun _ => kept ha⟩
        · rw [if_neg hm]
          exact ⟨⟨by simp, fun h => absurd ((h hn).1 ha) hm⟩, by simp⟩
      | some k =>
        cases k with
        | file =>
          simp only
          refine ⟨⟨by simp, fun h => ?_⟩, by simp⟩
          have := ((h hn).2 _ ha).1
          rw [hk] at this
          cases this
        | dir =>
          simp only
          by_cases hb : (fs.any fun e => decide (Below e.1 c.path)) = true
          · rw [if_pos hb]
            refine ⟨⟨by simp, fun h => ?_⟩, by simp⟩
            obtain ⟨q, hq, hq'⟩ := (below_any _ _).mp hb
            exact absurd (((h hn).2 _ ha).2 rfl q hq hq') id
          · rw [if_neg hb]
            refine ⟨⟨fun _ _ => ⟨by simp [ha], fun k hk' => ?_⟩, fun _ => rfl⟩, fun _ => gone⟩
            rw [ha] at hk'
            injection hk' with hk'
            subst hk'
            exact ⟨hk.symm, fun _ q hq hq' => hb ((below_any _ _).mpr ⟨q, hq, hq'⟩)⟩
    | false =>
      rw [hd] at hk
      simp only [Bool.false_eq_true, if_false]
      unfold rmfile
      cases ha : fs.at c.path with
      | none =>
        simp only
        by_cases hm : c.type = .always
        · rw [if_pos hm]
          refine ⟨⟨by simp, fun h => ?_⟩, by simp⟩
          have := (h hn).1 ha
          rw [hm] at this
          cases this
        · rw [if_neg hm]
          have hm' : c.type = .maybe := by
            cases ht : c.type with
            | always => exact absurd ht hm
            | maybe => rfl
            | never => exact absurd ht hn
          exact ⟨⟨fun _ _ => ⟨fun _ => hm', by simp [ha]⟩, fun _ => rfl⟩, fun _ => kept ha⟩
      | some k =>
        cases k with
        | dir =>
          simp only
          refine ⟨⟨by simp, fun h => ?_⟩, by simp⟩
          have := ((h hn).2 _ ha).1
          rw [hk] at this
          cases this
        | file =>
          simp only
          refine ⟨⟨fun _ _ => ⟨by simp [ha], fun k hk' => ?_⟩, fun _ => trivial⟩, fun _ => gone⟩
          rw [ha] at hk'
          injection hk' with hk'
          subst hk'
          exact ⟨hk.symm, fun h => by cases h⟩

/-- Registered and not with `&!`. -/
def Reg (cs : List Entry) (q : Path) : Prop := ∃ c ∈ cs, c.path = q ∧ c.type ≠ .never

theorem cleanAll_plain {env : Env} (cs : List Entry) (fs : FS) (hp : ∀ c ∈ cs, Plain env c)
    (hcwd : ∀ c ∈ cs, ¬ c.path <+: env.cwd) (hn : (cs.map (·.path)).Nodup)
    (ho : cs.Pairwise fun c d => ¬ Below d.path c.path) :
    ((cleanAll env fs cs).2 = none ↔ ∀ c ∈ cs, Fine fs c (Reg cs)) ∧
    ((cleanAll env fs cs).2 = none → ∀ q,
      (Reg cs q → (cleanAll env fs cs).1.at q = none) ∧
      (¬ Reg cs q → (cleanAll env fs cs).1.at q = fs.at q)) := by
  induction cs generalizing fs with
  | nil =>
    refine ⟨⟨fun _ _ h => (by cases h), fun _ => rfl⟩, fun _ q => ⟨?_, fun _ => rfl⟩⟩
    rintro ⟨c, hc, -⟩
    cases hc
  | cons c cs ih =>
    obtain ⟨h1, h2⟩ := clean1_plain (hp c List.mem_cons_self) (hcwd c List.mem_cons_self) fs
    rw [List.map_cons, List.nodup_cons] at hn
    rw [List.pairwise_cons] at ho
    have hreg : ∀ q, Reg (c :: cs) q ↔ (c.path = q ∧ c.type ≠ .never) ∨ Reg cs q := by
      intro q
      constructor
      · rintro ⟨d, hd, h⟩
        rcases List.mem_cons.mp hd with rfl | hd
        · exact Or.inl h
        · exact Or.inr ⟨d, hd, h⟩
      · rintro (h | ⟨d, hd, h⟩)
        · exact ⟨c, List.mem_cons_self, h⟩
        · exact ⟨d, List.mem_cons_of_mem _ hd, h⟩
    have hc : Fine fs c (Reg (c :: cs)) ↔ Fine fs c (fun _ => False) := by
      constructor
      · intro h hnv
        obtain ⟨a, b⟩ := h hnv
        refine ⟨a, fun k hk => ⟨(b k hk).1, fun hd q hq hq' => ?_⟩⟩
        rcases (hreg q).mp ((b k hk).2 hd q hq hq') with ⟨h, -⟩ | ⟨d, hd, h, -⟩
        · exact hq.2 h.symm
        · exact ho.1 d hd (by rw [h]; exact hq)
      · intro h hnv
        obtain ⟨a, b⟩ := h hnv
        exact ⟨a, fun k hk => ⟨(b k hk).1, fun hd q hq hq' => absurd ((b k hk).2 hd q hq hq') id⟩⟩
    unfold cleanAll
    cases hx : clean1 env fs c with
    | mk fs1 f =>
      rw [hx] at h1 h2
      cases f with
      | some f =>
        refine ⟨⟨fun h => by simp at h, fun h => ?_⟩, fun h => by simp at h⟩
        have := h1.mpr (hc.mp (h c List.mem_cons_self))
        simp at this
      | none =>
        simp only
        have h2 := h2 rfl
        have h1 := h1.mp rfl
        obtain ⟨g1, g2⟩ := ih fs1 (fun d hd => hp d (List.mem_cons_of_mem _ hd))
          (fun d hd => hcwd d (List.mem_cons_of_mem _ hd)) hn.2 ho.2
        have hne : ∀ d ∈ cs, d.path ≠ c.path := by
          intro d hd h
          exact hn.1 (List.mem_map.mpr ⟨d, hd, h⟩)
        have hfine : ∀ d ∈ cs, Fine fs1 d (Reg cs) ↔ Fine fs d (Reg (c :: cs)) := by
          intro d hd
          have e : fs1.at d.path = fs.at d.path := by
            rw [h2, if_neg (fun h => hne d hd h.1)]
          unfold Fine
          rw [e]
          constructor
          · intro h hnv
            refine ⟨(h hnv).1, fun k hk => ⟨((h hnv).2 k hk).1, fun hd' q hq hq' => ?_⟩⟩
            rw [hreg]
            by_cases hqc : q = c.path ∧ c.type ≠ .never
            · exact Or.inl ⟨hqc.1.symm, hqc.2⟩
            · right
              refine ((h hnv).2 k hk).2 hd' q hq ?_
              rw [h2, if_neg hqc]
              exact hq'
          · intro h hnv
            refine ⟨(h hnv).1, fun k hk => ⟨((h hnv).2 k hk).1, fun hd' q hq hq' => ?_⟩⟩
            rw [h2] at hq'
            by_cases hqc : q = c.path ∧ c.type ≠ .never
            · rw [if_pos hqc] at hq'
              exact absurd rfl hq'
            · rw [if_neg hqc] at hq'
              rcases (hreg q).mp (((h hnv).2 k hk).2 hd' q hq hq') with h | h
              · exact absurd ⟨h.1.symm, h.2⟩ hqc
              · exact h
        refine ⟨?_, fun h q => ?_⟩
        · rw [g1]
          constructor
          · intro h d hd
            rcases List.mem_cons.mp hd with rfl | hd
            · exact hc.mpr h1
            · exact (hfine d hd).mp (h d hd)
          · exact fun h d hd => (hfine d hd).mpr (h d (List.mem_cons_of_mem _ hd))
        · obtain ⟨a, b⟩ := g2 h q
          rw [hreg]
          by_cases hq : Reg cs q
          · exact ⟨fun _ => a hq, fun h => absurd (Or.inr hq) h⟩
          · rw [b hq, h2]
            constructor
            · rintro (⟨h, h'⟩ | h)
              · rw [if_pos ⟨h.symm, h'⟩]
              · exact absurd h hq
            · intro h
              rw [if_neg (fun h' => h (Or.inl ⟨h'.1.symm, h'.2⟩))]

end Verif.Cleanup
