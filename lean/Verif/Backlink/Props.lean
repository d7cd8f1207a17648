import Verif.Backlink.Lemmas

/-! # Backlinks: properties (C82) -/

namespace Verif.Backlink

theorem mkdirs_plain {fs : Fs} {d : Path} {ls : List Link} (h : Plain fs ls) : Plain (mkdirs fs d) ls :=
  fun l hl hm q e => h l hl hm q (mkdirs_old e (by simp))

/-- After the recipe, what a successful update leaves is what making of links has left. -/
theorem run_true {n : Nat} {recipe : Fs → Fs × Bool} {ls : List Link} {fs fs1 fs2 : Fs}
    (hr : recipe fs = (fs1, true)) (h : run n false recipe ls fs = (fs2, true)) :
    post n false fs1 ls = (fs2, true) := by
  unfold run at h
  rw [hr] at h
  simp only [] at h
  rcases e : post n false fs1 ls with ⟨fs3, _ | _⟩
  · rw [e] at h; cases h
  · rw [e] at h; exact h

/-- **C82.** After a successful update, what is read in the source directory is what is in the file in
the output directory, also through links there; and if there is no such file then there is no link,
not even an old one. Provided that the files aren't themselves read through where links are to be, and
that a file to be overwritten isn't a link. -/
theorem update_links_partial {n : Nat} {recipe : Fs → Fs × Bool} {ls : List Link} {fs fs1 fs2 : Fs}
    (hr : recipe fs = (fs1, true)) (h : run n false recipe ls fs = (fs2, true)) (hd : Distinct ls)
    (ha : Apart fs1 ls) (hp : Plain fs1 ls) {l : Link} (hl : l ∈ ls) :
    (∀ k c, k < n → Reads fs1 l.target k c →
      Reads fs2 l.target k c ∧ ∃ k', Reads fs2 l.path k' c) ∧
    (Missing fs1 l.target → l.mode ≠ .overwrite → fs2 l.path = none) := by
  have h := run_true hr h
  cases ls with
  | nil => cases hl
  | cons f ls =>
    simp only [post, Bool.false_eq_true, if_false] at h
    generalize hB : mkdirs fs1 f.path.dropLast = B at h
    have hpB : Plain B (f :: ls) := hB ▸ mkdirs_plain hp
    have hS : ∀ m ∈ f :: ls, ∀ q, Through B m.target q → ¬ ∃ m' ∈ f :: ls, q = m'.path := by
      rintro m hm q t ⟨m', hm', rfl⟩
      exact ha m hm m' hm' (mkdirs_through (hB ▸ t))
    have hrB : ∀ k c, Reads B l.target k c ↔ Reads fs1 l.target k c := by
      intro k c; rw [← hB]; exact mkdirs_reads
    have dn := updates_done (S := fun q => ∃ m' ∈ f :: ls, q = m'.path) (B := B) (fun _ _ => rfl) hpB hd
      (fun m hm => ⟨m, hm, rfl⟩) hS h l hl
    have ag : Agree (fun q => ∃ m' ∈ f :: ls, q = m'.path) B fs2 := by
      intro q hq
      have := updates_frame (n := n) hpB hd (q := q) fun m hm k => hq ⟨m, hm, k⟩
      rw [h] at this
      exact this.symm
    constructor
    · intro k c hk hrd
      have hrd' := (hrB k c).2 hrd
      have r2 := reads_agree ag hrd' (hS l hl)
      refine ⟨r2, ?_⟩
      rcases dn.1 c (read_iff.2 ⟨k, hk, hrd'⟩) with e | e
      · exact ⟨k + 1, .sym e r2⟩
      · exact ⟨0, .reg e⟩
    · intro hm
      refine dn.2 ?_
      cases e : read B n l.target with
      | none => rfl
      | some c =>
        obtain ⟨k, -, r⟩ := read_iff.1 e
        exact absurd ((hrB k c).1 r) (hm k c)

/-- **C82.** Apart from links, and directories above the first of them that aren't there, nothing is
changed, whether or not it succeeds. -/
theorem update_frame_partial {n : Nat} {recipe : Fs → Fs × Bool} {ls : List Link} {fs : Fs}
    (hd : Distinct ls) (hp : Plain (recipe fs).1 ls) {q : Path} (hq : ∀ l ∈ ls, q ≠ l.path)
    (hf : ∀ l, ls.head? = some l → q <+: l.path.dropLast → (recipe fs).1 q ≠ none) (dry : Bool) :
    (run n dry recipe ls fs).1 q = (recipe fs).1 q := by
  unfold run
  rcases e : recipe fs with ⟨fs1, _ | _⟩
  · cases dry
    · exact unlink_frame hq
    · rfl
  · rw [e] at hp hf
    simp only [] at hp hf ⊢
    have key : (post n dry fs1 ls).1 q = fs1 q := by
      cases ls with
      | nil => rfl
      | cons f ls =>
        have hm : mkdirs fs1 f.path.dropLast q = fs1 q := by
          by_cases k : q <+: f.path.dropLast
          · cases e : fs1 q with
            | none => exact absurd e (hf f rfl k)
            | some x => exact mkdirs_some e
          · exact mkdirs_frame k
        unfold post
        cases dry
        · exact (updates_frame (mkdirs_plain hp) hd hq).trans hm
        · exact hm
    rcases e2 : post n dry fs1 ls with ⟨fs2, _ | _⟩
    · rw [e2] at key
      exact (unlink_frame hq).trans key
    · rw [e2] at key
      exact key

/-- **C82.** If the update or making of a link fails then none of the links is left (except for files
that are to be overwritten, and a directory that is in the way). -/
theorem failed_unlinked {n : Nat} {recipe : Fs → Fs × Bool} {ls : List Link} {fs fs2 : Fs}
    (h : run n false recipe ls fs = (fs2, false)) {l : Link} (hl : l ∈ ls) (hm : l.mode ≠ .overwrite) :
    fs2 l.path = none ∨ fs2 l.path = some .dir := by
  unfold run at h
  rcases e : recipe fs with ⟨fs1, _ | _⟩ <;> rw [e] at h <;> simp only [] at h
  · cases h
    exact unlink_gone l hl hm
  · rcases e2 : post n false fs1 ls with ⟨fs3, _ | _⟩ <;> rw [e2] at h <;> cases h
    exact unlink_gone l hl hm

/-- A dry run changes nothing but that it makes directories. -/
theorem dry_run_partial {n : Nat} {recipe : Fs → Fs × Bool} {ls : List Link} {fs : Fs} {q : Path} :
    (run n true recipe ls fs).1 q = (recipe fs).1 q ∨
      ((recipe fs).1 q = none ∧ (run n true recipe ls fs).1 q = some .dir) := by
  unfold run
  rcases e : recipe fs with ⟨fs1, _ | _⟩
  · exact .inl rfl
  · simp only []
    cases ls with
    | nil => exact .inl rfl
    | cons f ls =>
      simp only [post, if_true]
      unfold mkdirs
      cases fs1 q with
      | some x => exact .inl rfl
      | none =>
        simp only []
        split
        · exact .inr ⟨trivial, rfl⟩
        · exact .inl rfl

/-- **C82.** Cleaning removes all links and nothing else. -/
theorem clean_removes {ls : List Link} {fs : Fs} (hn : ∀ l ∈ ls, fs l.path ≠ some .dir) :
    (clean fs ls).2 = true ∧ (∀ l ∈ ls, l.mode ≠ .overwrite → (clean fs ls).1 l.path = none) ∧
    ∀ q, (∀ l ∈ ls, q ≠ l.path) → (clean fs ls).1 q = fs q :=
  ⟨(clean_ok hn).1, (clean_ok hn).2, fun _ => clean_frame⟩

/-- A directory in the source directory. -/
def fsDir : Fs := fun p => if p = [] ∨ p = ["s"] ∨ p = ["s", "d"] then some .dir else none

/-- **C82.** Cleaning fails if and only if a directory is where a link is to be. -/
theorem clean_fails {ls : List Link} : ∀ {fs : Fs}, (clean fs ls).2 = false ↔
    ∃ l ∈ ls, l.mode ≠ .overwrite ∧ fs l.path = some .dir := by
  induction ls with
  | nil => intro fs; simp [clean]
  | cons l ls ih =>
    intro fs
    simp only [clean, List.mem_cons, exists_eq_or_imp]
    by_cases hm : l.mode = .overwrite
    · rw [remove_overwrite fs l hm]
      simp only [ih]
      constructor
      · exact .inr
      · rintro (⟨a, -⟩ | a)
        · exact absurd hm a
        · exact a
    · have hl := remove_left fs l hm
      have hf := fun q (h : q ≠ l.path) => remove_frame fs l h
      have hd : (remove fs l).2 = true → fs l.path ≠ some .dir := by
        intro h k
        unfold remove at h
        cases hc : l.mode <;> rw [hc] at h <;> simp only [k] at h <;> first
          | exact absurd hc hm
          | cases h
      rcases e : remove fs l with ⟨fs', _ | _⟩ <;> rw [e] at hl hf hd <;> simp only [] at hl hf hd ⊢
      · rcases hl with ⟨a, -⟩ | ⟨-, -, a⟩
        · cases a
        · exact ⟨fun _ => .inl ⟨hm, a⟩, fun _ => trivial⟩
      · rcases hl with ⟨-, a⟩ | ⟨a, -⟩
        · rw [ih]
          constructor
          · rintro ⟨l', h1, h2, h3⟩
            refine .inr ⟨l', h1, h2, ?_⟩
            by_cases k : l'.path = l.path
            · rw [k, a] at h3; cases h3
            · rw [← hf _ k]; exact h3
          · rintro (⟨-, k⟩ | ⟨l', h1, h2, h3⟩)
            · exact absurd k (hd trivial)
            · refine ⟨l', h1, h2, ?_⟩
              by_cases k : l'.path = l.path
              · exact absurd (k ▸ h3) (hd trivial)
              · rw [hf _ k]; exact h3
        · cases a

example : (clean fsDir [⟨["o", "d"], ["s", "d"], .link⟩]).2 = false := by decide +kernel

/-- **C82.** Updating and then cleaning leaves the source directory as it was, provided that nothing
was where links are to be, that directories were there, and that no file is overwritten. -/
theorem update_clean_partial {n : Nat} {recipe : Fs → Fs × Bool} {ls : List Link} {fs fs1 fs2 : Fs}
    (hr : recipe fs = (fs1, true)) (h : run n false recipe ls fs = (fs2, true)) (hd : Distinct ls)
    (ho : ∀ l ∈ ls, l.mode ≠ .overwrite) (hn : ∀ l ∈ ls, fs1 l.path = none)
    (hf : ∀ l, ls.head? = some l → ∀ q, q <+: l.path.dropLast → fs1 q ≠ none)
    (ha : Apart fs1 ls) : clean fs2 ls = (fs1, true) := by
  have hp : Plain fs1 ls := fun l hl hm => absurd hm (ho l hl)
  have fr : ∀ q, (∀ l ∈ ls, q ≠ l.path) → fs2 q = fs1 q := by
    intro q hq
    have := update_frame_partial (n := n) (recipe := recipe) (fs := fs) hd (by rw [hr]; exact hp) hq
      (by rw [hr]; exact fun l hl k => hf l hl q k) false
    rw [h, hr] at this
    exact this
  have hnd : ∀ l ∈ ls, fs2 l.path ≠ some .dir := by
    intro l hl e
    have h' := run_true hr h
    cases ls with
    | nil => cases hl
    | cons f ls =>
      simp only [post, Bool.false_eq_true, if_false] at h'
      have hS : ∀ m ∈ f :: ls, ∀ q, Through (mkdirs fs1 f.path.dropLast) m.target q →
          ¬ ∃ m' ∈ f :: ls, q = m'.path := by
        rintro m hm q t ⟨m', hm', rfl⟩
        exact ha m hm m' hm' (mkdirs_through t)
      have dn := updates_done (S := fun q => ∃ m' ∈ f :: ls, q = m'.path)
        (B := mkdirs fs1 f.path.dropLast) (fun _ _ => rfl) (mkdirs_plain hp) hd
        (fun m hm => ⟨m, hm, rfl⟩) hS h' l hl
      cases e2 : read (mkdirs fs1 f.path.dropLast) n l.target with
      | none => rw [dn.2 e2 (ho l hl)] at e; cases e
      | some c => rcases dn.1 c e2 with k | k <;> rw [k] at e <;> cases e
  obtain ⟨a, b⟩ := clean_ok hnd
  refine Prod.ext (funext fun q => ?_) a
  by_cases hq : ∀ l ∈ ls, q ≠ l.path
  · exact (clean_frame hq).trans (fr q hq)
  · obtain ⟨l, hq⟩ := Classical.not_forall.1 hq
    obtain ⟨hl, hq⟩ := Classical.not_imp.1 hq
    have hq : q = l.path := Classical.not_not.1 hq
    subst hq
    exact (b l hl (ho l hl)).trans (hn l hl).symm

/-! ## Examples -/

/-- Source directory `s`, output directory `o` with a file and a link to another one. -/
def fsW : Fs := fun p =>
  if p = [] ∨ p = ["s"] ∨ p = ["o"] then some .dir
  else if p = ["o", "lib-1"] then some (.reg 7)
  else if p = ["o", "lib"] then some (.sym ["o", "lib-1"])
  else if p = ["s", "main"] then some (.reg 1)
  else none

/-- An executable and a library with a link to it. -/
def lsW : List Link :=
  [⟨["o", "x"], ["s", "x"], .link⟩, ⟨["o", "lib"], ["s", "lib"], .copy⟩,
   ⟨["o", "lib-1"], ["s", "lib-1"], .hard⟩, ⟨["o", "pdb"], ["s", "pdb"], .link⟩]

/-- The recipe makes the executable. -/
def recW (fs : Fs) : Fs × Bool := (fs.set ["o", "x"] (some (.reg 5)), true)

def seen (r : Fs × Bool) (ps : List Path) : Bool × List (Option Node) := (r.2, ps.map r.1)

example : seen (run 40 false recW lsW fsW)
    [["s", "x"], ["s", "lib"], ["s", "lib-1"], ["s", "pdb"], ["s", "main"]] =
    (true, [some (.sym ["o", "x"]), some (.reg 7), some (.reg 7), none, some (.reg 1)]) := by
  decide +kernel

example : Distinct lsW := by unfold Distinct; decide

theorem fsW_through {p q : Path} (h : Through (recW fsW).1 p q) (hp : p.head? = some "o") :
    q.head? = some "o" := by
  induction h with
  | here => exact hp
  | @sym p r q e _ ih =>
    refine ih ?_
    simp only [recW, Fs.set, fsW] at e
    repeat' split at e
    all_goals first
      | (simp only [Option.some.injEq, Node.sym.injEq] at e; subst e; rfl)
      | (simp at e; done)

example : Apart (recW fsW).1 lsW := by
  intro l hl l' hl' t
  have h1 : l.target.head? = some "o" := by
    simp only [lsW, List.mem_cons, List.not_mem_nil, or_false] at hl
    rcases hl with rfl | rfl | rfl | rfl <;> rfl
  have h2 : l'.path.head? = some "s" := by
    simp only [lsW, List.mem_cons, List.not_mem_nil, or_false] at hl'
    rcases hl' with rfl | rfl | rfl | rfl <;> rfl
  have := fsW_through t h1
  rw [h2] at this
  simp at this

example : Plain (recW fsW).1 lsW := by
  intro l hl hm
  simp only [lsW, List.mem_cons, List.not_mem_nil, or_false] at hl
  rcases hl with rfl | rfl | rfl | rfl <;> cases hm

/-! ## Where it is false of the code -/

/-- **C82, false of the code.** A file of the user's in the source directory that has the name of a
target is lost, be it that the update fails, that it succeeds, or on clean. -/
theorem source_file_lost :
    seen (run 40 false (fun fs => (fs, false)) [⟨["o", "main"], ["s", "main"], .link⟩] fsW)
      [["s", "main"]] = (false, [none]) ∧
    seen (run 40 false (fun fs => (fs.set ["o", "main"] (some (.reg 9)), true))
      [⟨["o", "main"], ["s", "main"], .copy⟩] fsW) [["s", "main"]] = (true, [some (.reg 9)]) ∧
    seen (clean fsW [⟨["o", "main"], ["s", "main"], .symbolic⟩]) [["s", "main"]] = (true, [none]) := by
  refine ⟨by decide +kernel, by decide +kernel, by decide +kernel⟩

/-- **C82, false of the code.** If the target is a link to a file in the source directory then that
file is removed and the target is left dangling, with the update successful. -/
theorem linked_source_lost :
    seen (run 40 false (fun fs => (fs.set ["o", "main"] (some (.sym ["s", "main"])), true))
      [⟨["o", "main"], ["s", "main"], .link⟩] fsW) [["s", "main"], ["o", "main"]] =
      (true, [none, some (.sym ["s", "main"])]) := by
  decide +kernel

/-- **C82, false of the code.** Members of a group in different directories: only the directory of the
first one is made, so that linking fails, although each on its own succeeds. -/
theorem group_directories :
    let a : Link := ⟨["o", "lib"], ["s", "a", "lib"], .link⟩
    let b : Link := ⟨["o", "lib-1"], ["s", "b", "lib-1"], .link⟩
    (run 40 false (fun fs => (fs, true)) [a, b] fsW).2 = false ∧
    (run 40 false (fun fs => (fs, true)) [a] fsW).2 = true ∧
    (run 40 false (fun fs => (fs, true)) [b] fsW).2 = true := by
  refine ⟨by decide +kernel, by decide +kernel, by decide +kernel⟩

/-- **C82, false of the code.** What is overwritten stays: with what was there before if the target is
no longer there, and on clean. -/
theorem overwritten_stays :
    let l : Link := ⟨["o", "gen"], ["s", "main"], .overwrite⟩
    seen (run 40 false (fun fs => (fs, true)) [l] fsW) [["s", "main"]] = (true, [some (.reg 1)]) ∧
    seen (clean fsW [l]) [["s", "main"]] = (true, [some (.reg 1)]) := by
  refine ⟨by decide +kernel, by decide +kernel⟩

/-- If the directory of each link is there then making links only fails if a directory is in the way
of one. -/
theorem updates_succeed_partial {n : Nat} {ls : List Link} : ∀ {fs : Fs},
    (∀ l ∈ ls, fs l.path.dropLast = some .dir ∧ fs l.path ≠ some .dir ∧ l.mode ≠ .overwrite) →
    (∀ l ∈ ls, ∀ l' ∈ ls, l.path ≠ l'.path.dropLast) → (updates n fs ls).2 = true := by
  induction ls with
  | nil => intros; rfl
  | cons l ls ih =>
    intro fs h hx
    obtain ⟨h1, h2, h3⟩ := h l List.mem_cons_self
    have hself : l.path.dropLast ≠ l.path := fun k => hx l List.mem_cons_self l List.mem_cons_self k.symm
    have hu : (update n fs l).2 = true ∧ (update n fs l).1 l.path ≠ some .dir := by
      have hl := remove_left fs l h3
      have hf := remove_frame fs l hself
      unfold update
      rcases e : remove fs l with ⟨fs', _ | _⟩ <;> rw [e] at hl hf <;> simp only [] at hl hf ⊢
      · rcases hl with ⟨a, -⟩ | ⟨-, -, a⟩
        · cases a
        · exact absurd a h2
      · rcases hl with ⟨-, a⟩ | ⟨a, -⟩
        · cases read fs' n l.target with
          | none => simp [a]
          | some c =>
            simp only []
            rw [if_pos (hf.trans h1)]
            unfold make
            cases hm : l.mode with
            | overwrite => exact absurd hm h3
            | _ => simp [set_same]
        · cases a
    have fr : ∀ q, q ≠ l.path → (update n fs l).1 q = fs q :=
      fun q hq => update_frame (fun k => absurd k h3) hq
    simp only [updates]
    rcases e : update n fs l with ⟨fs', b⟩
    rw [e] at hu fr
    simp only [] at hu fr
    obtain ⟨rfl, hu⟩ := hu
    refine ih ?_ fun a ha b hb => hx a (List.mem_cons_of_mem _ ha) b (List.mem_cons_of_mem _ hb)
    intro l' h'
    obtain ⟨a, b, c⟩ := h l' (List.mem_cons_of_mem _ h')
    refine ⟨?_, ?_, c⟩
    · rw [fr _ fun k => hx l List.mem_cons_self l' (List.mem_cons_of_mem _ h') k.symm]
      exact a
    · by_cases k : l'.path = l.path
      · rw [k]; exact hu
      · rw [fr _ k]; exact b

/-! ## What is linked -/

/-- **C82.** The value of the variable means what it spells, and anything else is an error. -/
theorem value_means {g : Option Mode} {ns : List String} {r : Option (Mode × Bool)} :
    parse g ns = some r ↔ Means g ns r := by
  constructor
  · intro h
    unfold parse at h
    split at h
    · rename_i v
      cases e : modeOf g v with
      | none => rw [e] at h; cases h
      | some m => rw [e] at h; cases h; exact .one (modeOf_iff.1 e)
    · rename_i v w
      cases e : modeOf g v with
      | none => rw [e] at h; cases h
      | some m =>
        rw [e] at h
        simp only [] at h
        split at h
        · subst_vars; cases h; exact .printed (modeOf_iff.1 e)
        · split at h
          · subst_vars; cases h; exact .silent (modeOf_iff.1 e)
          · cases h
    · cases h
  · intro h
    cases h with
    | one h => simp [parse, modeOf_iff.2 h]
    | printed h => simp [parse, modeOf_iff.2 h]
    | silent h => simp [parse, modeOf_iff.2 h]

example : parse none ["copy", "false"] = some (some (.copy, false)) := by decide
example : parse none ["group"] = none := by decide
example : parse (some .hard) ["group"] = some (some (.hard, true)) := by decide
example : parse none [] = none := by decide

/-- **C82.** A target is linked if and only if it can be and the value says so; the value isn't even
looked at if it can't be. -/
theorem test_iff {c : Cond} {v : Option (List String)} {m : Mode} :
    test c v = some (some m) ↔ c.Can ∧ ∃ ns, v = some ns ∧ Means none ns (some (m, true)) := by
  unfold test Cond.Can
  rcases c with ⟨_ | _, _ | _, _ | _, _ | _, _ | _, _ | _, _ | _⟩ <;> simp
  all_goals
    cases v with
    | none => simp
    | some ns =>
      simp only [Option.some.injEq, exists_eq_left', ← value_means]
      rcases parse none ns with _ | _ | ⟨m', _ | _⟩ <;> simp

/-- **C82.** It is an error if and only if it can be linked and the value is invalid, or says not to
print. -/
theorem test_error {c : Cond} {v : Option (List String)} :
    test c v = none ↔ c.Can ∧ ∃ ns, v = some ns ∧
      ((∀ r, ¬ Means none ns r) ∨ ∃ m, Means none ns (some (m, false))) := by
  unfold test Cond.Can
  rcases c with ⟨_ | _, _ | _, _ | _, _ | _, _ | _, _ | _, _ | _⟩ <;> simp
  all_goals
    cases v with
    | none => simp
    | some ns =>
      simp only [Option.some.injEq, exists_eq_left', ← value_means]
      rcases parse none ns with _ | _ | ⟨m', _ | _⟩ <;> simp

example : test ⟨true, true, true, false, true, false, true⟩ (some ["true"]) = some (some .link) := by
  decide
example : test ⟨true, true, true, false, true, true, true⟩ (some ["nonsense"]) = some none := by decide

/-- The mode of a member. -/
inductive MemberMode (m : Mode) : Member → Mode → Prop
  | inherits {p} : MemberMode m ⟨p, none⟩ m
  | own {p v mm b} : Means (some m) v (some (mm, b)) → MemberMode m ⟨p, some v⟩ mm

theorem memberMode_iff {m mm : Mode} {t : Member} :
    memberMode m t = some (some mm) ↔ MemberMode m t mm := by
  rcases t with ⟨p, v⟩
  unfold memberMode
  cases v with
  | none =>
    simp only [Option.some.injEq]
    constructor
    · rintro rfl; exact .inherits
    · intro h; cases h; rfl
  | some v =>
    simp only []
    constructor
    · intro h
      cases e : parse (some m) v with
      | none => rw [e] at h; cases h
      | some r =>
        rw [e] at h
        rcases r with _ | ⟨a, b⟩
        · cases h
        · simp only [Option.map_some, Option.some.injEq] at h
          subst h
          exact .own (value_means.1 e)
    · intro h
      cases h with
      | own h => rw [value_means.2 h]; rfl

theorem collectMembers_mem {src out : Path} {m : Mode} {l : Link} : ∀ {ts : List Member}
    {ls : List Link}, collectMembers src out m ts = some ls →
    (l ∈ ls ↔ ∃ t ∈ ts, ∃ p mm, t.path = some p ∧ MemberMode m t mm ∧
      l = ⟨p, src ++ p.drop out.length, mm⟩) := by
  intro ts
  induction ts with
  | nil => intro ls h; cases h; simp
  | cons t ts ih =>
    intro ls h
    simp only [collectMembers] at h
    cases hp : t.path with
    | none =>
      rw [hp] at h
      rw [ih h]
      simp [hp]
    | some p =>
      rw [hp] at h
      simp only [] at h
      cases hm : memberMode m t with
      | none => rw [hm] at h; cases h
      | some o =>
        rw [hm] at h
        cases o with
        | none =>
          simp only [] at h
          rw [ih h]
          simp only [List.mem_cons, exists_eq_or_imp]
          constructor
          · exact .inr
          · rintro (⟨_, mm, _, k, _⟩ | k)
            · rw [← memberMode_iff, hm] at k; cases k
            · exact k
        | some mm =>
          simp only [] at h
          cases hc : collectMembers src out m ts with
          | none => rw [hc] at h; cases h
          | some ls' =>
            rw [hc] at h
            cases h
            simp only [List.mem_cons, exists_eq_or_imp, ih hc]
            constructor
            · rintro (rfl | k)
              · exact .inl ⟨p, mm, hp, memberMode_iff.1 hm, rfl⟩
              · exact .inr k
            · rintro (⟨p', mm', e, k, rfl⟩ | k)
              · rw [hp] at e
                cases e
                rw [← memberMode_iff, hm] at k
                cases k
                exact .inl rfl
              · exact .inr k

/-- **C82.** What is linked is the file itself, if there is one, in the mode of the target, and each
member with a file unless its own value says not to be, in its mode or else that of the target; where
it is in the source directory is where it is in the output directory. -/
theorem collect_mem {src out : Path} {m : Mode} {self : Option Path} {ts : List Member}
    {ls : List Link} (h : collect src out m self ts = some ls) (l : Link) :
    l ∈ ls ↔ (∃ p, self = some p ∧ l = ⟨p, src ++ p.drop out.length, m⟩) ∨
      ∃ t ∈ ts, ∃ p mm, t.path = some p ∧ MemberMode m t mm ∧
        l = ⟨p, src ++ p.drop out.length, mm⟩ := by
  unfold collect at h
  cases self with
  | none => rw [collectMembers_mem h]; simp
  | some p =>
    simp only [] at h
    cases hc : collectMembers src out m ts with
    | none => rw [hc] at h; cases h
    | some ls' =>
      rw [hc] at h
      cases h
      simp [collectMembers_mem hc, place]

/-- **C82.** It is an error if and only if the value set on a member with a file is invalid. -/
theorem collect_error {src out : Path} {m : Mode} {self : Option Path} {ts : List Member} :
    collect src out m self ts = none ↔
      ∃ t ∈ ts, t.path ≠ none ∧ ∃ v, t.value = some v ∧ ∀ r, ¬ Means (some m) v r := by
  have hk : ∀ t : Member, memberMode m t = none ↔
      ∃ v, t.value = some v ∧ ∀ r, ¬ Means (some m) v r := by
    intro t
    unfold memberMode
    cases t.value with
    | none => simp
    | some v =>
      simp only [Option.some.injEq, exists_eq_left', ← value_means]
      cases parse (some m) v <;> simp
  have key : ∀ ts, collectMembers src out m ts = none ↔
      ∃ t ∈ ts, t.path ≠ none ∧ memberMode m t = none := by
    intro ts
    induction ts with
    | nil => simp [collectMembers]
    | cons t ts ih =>
      simp only [collectMembers, List.mem_cons, exists_eq_or_imp, ← ih]
      cases hp : t.path with
      | none => simp
      | some p =>
        cases hm : memberMode m t with
        | none => simp
        | some o => cases o <;> simp
  simp only [← hk]
  rw [← key]
  unfold collect
  cases self <;> simp

example : collect ["s"] ["o"] .link none [⟨some ["o", "x"], some ["yes"]⟩] = none := by decide +kernel

/-- Different files of the output directory are linked at different places. -/
theorem place_inj {src out p q : Path} {m m' : Mode} (hp : out <+: p) (hq : out <+: q)
    (h : (place src out p m).path = (place src out q m').path) : p = q := by
  obtain ⟨a, rfl⟩ := hp
  obtain ⟨b, rfl⟩ := hq
  simp only [place, List.drop_left, List.append_cancel_left_eq] at h
  rw [h]

example : collect ["s"] ["o"] .link (some ["o", "x", "exe"])
    [⟨some ["o", "x", "pdb"], none⟩, ⟨some ["o", "x", "a"], some ["false"]⟩,
     ⟨some ["o", "x", "b"], some ["copy"]⟩, ⟨none, none⟩] =
    some [⟨["o", "x", "exe"], ["s", "x", "exe"], .link⟩, ⟨["o", "x", "pdb"], ["s", "x", "pdb"], .link⟩,
      ⟨["o", "x", "b"], ["s", "x", "b"], .copy⟩] := by decide +kernel

end Verif.Backlink
