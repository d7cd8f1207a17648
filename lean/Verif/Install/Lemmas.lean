import Verif.Install.Model
/-!
# Installing and uninstalling: paths, entries, and steps
-/

namespace Verif.Install

/-! ## Paths -/

theorem above_refl (p : Path) : Above p p := ⟨[], rfl⟩

theorem above_nil (p : Path) : Above [] p := ⟨p, by simp⟩

theorem above_trans {a b c : Path} (h : Above a b) (k : Above b c) : Above a c := by
  obtain ⟨s, rfl⟩ := h
  obtain ⟨t, rfl⟩ := k
  exact ⟨t ++ s, by simp⟩

theorem above_cons (x : String) {d p : Path} (h : Above d p) : Above d (x :: p) := by
  obtain ⟨s, rfl⟩ := h
  exact ⟨x :: s, rfl⟩

theorem above_cons_iff {d p : Path} {x : String} :
    Above d (x :: p) ↔ d = x :: p ∨ Above d p := by
  constructor
  · rintro ⟨s, h⟩
    cases s with
    | nil => exact Or.inl h.symm
    | cons y s =>
      rw [List.cons_append, List.cons.injEq] at h
      exact Or.inr ⟨s, h.2⟩
  · rintro (rfl | h)
    · exact above_refl _
    · exact above_cons x h

theorem above_of_cons {x : String} {d p : Path} (h : Above (x :: d) p) : Above d p :=
  above_trans (above_cons x (above_refl d)) h

theorem above_length {d p : Path} (h : Above d p) : d.length ≤ p.length := by
  obtain ⟨s, rfl⟩ := h
  simp

theorem above_antisymm {d p : Path} (h : Above d p) (k : Above p d) : d = p := by
  obtain ⟨s, rfl⟩ := h
  have := above_length k
  rw [List.length_append] at this
  have : s = [] := List.length_eq_zero_iff.mp (by omega)
  simp [this]

theorem not_above_cons (x : String) (p : Path) : ¬ Above (x :: p) p := by
  intro h
  have := above_length h
  simp at this
  omega

/-- Two directories that a path is in are one in the other. -/
theorem above_total {a b p : Path} (ha : Above a p) (hb : Above b p) :
    Above a b ∨ Above b a := by
  induction p with
  | nil =>
    obtain ⟨s, hs⟩ := ha
    have : a = [] := (List.append_eq_nil_iff.mp hs.symm).2
    subst this
    exact Or.inl (above_nil b)
  | cons x p ih =>
    rcases above_cons_iff.mp ha with rfl | ha'
    · exact Or.inr hb
    · rcases above_cons_iff.mp hb with rfl | hb'
      · exact Or.inl ha
      · exact ih ha' hb'

theorem above_nil_right {d : Path} (h : Above d []) : d = [] := by
  have := above_length h
  cases d with
  | nil => rfl
  | cons x d => simp at this

/-! ## Entries -/

theorem get_nil (fs : FS) : get fs [] = some .dir := by simp [get]

theorem get_cons (fs : FS) (x : String) (p : Path) :
    get fs (x :: p) = (fs.find? fun e => e.1 = x :: p).map (·.2) := by
  simp [get]

theorem get_erase (fs : FS) (q p : Path) (hq : q ≠ []) :
    get (erase fs q) p = if p = q then none else get fs p := by
  unfold get erase
  by_cases hp : p = []
  · rw [if_pos hp, if_neg (by rw [hp]; exact fun h => hq h.symm), if_pos hp]
  · rw [if_neg hp, if_neg hp]
    by_cases h : p = q
    · subst h
      rw [if_pos rfl, List.find?_filter]
      rw [Option.map_eq_none_iff, List.find?_eq_none]
      intro a _
      by_cases ha : a.1 = p <;> simp [ha]
    · rw [if_neg h, List.find?_filter]
      congr 2
      funext a
      by_cases ha : a.1 = p
      · have : a.1 ≠ q := by rw [ha]; exact h
        simp [ha, h]
      · simp [ha]

theorem get_set (fs : FS) (q p : Path) (e : Entry) (hq : q ≠ []) :
    get (set fs q e) p = if p = q then some e else get fs p := by
  have he := get_erase fs q p hq
  unfold get set at *
  unfold erase at he
  by_cases hp : p = []
  · rw [if_pos hp, if_neg (by rw [hp]; exact fun h => hq h.symm), if_pos hp]
  · rw [if_neg hp] at he ⊢
    by_cases h : p = q
    · subst h
      simp
    · rw [if_neg h] at he ⊢
      rw [List.find?_cons, decide_eq_false (fun h' => h h'.symm)]
      exact he

theorem isDir_iff {fs : FS} {p : Path} : isDir fs p = true ↔ get fs p = some .dir := by
  simp [isDir]

theorem isDir_false {fs : FS} {p : Path} : isDir fs p = false ↔ get fs p ≠ some .dir := by
  simp [isDir]

theorem isFile_iff {fs : FS} {p : Path} :
    isFile fs p = true ↔ get fs p ≠ none ∧ get fs p ≠ some .dir := by
  unfold isFile
  cases h : get fs p with
  | none => simp
  | some e => cases e <;> simp

theorem get_ne_none_iff {fs : FS} {x : String} {p : Path} :
    get fs (x :: p) ≠ none ↔ ∃ e, (x :: p, e) ∈ fs := by
  rw [get_cons]
  constructor
  · intro h
    cases hf : fs.find? fun e => e.1 = x :: p with
    | none => rw [hf] at h; exact absurd rfl h
    | some a =>
      have h1 := List.find?_some hf
      have h2 := List.mem_of_find?_eq_some hf
      obtain ⟨q, e⟩ := a
      simp at h1
      subst h1
      exact ⟨e, h2⟩
  · rintro ⟨e, he⟩ h
    rw [Option.map_eq_none_iff, List.find?_eq_none] at h
    have := h _ he
    simp at this

theorem isEmpty_iff {fs : FS} {d : Path} :
    isEmpty fs d = true ↔ ∀ x, get fs (x :: d) = none := by
  unfold isEmpty
  rw [List.all_eq_true]
  constructor
  · intro h x
    apply Decidable.byContradiction
    intro hn
    obtain ⟨e, he⟩ := get_ne_none_iff.mp hn
    have := h _ he
    simp at this
  · rintro h ⟨q, e⟩ he
    cases q with
    | nil => rfl
    | cons x p =>
      simp only [ne_eq, decide_not, Bool.not_eq_eq_eq_not, Bool.not_true, decide_eq_false_iff_not]
      rintro rfl
      exact get_ne_none_iff.mpr ⟨e, he⟩ (h x)

/-! ## Everything is in a directory -/

theorem Wf.above {fs : FS} (hw : Wf fs) {d p : Path} (h : Above d p)
    (hp : get fs p ≠ none) (hne : d ≠ p) : get fs d = some .dir := by
  induction p with
  | nil => exact absurd (above_nil_right h) hne
  | cons x p ih =>
    rcases above_cons_iff.mp h with rfl | h'
    · exact absurd rfl hne
    · have hd := hw x p hp
      by_cases hdp : d = p
      · subst hdp; exact hd
      · exact ih h' (by rw [hd]; simp) hdp

theorem wf_erase {fs : FS} (hw : Wf fs) {q : Path} (hq : q ≠ [])
    (h : ∀ x, get fs (x :: q) = none) : Wf (erase fs q) := by
  intro x p hp
  rw [get_erase _ _ _ hq] at hp ⊢
  by_cases h1 : x :: p = q
  · rw [if_pos h1] at hp; exact absurd rfl hp
  · rw [if_neg h1] at hp
    rw [if_neg]
    · exact hw x p hp
    · rintro rfl
      exact hp (h x)

theorem Wf.leaf {fs : FS} (hw : Wf fs) {q : Path} (h : get fs q ≠ some .dir) (x : String) :
    get fs (x :: q) = none := by
  apply Decidable.byContradiction
  intro hn
  exact h (hw x q hn)

/-! ## Uninstalling, as steps -/

/-- A step of uninstalling. -/
inductive Step where
  | rm (p : Path)
  | try (d : Path)
deriving DecidableEq

/-- A file or link is removed if it is there, a directory if it is there,
empty, and can be removed. -/
def step (ok : Path → Bool) (fs : FS) : Step → FS
  | .rm p => if isFile fs p then erase fs p else fs
  | .try d => if d ≠ [] ∧ isDir fs d ∧ isEmpty fs d ∧ ok d then erase fs d else fs

def run (ok : Path → Bool) (fs : FS) (ss : List Step) : FS := ss.foldl (step ok) fs

theorem run_append (ok : Path → Bool) (fs : FS) (a b : List Step) :
    run ok fs (a ++ b) = run ok (run ok fs a) b := List.foldl_append

theorem run_cons (ok : Path → Bool) (fs : FS) (s : Step) (b : List Step) :
    run ok fs (s :: b) = run ok (step ok fs s) b := rfl

/-- The directory and those it is in, up to but without the base, unless it
is the base. -/
def up (base : Path) : Path → List Path
  | [] => [[]]
  | x :: p => (x :: p) :: (if x :: p ≠ base ∧ p ≠ base then up base p else [])

/-- All the directories that are tried, the leading ones given in reverse. -/
def ups : List Path → List Path
  | [] => []
  | [d] => up d d
  | d :: b :: ds => up b d ++ ups (b :: ds)

/-- The steps for a target. -/
def stepsOf (flt : Filter) (t : Item) : List Step :=
  ((t.links.filter fun l => flt.ent t.dest l.1 .symlink).map fun l => .rm (l.1 :: t.dest)) ++
  (if flt.ent t.dest t.leaf .regular then [.rm (t.leaf :: t.dest)] else []) ++
  (ups t.dirs.reverse).map .try

theorem step_wf {ok : Path → Bool} {fs : FS} (hw : Wf fs) (s : Step) :
    Wf (step ok fs s) := by
  cases s with
  | rm p =>
    unfold step
    simp only
    split
    · next h =>
      rw [isFile_iff] at h
      have hp : p ≠ [] := by
        rintro rfl
        exact h.2 (get_nil fs)
      exact wf_erase hw hp (hw.leaf h.2)
    · exact hw
  | «try» d =>
    unfold step
    simp only
    split
    · next h => exact wf_erase hw h.1 (isEmpty_iff.mp h.2.2.1)
    · exact hw

theorem run_wf {ok : Path → Bool} {fs : FS} (hw : Wf fs) (ss : List Step) :
    Wf (run ok fs ss) := by
  induction ss generalizing fs with
  | nil => exact hw
  | cons s ss ih => exact ih (step_wf hw s)

/-- Directories that have something are not removed. -/
theorem run_try_noop {ok : Path → Bool} {fs : FS} (ds : List Path)
    (h : ∀ d ∈ ds, d = [] ∨ ∃ x, get fs (x :: d) ≠ none) :
    run ok fs (ds.map .try) = fs := by
  induction ds with
  | nil => rfl
  | cons d ds ih =>
    rw [List.map_cons, run_cons]
    have : step ok fs (.try d) = fs := by
      unfold step
      simp only
      rw [if_neg]
      rintro ⟨h1, -, h2, -⟩
      rcases h d (by simp) with h' | ⟨x, hx⟩
      · exact h1 h'
      · exact hx (isEmpty_iff.mp h2 x)
    rw [this]
    exact ih fun d hd => h d (List.mem_cons_of_mem _ hd)

theorem up_above {base d p : Path} (h : p ∈ up base d) : Above p d := by
  induction d with
  | nil => simp [up] at h; subst h; exact above_refl _
  | cons x d ih =>
    rw [up] at h
    rcases List.mem_cons.mp h with rfl | h
    · exact above_refl _
    · split at h
      · exact above_cons x (ih h)
      · cases h

/-- Something that is there makes all the directories it is in non-empty. -/
theorem Wf.nonempty {fs : FS} (hw : Wf fs) {x : String} {q d : Path}
    (hq : get fs (x :: q) ≠ none) (h : Above d q) : ∃ y, get fs (y :: d) ≠ none := by
  induction q generalizing x with
  | nil => rw [above_nil_right h]; exact ⟨x, hq⟩
  | cons y q ih =>
    rcases above_cons_iff.mp h with rfl | h'
    · exact ⟨x, hq⟩
    · exact ih (x := y) (by rw [hw x (y :: q) hq]; simp) h'

theorem uninstallD_run {flt : Filter} {ok : Path → Bool} {fs : FS} (hw : Wf fs)
    (base d : Path) (hf : ∀ p ∈ up base d, flt.dir p = true) :
    uninstallD flt ok fs base d = run ok fs ((up base d).map .try) := by
  induction d generalizing fs with
  | nil =>
    rw [uninstallD]
    simp [up, run, step]
  | cons x d ih =>
    have hup : up base (x :: d) =
        (x :: d) :: (if x :: d ≠ base ∧ d ≠ base then up base d else []) := rfl
    have hfd := hf (x :: d) (by rw [hup]; simp)
    have noop : ∀ y q, get fs (y :: q) ≠ none → Above d q →
        run ok fs ((if x :: d ≠ base ∧ d ≠ base then up base d else []).map .try) = fs := by
      intro y q hy hq
      apply run_try_noop
      intro p hp
      right
      split at hp
      · exact hw.nonempty hy (above_trans (up_above hp) hq)
      · cases hp
    rw [uninstallD, hfd, hup, List.map_cons, run_cons]
    simp only [Bool.not_true, Bool.false_eq_true, if_false]
    by_cases hd : isDir fs (x :: d) = true
    · rw [if_pos hd]
      have hpr : get fs (x :: d) ≠ none := by rw [isDir_iff.mp hd]; simp
      by_cases he : isEmpty fs (x :: d) = true
      · rw [if_neg (by simp [he])]
        by_cases ho : ok (x :: d) = true
        · rw [if_neg (by simp [ho])]
          have hs : step ok fs (.try (x :: d)) = erase fs (x :: d) := by
            simp [step, hd, he, ho]
          rw [hs]
          by_cases hb : x :: d ≠ base ∧ d ≠ base
          · rw [if_pos hb, if_pos hb]
            refine ih (wf_erase hw (by simp) (isEmpty_iff.mp he)) fun p hp => hf p ?_
            rw [hup, if_pos hb]
            exact List.mem_cons_of_mem _ hp
          · rw [if_neg hb, if_neg hb]
            rfl
        · rw [if_pos (by simp [ho])]
          have hs : step ok fs (.try (x :: d)) = fs := by
            simp [step, hd, he, ho]
          rw [hs, noop x d hpr (above_refl d)]
      · rw [if_pos (by simp [he])]
        have hs : step ok fs (.try (x :: d)) = fs := by
          simp [step, hd, he]
        rw [hs, noop x d hpr (above_refl d)]
    · rw [if_neg hd]
      have hs : step ok fs (.try (x :: d)) = fs := by
        simp [step, hd]
      rw [hs]
      by_cases hb : x :: d ≠ base ∧ d ≠ base
      · rw [if_pos hb, if_pos hb]
        refine ih hw fun p hp => hf p ?_
        rw [hup, if_pos hb]
        exact List.mem_cons_of_mem _ hp
      · rw [if_neg hb, if_neg hb]
        rfl

theorem uninstallDs_run {flt : Filter} {ok : Path → Bool} {fs : FS} (hw : Wf fs)
    (ds : List Path) (hf : ∀ p ∈ ups ds, flt.dir p = true) :
    uninstallDs flt ok fs ds = run ok fs ((ups ds).map .try) := by
  induction ds generalizing fs with
  | nil => rfl
  | cons d ds ih =>
    cases ds with
    | nil =>
      rw [uninstallDs, ups]
      exact uninstallD_run hw d d hf
    | cons b ds =>
      rw [uninstallDs, ups, List.map_append, run_append,
        uninstallD_run hw b d fun p hp => hf p (by rw [ups]; exact List.mem_append_left _ hp)]
      exact ih (run_wf hw _) fun p hp => hf p (by rw [ups]; exact List.mem_append_right _ hp)

theorem uninstallF_step (flt : Filter) (ok : Path → Bool) (fs : FS) (base : Path)
    (leaf : String) (k : Kind) :
    uninstallF flt fs base leaf k =
      run ok fs (if flt.ent base leaf k then [.rm (leaf :: base)] else []) := by
  unfold uninstallF
  by_cases h : flt.ent base leaf k = true
  · simp only [h, Bool.not_true, Bool.false_eq_true, if_false, if_true]
    by_cases h2 : isFile fs (leaf :: base) = true
    · simp [run, step, h2]
    · simp [run, step, h2]
  · simp only [h, Bool.not_false, if_true]
    rfl

theorem uninstallLs_run (flt : Filter) (ok : Path → Bool) (fs : FS) (base : Path)
    (ls : List (String × String)) :
    ls.foldl (fun fs l => uninstallF flt fs base l.1 .symlink) fs =
      run ok fs ((ls.filter fun l => flt.ent base l.1 .symlink).map fun l => .rm (l.1 :: base)) := by
  induction ls generalizing fs with
  | nil => rfl
  | cons l ls ih =>
    rw [List.foldl_cons, ih, uninstallF_step flt ok]
    by_cases h : flt.ent base l.1 .symlink = true
    · rw [if_pos h, List.filter_cons_of_pos (by simpa using h)]
      rfl
    · rw [if_neg h, List.filter_cons_of_neg (by simpa using h)]
      rfl

theorem uninstallTarget_run {flt : Filter} {ok : Path → Bool} {fs : FS} (hw : Wf fs)
    (t : Item) (hf : ∀ p ∈ ups t.dirs.reverse, flt.dir p = true) :
    uninstallTarget flt ok fs t = run ok fs (stepsOf flt t) := by
  unfold uninstallTarget stepsOf
  simp only
  rw [uninstallLs_run flt ok, uninstallF_step flt ok, ← run_append, uninstallDs_run (run_wf hw _) _ hf,
    ← run_append]

theorem uninstall_run {flt : Filter} {ok : Path → Bool} {fs : FS} (hw : Wf fs)
    (ts : List Item) (hf : ∀ t ∈ ts, ∀ p ∈ ups t.dirs.reverse, flt.dir p = true) :
    uninstall flt ok fs ts = run ok fs (ts.flatMap (stepsOf flt)) := by
  unfold uninstall
  induction ts generalizing fs with
  | nil => rfl
  | cons t ts ih =>
    rw [List.foldl_cons, List.flatMap_cons, run_append,
      uninstallTarget_run hw t (hf t (by simp))]
    exact ih (run_wf hw _) fun s hs => hf s (List.mem_cons_of_mem _ hs)

/-! ## Which directories are tried -/

theorem mem_up {base d p : Path} (hb : Above base d) :
    p ∈ up base d ↔ Above p d ∧ Above base p ∧ (p = base → d = base) := by
  induction d with
  | nil =>
    have := above_nil_right hb
    subst this
    simp only [up, List.mem_singleton]
    constructor
    · rintro rfl; exact ⟨above_refl _, above_refl _, fun _ => trivial⟩
    · rintro ⟨h, -, -⟩; exact above_nil_right h
  | cons x d ih =>
    rw [up]
    by_cases h : x :: d = base
    · subst h
      simp only [ne_eq, not_true_eq_false, false_and, if_false, List.mem_singleton]
      constructor
      · rintro rfl; exact ⟨above_refl _, above_refl _, fun _ => trivial⟩
      · rintro ⟨h1, h2, -⟩; exact above_antisymm h1 h2
    · have hb' : Above base d := by
        rcases above_cons_iff.mp hb with h' | h'
        · exact absurd h'.symm h
        · exact h'
      by_cases h2 : d = base
      · subst h2
        simp only [ne_eq, not_true_eq_false, and_false, if_false, List.mem_singleton]
        constructor
        · rintro rfl; exact ⟨above_refl _, hb, fun e => e⟩
        · rintro ⟨h1, h3, h4⟩
          rcases above_cons_iff.mp h1 with h' | h'
          · exact h'
          · exact absurd (h4 (above_antisymm h' h3)) h
      · rw [if_pos ⟨h, h2⟩, List.mem_cons, ih hb']
        constructor
        · rintro (rfl | ⟨h1, h3, h4⟩)
          · exact ⟨above_refl _, hb, fun e => e⟩
          · exact ⟨above_cons x h1, h3, fun e => absurd (h4 e) h2⟩
        · rintro ⟨h1, h3, h4⟩
          rcases above_cons_iff.mp h1 with h' | h'
          · exact Or.inl h'
          · exact Or.inr ⟨h', h3, fun e => absurd (h4 e) h⟩

/-- The leading directories in reverse: each one is the next one or inside. -/
def NestedRev : List Path → Prop
  | [] => True
  | [_] => True
  | a :: b :: ds => Above b a ∧ NestedRev (b :: ds)

theorem nestedRev_snoc {ds : List Path} {a b : Path} (h : NestedRev (ds ++ [b])) (hab : Above a b) :
    NestedRev (ds ++ [b, a]) := by
  induction ds with
  | nil => exact ⟨hab, trivial⟩
  | cons d ds ih =>
    cases ds with
    | nil => exact ⟨h.1, ih h.2⟩
    | cons e ds => exact ⟨h.1, ih h.2⟩

theorem nested_reverse {ds : List Path} (h : Nested ds) : NestedRev ds.reverse := by
  induction ds with
  | nil => trivial
  | cons a ds ih =>
    cases ds with
    | nil => trivial
    | cons b ds =>
      have := ih h.2
      rw [List.reverse_cons] at this
      rw [List.reverse_cons, List.reverse_cons, List.append_assoc]
      exact nestedRev_snoc this h.1

theorem nestedRev_last {ds : List Path} (h : NestedRev ds) {d r : Path}
    (hd : ds.head? = some d) (hr : ds.getLast? = some r) : Above r d := by
  induction ds generalizing d with
  | nil => cases hd
  | cons a ds ih =>
    simp at hd
    subst hd
    cases ds with
    | nil => simp at hr; subst hr; exact above_refl _
    | cons b ds =>
      rw [List.getLast?_cons_cons] at hr
      exact above_trans (ih h.2 rfl hr) h.1

theorem mem_ups {ds : List Path} (h : NestedRev ds) {d r : Path}
    (hd : ds.head? = some d) (hr : ds.getLast? = some r) (p : Path) :
    p ∈ ups ds ↔ Above r p ∧ Above p d := by
  induction ds generalizing d with
  | nil => cases hd
  | cons a ds ih =>
    simp at hd
    subst hd
    cases ds with
    | nil =>
      simp at hr
      subst hr
      rw [ups, mem_up (above_refl a)]
      constructor
      · rintro ⟨h1, h2, -⟩; exact ⟨h2, h1⟩
      · rintro ⟨h1, h2⟩; exact ⟨h2, h1, fun _ => rfl⟩
    | cons b ds =>
      rw [List.getLast?_cons_cons] at hr
      have hrb := nestedRev_last h.2 (d := b) rfl hr
      rw [ups, List.mem_append, mem_up h.1, ih h.2 rfl hr]
      constructor
      · rintro (⟨h1, h2, -⟩ | ⟨h1, h2⟩)
        · exact ⟨above_trans hrb h2, h1⟩
        · exact ⟨h1, above_trans h2 h.1⟩
      · rintro ⟨h1, h2⟩
        rcases above_total h2 h.1 with h3 | h3
        · exact Or.inr ⟨h1, h3⟩
        · by_cases e : p = b
          · subst e; exact Or.inr ⟨h1, above_refl _⟩
          · exact Or.inl ⟨h2, h3, fun e' => absurd e' e⟩

/-- The steps come so that the directory is tried after what is inside. -/
inductive Later (C : Path → Prop) : List Step → Prop
  | nil : Later C []
  | rm {p post} : (∀ x d, p = x :: d → C d → .try d ∈ post) → Later C post →
      Later C (.rm p :: post)
  | try {d post} : (∀ x p, d = x :: p → C p → .try p ∈ post) → Later C post →
      Later C (.try d :: post)

theorem later_append {C : Path → Prop} {a b : List Step} (ha : Later C a) (hb : Later C b) :
    Later C (a ++ b) := by
  induction ha with
  | nil => exact hb
  | rm h _ ih => exact .rm (fun x d e c => List.mem_append_left _ (h x d e c)) ih
  | «try» h _ ih => exact .try (fun x d e c => List.mem_append_left _ (h x d e c)) ih

theorem later_up {C : Path → Prop} {base d : Path} (hb : Above base d) {post : List Step}
    (h1 : base ≠ d → C base → .try base ∈ post)
    (h2 : base = d → ∀ x p, d = x :: p → C p → .try p ∈ post)
    (hp : Later C post) : Later C ((up base d).map .try ++ post) := by
  induction d with
  | nil =>
    exact .try (fun x p e => by cases e) hp
  | cons x d ih =>
    rw [up]
    by_cases h : x :: d = base
    · simp only [h, ne_eq, not_true_eq_false, false_and, if_false, List.map_cons, List.map_nil]
      refine .try ?_ hp
      intro y p e c
      refine h2 h.symm y p ?_ c
      rw [h]; exact e
    · have hb' : Above base d := by
        rcases above_cons_iff.mp hb with h' | h'
        · exact absurd h'.symm h
        · exact h'
      by_cases h3 : d = base
      · simp only [h3, ne_eq, not_true_eq_false, and_false, if_false, List.map_cons, List.map_nil]
        refine .try ?_ hp
        intro y p e c
        simp at e
        obtain ⟨rfl, rfl⟩ := e
        exact h1 (fun e => h e.symm) c
      · rw [if_pos ⟨h, h3⟩, List.map_cons]
        refine .try ?_ (ih hb' (fun _ c => h1 (fun e => h e.symm) c)
          (fun e => absurd e.symm h3))
        intro y p e c
        simp at e
        obtain ⟨rfl, rfl⟩ := e
        apply List.mem_append_left
        apply List.mem_map_of_mem
        rw [mem_up hb']
        exact ⟨above_refl _, hb', fun e => e⟩

theorem later_ups {C : Path → Prop} {ds : List Path} (h : NestedRev ds) {r : Path}
    (hr : ds.getLast? = some r) (hroot : ∀ x p, r = x :: p → ¬ C p) :
    Later C ((ups ds).map .try) := by
  induction ds with
  | nil => exact .nil
  | cons a ds ih =>
    cases ds with
    | nil =>
      simp at hr
      subst hr
      rw [ups]
      have := later_up (C := C) (above_refl a) (post := []) (fun h => absurd rfl h)
        (fun _ x p e c => absurd c (hroot x p e)) .nil
      simpa using this
    | cons b ds =>
      rw [List.getLast?_cons_cons] at hr
      have hrb := nestedRev_last h.2 (d := b) rfl hr
      rw [ups, List.map_append]
      refine later_up h.1 ?_ ?_ (ih h.2 hr)
      · intro _ _
        apply List.mem_map_of_mem
        rw [mem_ups h.2 rfl hr]
        exact ⟨hrb, above_refl _⟩
      · rintro rfl x p e c
        by_cases hrb' : r = b
        · subst hrb'
          exact absurd c (hroot x p e)
        · apply List.mem_map_of_mem
          rw [mem_ups h.2 rfl hr]
          subst e
          rcases above_cons_iff.mp hrb with e | e
          · exact absurd e hrb'
          · exact ⟨e, above_cons x (above_refl p)⟩

end Verif.Install
