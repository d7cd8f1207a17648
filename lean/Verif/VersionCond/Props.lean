import Verif.VersionCond.Eval

/-!
# Version constraints of dependencies: properties
-/

namespace Verif.VersionCond

/-! ## Names of macros -/

theorem isBlank_iff (c : Char) : isBlank c = true ↔ Blank c := by
  simp [isBlank, Blank, or_assoc]

theorem dropWhile_blank {l m : List Char} (hl : ∀ c ∈ l, Blank c)
    (hm : ∀ c, m.head? = some c → ¬ Blank c) : (l ++ m).dropWhile isBlank = m := by
  induction l with
  | nil =>
    cases m with
    | nil => rfl
    | cons c m =>
      have h := hm c rfl
      rw [← isBlank_iff] at h
      simp [h]
  | cons a l ih =>
    have h := hl a (by simp)
    rw [← isBlank_iff] at h
    simp only [List.cons_append, List.dropWhile_cons, h, if_true]
    exact ih (fun c hc => hl c (List.mem_cons_of_mem _ hc))

theorem trim_padded {s m : List Char} (h : Padded s m) (hm : ∀ c ∈ m, ¬ Blank c) (hne : m ≠ []) :
    trim s = m := by
  obtain ⟨l, r, rfl, hl, hr⟩ := h
  have hne' : m.reverse ≠ [] := by simpa using hne
  unfold trim
  rw [List.append_assoc, dropWhile_blank hl, List.reverse_append, dropWhile_blank,
    List.reverse_reverse]
  · intro c hc
    exact hr c (List.mem_reverse.1 hc)
  · intro c hc
    have := List.mem_of_mem_head? hc
    exact hm c (List.mem_reverse.1 this)
  · intro c hc
    cases m with
    | nil => exact absurd rfl hne
    | cons a m =>
      simp only [List.cons_append, List.head?_cons, Option.some.injEq] at hc
      exact hm c (by simp [hc])

theorem padded_isName {s m : List Char} (h : Padded s m) (hm : MacroName m) :
    ∀ c ∈ s, isName c = true := by
  obtain ⟨l, r, rfl, hl, hr⟩ := h
  have hb : ∀ c, Blank c → isName c = true := by
    intro c hc
    rcases hc with rfl | rfl | rfl | rfl <;> decide
  intro c hc
  rcases List.mem_append.1 hc with hc | hc
  · rcases List.mem_append.1 hc with hc | hc
    · exact hb c (hl c hc)
    · have := hm.2 c hc
      simp [isName, this.2.1, this.2.2]
  · exact hb c (hr c hc)

theorem takeWhile_name {s t : List Char} {c : Char} (h : ∀ c ∈ s, isName c = true)
    (hc : isName c = false) :
    (s ++ c :: t).takeWhile isName = s ∧ (s ++ c :: t).dropWhile isName = c :: t := by
  induction s with
  | nil => simp [hc]
  | cons a s ih =>
    have ha := h a (by simp)
    have := ih (fun c hc => h c (List.mem_cons_of_mem _ hc))
    simp [ha, this]

/-- **C74a.** The macros are what is between the parentheses, without the blanks around
them. -/
theorem macros_one {s v : List Char} (hv : MacroName v) (hs : Padded s v) :
    macros (s ++ [')']) = some (v, []) := by
  have h := takeWhile_name (t := []) (padded_isName hs hv) (c := ')') rfl
  simp only [macros, h.1, h.2]
  rw [trim_padded hs (fun c hc => (hv.2 c hc).1) hv.1]
  simp

theorem macros_two {s t v w : List Char} (hv : MacroName v) (hw : MacroName w)
    (hs : Padded s v) (ht : Padded t w) :
    macros (s ++ ',' :: (t ++ [')'])) = some (v, w) := by
  have h := takeWhile_name (t := t ++ [')']) (padded_isName hs hv) (c := ',') rfl
  simp only [macros, h.1, h.2]
  rw [trim_padded hs (fun c hc => (hv.2 c hc).1) hv.1]
  simp [trim_padded ht (fun c hc => (hw.2 c hc).1) hw.1]

/-- A missing parenthesis is diagnosed in both forms. -/
theorem macros_missing {s v : List Char} (hv : MacroName v) (hs : Padded s v) :
    macros s = none ∧ ∀ t, t.getLast? ≠ some ')' → macros (s ++ ',' :: t) = none := by
  have hn := padded_isName hs hv
  refine ⟨?_, fun t ht => ?_⟩
  · have : s.dropWhile isName = [] := by
      clear hs
      induction s with
      | nil => rfl
      | cons a s ih =>
        rw [List.dropWhile_cons, if_pos (hn a (by simp))]
        exact ih (fun c hc => hn c (List.mem_cons_of_mem _ hc))
    simp only [macros, this]
  · have h := takeWhile_name (t := t) hn (c := ',') rfl
    simp only [macros, h.1, h.2]
    simp [ht]

/-- But text after the parenthesis is dropped if there is only one macro: the user who
writes `$libfoo.condition(VER) && FOO$` gets the condition alone. -/
theorem trailing_dropped {s t v : List Char} (hv : MacroName v) (hs : Padded s v) :
    macros (s ++ ')' :: t) = some (v, []) := by
  have h := takeWhile_name (t := t) (padded_isName hs hv) (c := ')') rfl
  simp only [macros, h.1, h.2]
  rw [trim_padded hs (fun c hc => (hv.2 c hc).1) hv.1]
  simp

/-- Which of the substitutions it is. -/
theorem kinds (s : List Char) :
    kindOf ("check(".toList ++ s) = some (.check, s) ∧
    kindOf ("condition(".toList ++ s) = some (.condition, s) := by
  refine ⟨?_, ?_⟩ <;> rfl

example : macros " FOO_VERSION , FOO_SNAPSHOT )".toList =
    some ("FOO_VERSION".toList, "FOO_SNAPSHOT".toList) := by decide +kernel

/-! ## Numbers -/

/-- **C74b.** Versions are ordered the way their numbers are, the snapshot numbers
deciding between versions with the same number. -/
theorem number_order {v w : Version} (hv : v.Ok) (hw : w.Ok) :
    v.Before w ↔ v.number < w.number ∨ (v.number = w.number ∧ v.snap < w.snap) :=
  before_iff hv hw

/-- Without snapshots the numbers alone decide. -/
theorem number_order_final {v w : Version} (hv : v.Ok) (hw : w.Ok)
    (h : v.snap = 0 ∨ w.snap = 0) : v.Before w ↔ v.number < w.number := by
  rw [before_iff hv hw]
  constructor
  · rintro (h1 | ⟨h1, h2⟩)
    · exact h1
    · rcases h with h | h
      · have := snap_zero hw hv h1.symm h
        omega
      · omega
  · exact .inl

/-- Examples of the manual. -/
example : (Version.mk 2 2 0 (.alpha 1) 0 0).number = 200001999990010 ∧
    (Version.mk 3 0 0 (.beta 2) 0 0).number = 299999999995020 ∧
    (Version.mk 2 2 0 (.alpha 1) 7 0).number = 200001999990011 := by decide

/-! ## Conditions -/

/-- What is asked of the macros: the version macro is the number of the version and the
snapshot macro, if the constraint is about snapshots, the snapshot number. -/
structure Macros (env : Env) (vm sm : List Char) (c : Constraint) (d : Version) : Prop where
  version : env vm = some d.number
  snapshot : c.Snapshot → sm ≠ [] ∧ env sm = some d.snap

theorem snapshotOf_iff (c : Constraint) :
    (snapshotOf (parseConstraint c).minVersion || snapshotOf (parseConstraint c).maxVersion) =
      true ↔ c.Snapshot := by
  obtain ⟨lo, lop, hi, hop⟩ := c
  have key : ∀ o : Option Bound, snapshotOf (o.map encode) = true ↔
      ∃ v, o = some (.ver v) ∧ v.snap ≠ 0 := by
    intro o
    cases o with
    | none => simp [snapshotOf]
    | some b =>
      cases b with
      | ver v => simp [snapshotOf, encode, SV.snapshot]
      | earliest x y z => simp [snapshotOf, encode, SV.snapshot]
  rw [Bool.or_eq_true]
  exact or_congr (key lo) (key hi)

theorem cond_some {vm sm : List Char} {c : Constraint} (hc : c.Ok)
    (hs : c.Snapshot → sm ≠ []) :
    cond vm sm (parseConstraint c) = some (body vm sm (c.lo.map encode) c.loOpen
      (c.hi.map encode) c.hiOpen) := by
  rw [cond_eq, if_neg, if_neg]
  · rfl
  · rintro ⟨h1, h2⟩
    rcases hc.some with h | h
    · exact h (Option.map_eq_none_iff.1 h1)
    · exact h (Option.map_eq_none_iff.1 h2)
  · intro h
    rw [Bool.and_eq_true, snapshotOf_iff] at h
    exact hs h.2 (List.isEmpty_iff.1 h.1)

theorem some_encode {c : Constraint} (hc : c.Ok) :
    c.lo.map encode ≠ none ∨ c.hi.map encode ≠ none := by
  rcases hc.some with h | h
  · exact .inl (fun g => h (Option.map_eq_none_iff.1 g))
  · exact .inr (fun g => h (Option.map_eq_none_iff.1 g))

theorem holds_macros {env : Env} {vm sm : List Char} {c : Constraint} {d : Version}
    (hc : c.Ok) (hn : c.NoRevision) (hd : d.Ok) (hm : Macros env vm sm c d) :
    holds (c.lo.map encode) c.loOpen (c.hi.map encode) c.hiOpen (val env vm) (val env sm) =
      true ↔ c.Sat d := by
  have h1 : val env vm = d.number := by simp [val, hm.version]
  rw [h1]
  exact holds_iff hc hn hd (fun h => by simp [val, (hm.snapshot h).2])

/-- **C74c.** The condition is generated, is an expression, and is true if and only if the
version of the dependency satisfies the constraint.  Partial: endpoints with revisions
are excluded, see below. -/
theorem condition_partial {env : Env} {vm sm : List Char} {c : Constraint} {d : Version}
    (hc : c.Ok) (hn : c.NoRevision) (hd : d.Ok) (hm : Macros env vm sm c d) :
    ∃ ts n, cond vm sm (parseConstraint c) = some ts ∧ eval env ts = some n ∧
      (n ≠ 0 ↔ c.Sat d) := by
  refine ⟨_, _, cond_some hc (fun h => (hm.snapshot h).1),
    eval_body env vm sm _ _ (some_encode hc), ?_⟩
  rw [← holds_macros hc hn hd hm]
  generalize holds _ _ _ _ _ _ = b
  cases b <;> simp [truth]

/-- **C74d.** With the check in a header and the version macro defined, the preprocessor
reaches the `#error` if and only if the version does not satisfy the constraint. -/
theorem check_partial {env : Env} {vm sm : List Char} {c : Constraint} {d : Version}
    (hc : c.Ok) (hn : c.NoRevision) (hd : d.Ok) (hm : Macros env vm sm c d) :
    ∃ ls e, check vm sm (parseConstraint c) = some ls ∧ errorIn env [] ls = some e ∧
      (e = true ↔ ¬ c.Sat d) := by
  refine ⟨_, !holds (c.lo.map encode) c.loOpen (c.hi.map encode) c.hiOpen (val env vm)
      (val env sm), by rw [check, cond_some hc (fun h => (hm.snapshot h).1)]; rfl, ?_, ?_⟩
  · have h := eval_not_body env vm sm c.loOpen c.hiOpen (some_encode hc)
    simp only [errorIn, hm.version, h]
    generalize holds _ _ _ _ _ _ = b
    cases b <;> simp [truth]
  · rw [← holds_macros hc hn hd hm]
    simp

/-- Nothing is checked if the version macro is not defined. -/
theorem check_undefined {env : Env} {vm sm : List Char} {c : SVC} {ls : List Line}
    (h : check vm sm c = some ls) (hu : env vm = none) : errorIn env [] ls = some false := by
  simp only [check, Option.map_eq_some_iff] at h
  obtain ⟨ts, -, rfl⟩ := h
  simp [errorIn, hu]

/-- **C74e.** The substitution fails if and only if the constraint is about snapshots and
there is no snapshot macro. -/
theorem snapshot_macro {vm sm : List Char} {c : Constraint} (hc : c.Ok) :
    cond vm sm (parseConstraint c) = none ↔ c.Snapshot ∧ sm = [] := by
  constructor
  · intro h
    by_cases hs : c.Snapshot ∧ sm = []
    · exact hs
    · rw [cond_some hc (fun g e => hs ⟨g, e⟩)] at h
      simp at h
  · rintro ⟨h1, rfl⟩
    rw [cond_eq, if_pos]
    rw [(snapshotOf_iff c).2 h1]
    rfl

/-- **C74f.** The condition can be an operand of `&&`.  Partial: not if the only endpoint
is a snapshot. -/
theorem operand_partial {env : Env} {vm sm : List Char} {c : Constraint} {d : Version}
    (hc : c.Ok) (hn : c.NoRevision) (hd : d.Ok) (hm : Macros env vm sm c d)
    (ho : (c.lo ≠ none ∧ c.hi ≠ none) ∨ ¬ c.Snapshot) (x : List Char) :
    ∃ ts n, cond vm sm (parseConstraint c) = some ts ∧
      eval env ([.id x, .and] ++ ts) = some n ∧
      (n ≠ 0 ↔ (env x).getD 0 ≠ 0 ∧ c.Sat d) := by
  have ht : Tight (c.lo.map encode) (c.hi.map encode) := by
    rcases ho with ⟨h1, h2⟩ | h
    · exact .inl ⟨fun g => h1 (Option.map_eq_none_iff.1 g),
        fun g => h2 (Option.map_eq_none_iff.1 g)⟩
    · rw [← snapshotOf_iff] at h
      simp only [Bool.or_eq_true, not_or, Bool.not_eq_true] at h
      exact .inr h
  refine ⟨_, _, cond_some hc (fun h => (hm.snapshot h).1),
    eval_and_body env vm sm _ _ (some_encode hc) ht x, ?_⟩
  rw [← holds_macros hc hn hd hm]
  generalize holds _ _ _ _ _ _ = b
  cases b <;> simp [truth, val]

/-! ## What does not hold -/

/-- `libfoo >= 3.0.0-b.2.7`. -/
def oneSided : Constraint := ⟨some (.ver ⟨3, 0, 0, .beta 2, 7, 0⟩), false, none, false⟩

/-- `libfoo 3.0.0-b.2.8`, with `FOO` defined as zero. -/
def oneSidedEnv : Env := fun m =>
  if m = ['V'] then some 299999999995021 else if m = ['S'] then some 8 else
  if m = ['F'] then some 0 else none

/-- The condition for a snapshot is not in parentheses if there is only one endpoint: in
`FOO && $libfoo.condition(V,S)$` it is true although `FOO` is zero. -/
theorem one_sided_operand :
    oneSided.Ok ∧ Macros oneSidedEnv ['V'] ['S'] oneSided ⟨3, 0, 0, .beta 2, 8, 0⟩ ∧
    oneSidedEnv ['F'] = some 0 ∧
    ((cond ['V'] ['S'] (parseConstraint oneSided)).map
      fun ts => eval oneSidedEnv ([.id ['F'], .and] ++ ts)) = some (some 1) := by
  refine ⟨⟨.inl (by simp [oneSided]), ?_, ?_, ?_, ?_, ?_⟩, ⟨by decide, fun _ => by decide⟩,
    by decide, by decide +kernel⟩
  · intro b hb
    simp only [oneSided, Option.some.injEq] at hb
    subst hb
    simp [Bound.Ok, Version.Ok]
  · intro b hb
    simp [oneSided] at hb
  · intro x y z h
    rfl
  · intro x y z h
    simp [oneSided] at h
  · intro _ h
    simp [oneSided] at h

/-- `libfoo >= 1.2.3+2`. -/
def revised : Constraint := ⟨some (.ver ⟨1, 2, 3, .release, 0, 2⟩), false, none, false⟩

/-- `libfoo > 1.2.3+1`. -/
def revisedOpen : Constraint := ⟨some (.ver ⟨1, 2, 3, .release, 0, 1⟩), true, none, false⟩

/-- Revisions are not looked at: `1.2.3+1` passes the check for `>= 1.2.3+2`, and
`1.2.3+2` does not pass the one for `> 1.2.3+1`. -/
theorem revision_ignored :
    (¬ revised.Sat ⟨1, 2, 3, .release, 0, 1⟩ ∧
      ((check ['V'] [] (parseConstraint revised)).map
        (errorIn (fun _ => some (Version.number ⟨1, 2, 3, .release, 0, 1⟩)) [])) =
          some (some false)) ∧
    (revisedOpen.Sat ⟨1, 2, 3, .release, 0, 2⟩ ∧
      ((check ['V'] [] (parseConstraint revisedOpen)).map
        (errorIn (fun _ => some (Version.number ⟨1, 2, 3, .release, 0, 2⟩)) [])) =
          some (some true)) := by
  refine ⟨⟨?_, by decide +kernel⟩, ?_, by decide +kernel⟩
  · intro h
    have := h.1 _ rfl
    revert this
    simp [revised, Bound.Below, Bound.At, Version.Before, TripleBefore, Version.Same,
      Stage.Before]
  · refine ⟨fun b hb => ?_, fun b hb => by simp [revisedOpen] at hb⟩
    simp only [revisedOpen, Option.some.injEq] at hb
    subst hb
    left
    right
    simp [Version.Same]

/-! ## The hypotheses can be met -/

/-- `libprint [3.0.0-b.2.1 3.0.0-b.3)` of the manual. -/
def manual : Constraint :=
  ⟨some (.ver ⟨3, 0, 0, .beta 2, 1, 0⟩), false, some (.ver ⟨3, 0, 0, .beta 3, 0, 0⟩), true⟩

theorem manual_ok : manual.Ok := by
  refine ⟨.inl (by simp [manual]), ?_, ?_, ?_, ?_, ?_⟩
  · intro b hb
    simp only [manual, Option.some.injEq] at hb
    subst hb
    simp [Bound.Ok, Version.Ok]
  · intro b hb
    simp only [manual, Option.some.injEq] at hb
    subst hb
    simp [Bound.Ok, Version.Ok]
  · intro x y z h
    rfl
  · intro x y z h
    rfl
  · intro _ h
    simp [manual] at h

example : manual.NoRevision ∧ manual.Snapshot ∧
    Macros (fun m => if m = ['V'] then some 299999999995021 else some 9) ['V'] ['S'] manual
      ⟨3, 0, 0, .beta 2, 9, 0⟩ := by
  refine ⟨⟨?_, ?_⟩, .inl ⟨_, rfl, by decide⟩, ⟨by decide, fun _ => by decide⟩⟩
  all_goals
    intro v hv
    simp only [manual, Option.some.injEq, Bound.ver.injEq] at hv
    subst hv
    rfl

/-- `~1.2.3`, that is `[1.2.3 1.3.0-)`: the first pre-release of `1.3.0` is out, the
latest patch is in. -/
def tilde : Constraint :=
  ⟨some (.ver ⟨1, 2, 3, .release, 0, 0⟩), false, some (.earliest 1 3 0), true⟩

example : ((cond ['V'] [] (parseConstraint tilde)).map fun ts =>
    ([⟨1, 2, 2, .release, 0, 0⟩, ⟨1, 2, 3, .beta 1, 0, 0⟩, ⟨1, 2, 3, .release, 0, 0⟩,
      ⟨1, 2, 99999, .release, 0, 0⟩, ⟨1, 3, 0, .alpha 0, 1, 0⟩,
      ⟨1, 3, 0, .release, 0, 0⟩] : List Version).map fun v => eval (fun _ => some v.number) ts) =
    some [some 0, some 0, some 1, some 1, some 0, some 0] := by decide +kernel

end Verif.VersionCond
