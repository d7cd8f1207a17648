import Verif.TestSel.Lemmas

/-!
# Test selection: theorems
-/

namespace Verif.TestSel

variable {C : Type} [DecidableEq C]

/-- A target is tested if and only if it is selected. -/
theorem target_tested_iff {search : Nm C → Option Nat} {ns : List (Nm C)} {rs : List (Request C)}
    (hd : Denotes search ns rs) (t : Target C) :
    ∃ b, test search (some ns) t = .ok b ∧ (b = true ↔ TargetSelected rs t) := by
  obtain ⟨b, h1, h2⟩ := loop_iff (search := search) (body := testBody search t)
    (considered := fun r => r.what ≠ none) (matched := fun r => ∃ w, r.what = some w ∧ w.covers t)
    (by rintro r ⟨w, h, _⟩; simp [h])
    (by
      intro tn pn r q e1 _
      cases tn with
      | none => simp at e1; simp [e1, testBody]
      | some n =>
        simp at e1
        simp only [e1, Option.some.injEq, exists_eq_left', testBody]
        rw [← matchTarget_iff]
        refine ⟨fun h => by rw [h], fun h => absurd (by simp) h, fun _ h => ?_⟩
        have : matchTarget search t n = false := by simpa using h
        rw [this])
    hd
  refine ⟨b, h1, h2.trans ?_⟩
  unfold TargetSelected
  simp

/-- A test (or group) in a testscript of a target is executed if and only if it is
selected. -/
theorem test_run_iff {search : Nm C → Option Nat} {ns : List (Nm C)} {rs : List (Request C)}
    (hd : Denotes search ns rs) (t : Target C) (id : Path C) :
    ∃ b, testId search (some ns) t id = .ok b ∧ (b = true ↔ TestSelected rs t id) := by
  obtain ⟨b, h1, h2⟩ := loop_iff (search := search) (body := testIdBody search t id)
    (considered := fun r => Concerns r t ∧ r.id ≠ none)
    (matched := fun r => Concerns r t ∧ ∃ p, r.id = some p ∧ Related p id)
    (by rintro r ⟨hc, p, h, _⟩; exact ⟨hc, by simp [h]⟩)
    (by
      intro tn pn r q e1 e2
      cases pn with
      | none => simp at e2; simp [e2, testIdBody]
      | some n =>
        simp at e2
        have hrel := related_sub n.value id
        have key : (Related n.value id → (sub n.value id || sub id n.value) = true) ∧
            (¬ Related n.value id → (sub n.value id || sub id n.value) = false) :=
          ⟨hrel.mpr, fun h => by
            cases hb : (sub n.value id || sub id n.value)
            · rfl
            · exact absurd (hrel.mp hb) h⟩
        simp only [e2, Option.some.injEq, exists_eq_left', testIdBody]
        cases tn with
        | none =>
          simp at e1
          have hc : Concerns q t := by intro w hw; rw [e1] at hw; cases hw
          refine ⟨fun h => ?_, fun h => absurd ⟨hc, by simp⟩ h, fun _ h => ?_⟩
          · simp [key.1 h.2]
          · simp [key.2 (fun h' => h ⟨hc, h'⟩)]
        | some m =>
          simp at e1
          have hc : Concerns q t ↔ matchTarget search t m = true := by
            rw [matchTarget_iff]
            unfold Concerns
            rw [e1]; simp
          rw [hc]
          refine ⟨fun h => ?_, fun h => ?_, fun h h' => ?_⟩
          · simp [h.1, key.1 h.2]
          · have : matchTarget search t m = false := by
              cases hb : matchTarget search t m
              · rfl
              · exact absurd ⟨hb, by simp⟩ h
            simp [this]
          · simp [h.1, key.2 (fun hr => h' ⟨h.1, hr⟩)])
    hd
  refine ⟨b, h1, h2.trans ?_⟩
  unfold TestSelected
  constructor
  · rintro (h | ⟨q, hq, hc, h⟩)
    · left
      intro r hr hc
      cases hid : r.id with
      | none => rfl
      | some p => exact absurd ⟨hc, by simp [hid]⟩ (h r hr)
    · exact .inr ⟨q, hq, hc, h⟩
  · rintro (h | ⟨q, hq, hc, h⟩)
    · left
      rintro r hr ⟨hc, hn⟩
      exact hn (h r hr hc)
    · exact .inr ⟨q, hq, hc, h⟩

/-- An alias passes the test operation to its prerequisites if and only if there could be
a selected target in its directory or below. -/
theorem alias_passes_iff {search : Nm C → Option Nat} {ns : List (Nm C)} {rs : List (Request C)}
    (hd : Denotes search ns rs) (d : Path C) :
    ∃ b, pass (some ns) d = .ok b ∧
      (b = true ↔ (∀ r ∈ rs, r.what = none) ∨
        ∃ r ∈ rs, ∃ w, r.what = some w ∧ ∃ x, d <+: x ∧ w.coversDir x) := by
  obtain ⟨b, h1, h2⟩ := loop_iff (search := search) (body := passBody d)
    (considered := fun r => r.what ≠ none)
    (matched := fun r => ∃ w, r.what = some w ∧ ∃ x, d <+: x ∧ w.coversDir x)
    (by rintro r ⟨w, h, _⟩; simp [h])
    (by
      intro tn pn r q e1 _
      cases tn with
      | none => simp at e1; simp [e1, passBody]
      | some n =>
        simp at e1
        simp only [e1, Option.some.injEq, exists_eq_left', passBody]
        have hx : (∃ x, d <+: x ∧ (whatOf search n).coversDir x) ↔
            (if (!sub n.dir d && !n.typed) = true then sub d n.dir else sub n.dir d) = true := by
          unfold whatOf Nm.typed
          cases hty : n.type with
          | none =>
            simp only [What.coversDir, Option.isSome_none, Bool.not_false, Bool.and_true,
              Bool.not_eq_true']
            have e : (if sub n.dir d = false then sub d n.dir else sub n.dir d) = true ↔
                (sub n.dir d || sub d n.dir) = true := by
              cases sub n.dir d <;> simp
            rw [e, related_sub]
            constructor
            · rintro ⟨x, a, b⟩; exact prefix_comparable b a
            · rintro (h | h)
              · exact ⟨d, List.prefix_rfl, h⟩
              · exact ⟨n.dir, h, List.prefix_rfl⟩
          | some ty =>
            simp only [What.coversDir, Option.isSome_some, Bool.not_true, Bool.and_false,
              Bool.false_eq_true, if_false, sub_iff]
            constructor
            · rintro ⟨x, a, rfl⟩; exact a
            · intro h; exact ⟨n.dir, h, rfl⟩
        rw [hx]
        refine ⟨fun h => by rw [h], fun h => absurd (by simp) h, fun _ h => ?_⟩
        have : (if (!sub n.dir d && !n.typed) = true then sub d n.dir else sub n.dir d) = false := by
          cases hb : (if (!sub n.dir d && !n.typed) = true then sub d n.dir else sub n.dir d)
          · rfl
          · exact absurd hb h
        rw [this])
    hd
  refine ⟨b, h1, h2.trans ?_⟩
  simp

/-! ## Everything selected is reached -/

/-- All the tests in the scopes. -/
def allScopes (p : Path C) : List (Script C) → List (Path C)
  | [] => []
  | .test i :: ss => (p ++ [i]) :: allScopes p ss
  | .group i ts :: ss => allScopes (p ++ [i]) ts ++ allScopes p ss

/-- All the tests in the file. -/
def allFile (name : Option C) (ss : List (Script C)) : List (Path C) :=
  allScopes (name.toList) ss

theorem allScopes_prefix (p : Path C) (ss : List (Script C)) :
    ∀ x ∈ allScopes p ss, p <+: x := by
  match ss with
  | [] => simp [allScopes]
  | .test i :: ss =>
    intro x hx
    rw [allScopes] at hx
    rcases List.mem_cons.mp hx with rfl | h
    · exact List.prefix_append _ _
    · exact allScopes_prefix p ss x h
  | .group i ts :: ss =>
    intro x hx
    rw [allScopes] at hx
    rcases List.mem_append.mp hx with h | h
    · exact (List.prefix_append _ _).trans (allScopes_prefix (p ++ [i]) ts x h)
    · exact allScopes_prefix p ss x h

theorem runScopes_eq {sel : Path C → Bool} (hs : ∀ p q, p <+: q → sel q = true → sel p = true)
    (p : Path C) (ss : List (Script C)) :
    runScopes sel p ss = (allScopes p ss).filter sel := by
  match ss with
  | [] => simp [runScopes, allScopes]
  | .test i :: ss =>
    rw [runScopes, allScopes, runScopes_eq hs p ss, List.filter_cons]
    split <;> simp
  | .group i ts :: ss =>
    rw [runScopes, allScopes, runScopes_eq hs p ss, runScopes_eq hs (p ++ [i]) ts,
      List.filter_append]
    congr 1
    split
    · rfl
    · rename_i h
      symm
      rw [List.filter_eq_nil_iff]
      intro x hx hsel
      exact h (hs _ _ (allScopes_prefix _ _ x hx) hsel)

/-- Whether a test is selected, as a function for `runFile`. -/
def selects (search : Nm C → Option Nat) (cfg : Option (List (Nm C))) (t : Target C)
    (id : Path C) : Bool := decide (testId search cfg t id = .ok true)

theorem TestSelected.shorter {rs : List (Request C)} {t : Target C} {id p : Path C}
    (h : TestSelected rs t id) (hp : p <+: id) : TestSelected rs t p := by
  rcases h with h | ⟨r, hr, hc, x, hx, hrel⟩
  · exact .inl h
  · exact .inr ⟨r, hr, hc, x, hx, hrel.shorter hp⟩

theorem selects_iff {search : Nm C → Option Nat} {ns : List (Nm C)} {rs : List (Request C)}
    (hd : Denotes search ns rs) (t : Target C) (id : Path C) :
    selects search (some ns) t id = true ↔ TestSelected rs t id := by
  obtain ⟨b, h1, h2⟩ := test_run_iff hd t id
  unfold selects
  rw [h1, ← h2]
  simp

/-- The tests of a testscript that are executed are exactly the selected ones, in order:
no selected test is skipped because a group or the file it is in was. -/
theorem tests_run {search : Nm C → Option Nat} {ns : List (Nm C)} {rs : List (Request C)}
    (hd : Denotes search ns rs) (t : Target C) (name : Option C) (ss : List (Script C)) :
    runFile (selects search (some ns) t) name ss =
      (allFile name ss).filter (selects search (some ns) t) ∧
    ∀ id, id ∈ runFile (selects search (some ns) t) name ss ↔
      id ∈ allFile name ss ∧ TestSelected rs t id := by
  have hs : ∀ p q, p <+: q → selects search (some ns) t q = true →
      selects search (some ns) t p = true := by
    intro p q hp hq
    rw [selects_iff hd] at hq ⊢
    exact hq.shorter hp
  have e : runFile (selects search (some ns) t) name ss =
      (allFile name ss).filter (selects search (some ns) t) := by
    cases name with
    | none => exact runScopes_eq hs [] ss
    | some n =>
      simp only [runFile, allFile, Option.toList]
      rw [runScopes_eq hs]
      split
      · rfl
      · rename_i h
        symm
        rw [List.filter_eq_nil_iff]
        intro x hx hsel
        exact h (hs _ _ (allScopes_prefix _ _ x hx) hsel)
  refine ⟨e, fun id => ?_⟩
  rw [e, List.mem_filter, selects_iff hd]

/-- Without config.test all tests are executed. -/
theorem tests_run_all (search : Nm C → Option Nat) (t : Target C) (name : Option C)
    (ss : List (Script C)) : runFile (selects search none t) name ss = allFile name ss := by
  have h : ∀ id, selects search none t id = true := fun id => by simp [selects, testId]
  cases name with
  | none =>
    simp only [runFile, allFile, Option.toList]
    rw [runScopes_eq (fun p _ _ _ => h p)]
    simp [h]
  | some n =>
    simp only [runFile, allFile, Option.toList]
    rw [runScopes_eq (fun p _ _ _ => h p)]
    simp [h]

/-- All the targets. -/
def allTrees : List (Tree C) → List (Target C)
  | [] => []
  | .target t :: ts => t :: allTrees ts
  | .alias t ps :: ts => allTrees ps ++ t :: allTrees ts

/-- The prerequisites of aliases are in their directories or below. -/
def Nested : List (Tree C) → Prop
  | [] => True
  | .target _ :: ts => Nested ts
  | .alias t ps :: ts => (∀ x ∈ allTrees ps, t.dir <+: x.dir) ∧ Nested ps ∧ Nested ts

def tested (search : Nm C → Option Nat) (cfg : Option (List (Nm C))) (t : Target C) : Bool :=
  decide (test search cfg t = .ok true)

def passes (cfg : Option (List (Nm C))) (d : Path C) : Bool := decide (pass cfg d = .ok true)

/-- The targets that are tested are exactly the selected ones, in order: no selected
target is skipped because an alias it is a prerequisite of, in an outer directory, was. -/
theorem targets_tested {search : Nm C → Option Nat} {ns : List (Nm C)} {rs : List (Request C)}
    (hd : Denotes search ns rs) (ts : List (Tree C)) (hn : Nested ts) :
    runTrees (passes (some ns)) (tested search (some ns)) ts =
      (allTrees ts).filter (tested search (some ns)) ∧
    ∀ t, t ∈ runTrees (passes (some ns)) (tested search (some ns)) ts ↔
      t ∈ allTrees ts ∧ TargetSelected rs t := by
  have ht : ∀ t, tested search (some ns) t = true ↔ TargetSelected rs t := by
    intro t
    obtain ⟨b, h1, h2⟩ := target_tested_iff hd t
    unfold tested
    rw [h1, ← h2]; simp
  have hp : ∀ d (t : Target C), d <+: t.dir → tested search (some ns) t = true →
      passes (some ns) d = true := by
    intro d t hdt hsel
    obtain ⟨b, h1, h2⟩ := alias_passes_iff hd d
    unfold passes
    rw [h1]
    have : b = true := by
      rw [h2]
      rcases (ht t).mp hsel with h | ⟨r, hr, w, hw, hc⟩
      · exact .inl h
      · refine .inr ⟨r, hr, w, hw, t.dir, hdt, ?_⟩
        cases w with
        | under x => exact hc
        | exact x ty n o => exact hc.1
    simp [this]
  have e : ∀ ts : List (Tree C), Nested ts →
      runTrees (passes (some ns)) (tested search (some ns)) ts =
        (allTrees ts).filter (tested search (some ns)) := by
    intro ts
    exact go ht hp ts
  refine ⟨e ts hn, fun t => ?_⟩
  rw [e ts hn, List.mem_filter, ht]
where
  go {search : Nm C → Option Nat} {ns : List (Nm C)} {rs : List (Request C)}
      (ht : ∀ t, tested search (some ns) t = true ↔ TargetSelected rs t)
      (hp : ∀ d (t : Target C), d <+: t.dir → tested search (some ns) t = true →
        passes (some ns) d = true) (ts : List (Tree C)) (hn : Nested ts) :
      runTrees (passes (some ns)) (tested search (some ns)) ts =
        (allTrees ts).filter (tested search (some ns)) := by
    match ts with
    | [] => simp [runTrees, allTrees]
    | .target t :: ts =>
      rw [Nested] at hn
      rw [runTrees, allTrees, go ht hp ts hn, List.filter_cons]
      split <;> simp
    | .alias t ps :: ts =>
      rw [Nested] at hn
      rw [runTrees, allTrees, go ht hp ts hn.2.2, go ht hp ps hn.2.1, List.filter_append,
        List.filter_cons, List.append_assoc]
      congr 1
      · split
        · rfl
        · rename_i h
          symm
          rw [List.filter_eq_nil_iff]
          intro x hx hsel
          exact h (hp _ x (hn.1 x hx) hsel)
      · split <;> simp

/-! ## Where the value is not what it seems -/

/-- The value of an untyped name with a directory is ignored: `basics/{foo bar}`, which
does not end with a directory separator and thus should be the id paths `basics/foo` and
`basics/bar`, selects all the tests of all the targets in and under `basics/`. -/
theorem value_ignored (search : Nm C → Option Nat) (d : Path C) (v : Path C) (hd : d ≠ [])
    (t : Target C) (id : Path C) :
    let n : Nm C := ⟨false, d, none, v, false⟩
    (test search (some [n]) t = .ok true ↔ d <+: t.dir) ∧
    testId search (some [n]) t id = .ok true := by
  have hs : sense [(⟨false, d, none, v, false⟩ : Nm C)] =
      .ok (some ⟨false, d, none, v, false⟩, none, []) := by
    simp [sense, Nm.typed, validate, hd]
  refine ⟨?_, ?_⟩
  · simp only [test, List.length_singleton, loop, hs, testBody]
    have := matchTarget_iff search t (⟨false, d, none, v, false⟩ : Nm C)
    simp only [whatOf, What.covers] at this
    rw [← this]
    cases matchTarget search t (⟨false, d, none, v, false⟩ : Nm C) <;> simp
  · simp only [testId, List.length_singleton, loop, hs, testIdBody]

/-- Similarly, in `foo@bar` the `foo` is ignored: the id path applies to all targets. -/
theorem left_value_ignored (search : Nm C → Option Nat) (v p : Path C) (hp : p ≠ [])
    (t : Target C) (id : Path C) :
    let ns : List (Nm C) := [⟨false, [], none, v, true⟩, ⟨false, [], none, p, false⟩]
    test search (some ns) t = .ok true ∧
    (testId search (some ns) t id = .ok true ↔ Related p id) := by
  have hs : sense [(⟨false, [], none, v, true⟩ : Nm C), ⟨false, [], none, p, false⟩] =
      .ok (some ⟨false, [], none, v, true⟩, some ⟨false, [], none, p, false⟩, []) := by
    simp [sense, Nm.typed, validate, Nm.simple, Nm.empty, hp]
  have hm : matchTarget search t (⟨false, [], none, v, true⟩ : Nm C) = true := by
    rw [matchTarget_iff]; simp [whatOf, What.covers]
  refine ⟨?_, ?_⟩
  · simp only [test, List.length_cons, List.length_nil, loop, hs, testBody, hm]
  · simp only [testId, List.length_cons, List.length_nil, loop, hs, testIdBody, hm, Bool.not_true,
      Bool.false_eq_true, if_false]
    rw [← related_sub]
    cases sub p id || sub id p <;> simp

/-- A target that is requested both as a whole and with an id is tested with the id
only. -/
theorem whole_target_narrowed (search : Nm C → Option Nat) (n : Nm C) (ty : C) (p id : Path C)
    (t : Target C) (ht : n.type = some ty) (hq : n.qualified = false) (hpn : n.pair = false)
    (hp : p ≠ []) (hc : (whatOf search n).covers t) (hr : ¬ Related p id)
    (hse : search { n with pair := true } = search n) :
    testId search (some [n, { n with pair := true }, ⟨false, [], none, p, false⟩]) t id =
      .ok false := by
  have hw : whatOf search { n with pair := true } = whatOf search n := by
    unfold whatOf
    rw [hse]
  have hd : Denotes search [n, { n with pair := true }, ⟨false, [], none, p, false⟩]
      [⟨some (whatOf search n), none⟩, ⟨some (whatOf search { n with pair := true }), some p⟩] :=
    .target (.both (m := ⟨false, [], none, p, false⟩) .nil rfl hq (.inl (by simp [Nm.typed, ht])) rfl rfl rfl hp) hpn hq
      (.inl (by simp [Nm.typed, ht]))
  obtain ⟨b, h1, h2⟩ := test_run_iff hd t id
  rw [h1]
  have : ¬ TestSelected [⟨some (whatOf search n), none⟩,
      ⟨some (whatOf search { n with pair := true }), some p⟩] t id := by
    rw [hw]
    rintro (h | ⟨r, hr', _, x, hx, hrel⟩)
    · have := h ⟨some (whatOf search n), some p⟩ (by simp)
        (by intro w hw'; cases hw'; exact hc)
      cases this
    · simp at hr'
      rcases hr' with rfl | rfl
      · cases hx
      · cases hx; exact hr hrel
  cases b
  · rfl
  · exact absurd (h2.mp rfl) this

/-! ## A concrete case

The requests `1/exe{7}@3 2/` (with `9` being the type). -/

def exN : List (Nm Nat) :=
  [⟨false, [1], some 9, [7], true⟩, ⟨false, [], none, [3], false⟩, ⟨false, [2], none, [], false⟩]

def exSearch : Nm Nat → Option Nat := fun n => if n.value = [7] then some 0 else none

def exR : List (Request Nat) :=
  [⟨some (.exact [1] 9 [7] (some 0)), some [3]⟩, ⟨some (.under [2]), none⟩]

theorem exDenotes : Denotes exSearch exN exR :=
  .both (.target .nil rfl rfl (.inr (by simp))) rfl rfl (.inl rfl) rfl rfl rfl (by simp)

/-- The target `1/exe{7}`. -/
def exA : Target Nat := ⟨[1], 9, [7], 0⟩
/-- The target `2/5/exe{8}`. -/
def exB : Target Nat := ⟨[2, 5], 9, [8], 1⟩
/-- The target `1/exe{8}`. -/
def exC : Target Nat := ⟨[1], 9, [8], 2⟩

example : test exSearch (some exN) exA = .ok true ∧ test exSearch (some exN) exB = .ok true ∧
    test exSearch (some exN) exC = .ok false := by decide

example : testId exSearch (some exN) exA [3, 4] = .ok true ∧
    testId exSearch (some exN) exA [4] = .ok false ∧
    testId exSearch (some exN) exB [4] = .ok true := by decide

example : pass (some exN) [] = .ok true ∧ pass (some exN) [2, 5, 6] = .ok true ∧
    pass (some exN) [1, 5] = .ok false ∧ pass (some exN) [4] = .ok false := by decide

example : runFile (selects exSearch (some exN) exA) none
    [.test 1, .group 3 [.test 1, .group 2 [.test 6]], .group 4 [.test 3]] = [[3, 1], [3, 2, 6]] := by
  simp only [runFile, runScopes]
  decide

def exTree : List (Tree Nat) :=
  [.alias ⟨[], 0, [], 10⟩ [.alias ⟨[1], 0, [], 11⟩ [.target exA, .target exC],
    .alias ⟨[2], 0, [], 12⟩ [.alias ⟨[2, 5], 0, [], 13⟩ [.target exB]],
    .alias ⟨[4], 0, [], 14⟩ [.target ⟨[4], 9, [7], 15⟩]]]

example : Nested exTree := by
  simp [exTree, Nested, allTrees, exA, exB, exC]

example : (runTrees (passes (some exN)) (tested exSearch (some exN)) exTree).map (·.obj) =
    [0, 1, 13, 12] := by
  simp only [exTree, runTrees]
  decide

example : (whatOf exSearch ⟨false, [1], some 9, [7], false⟩).covers exA ∧
    ¬ Related [3] [4] := by
  constructor
  · simp [whatOf, What.covers, exA, exSearch]
  · simp [Related]

end Verif.TestSel
