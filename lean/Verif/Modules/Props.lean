import Verif.Modules.Order

/-!
# Build system modules: properties

How a project's modules are booted and initialized: each is booted once, initialized for the first
time once, suppressed when it is used again, and `root.build` is loaded between the ones that
are to be initialized before and after it.
-/

namespace Verif.Modules

/-- The stages of a project, with what is known about each. -/
private theorem stages {S : Sys} {n : Nat} {ms : List Nat} {rb rest : Prog} {s : St}
    (h : project S n ms rb rest = .ok s) :
    ∃ s0 s1 s2 s3 s4 s5 : St, B S s0 ∧ J S s0 ∧ (∀ m, find s0 m ≠ some none) ∧
      Ext S s0 s1 ∧ Ext S s1 s2 ∧ Ext S s2 s3 ∧ Ext S (atRoot s3) s4 ∧ Ext S s4 s5 ∧ Ext S s5 s ∧
      J S s1 ∧ J S s2 ∧ J S s3 ∧ J S s4 ∧ J S s5 ∧ J S s ∧
      (∀ m ∈ s0.loaded.map Prod.fst, find s1 m ≠ some (some .first)) ∧
      (∀ m ∈ s0.loaded.map Prod.fst, find s2 m ≠ some (some .second)) ∧
      (∀ m ∈ s0.loaded.map Prod.fst, find s3 m ≠ some (some .before)) ∧
      (∀ m ∈ s0.loaded.map Prod.fst, find s5 m ≠ some (some .after)) := by
  obtain ⟨s0, s1, s2, s3, s4, s5, b, b', h0, h1, h2, h3, h4, h5, h6⟩ := project_cases h
  obtain ⟨hB, hJ, hp⟩ := booted h0
  obtain ⟨x1, y1⟩ := initModules_ext S n _ _ _ _ h1
  obtain ⟨x2, y2⟩ := initModules_ext S n _ _ _ _ h2
  obtain ⟨x3, y3⟩ := initModules_ext S n _ _ _ _ h3
  have x4 := execN_ext S n _ _ _ _ h4
  obtain ⟨x5, y5⟩ := initModules_ext S n _ _ _ _ h5
  have x6 := execN_ext S n _ _ _ _ h6
  have j1 := x1.inv hJ
  have j2 := x2.inv j1
  have j3 := x3.inv j2
  have j4 := x4.inv (atRoot_inv j3)
  have j5 := x5.inv j4
  exact ⟨s0, s1, s2, s3, s4, s5, hB, hJ, hp, x1, x2, x3, x4, x5, x6, j1, j2, j3, j4, j5,
    x6.inv j5, y1 hJ, y2 j1, y3 j2, y5 j4⟩

/-! ## An example: `config` (0) is booted, and itself boots nothing; `dist` (1) is booted and is to
be initialized after `root.build`; `cxx` (2) is not booted and uses `cxx.config` (3), which uses
`bin` (4) optionally; there is no `bin` -/

def exSys : Sys where
  mods m := match m with
    | 0 => ⟨true, some ([], .first), fun _ _ _ => .done true⟩
    | 1 => ⟨true, some ([0], .after), fun _ _ _ => .done true⟩
    | 2 => ⟨true, none, fun sc _ _ => .load sc 3 (.done true)⟩
    | 3 => ⟨true, none, fun sc _ _ => .use sc 4 true (fun _ => .done true)⟩
    | _ => ⟨false, none, fun _ _ _ => .done true⟩
  chain sc := if sc = 0 then [0] else [sc, 0]

def exRoot : Prog := .use 0 2 false (fun _ => .done true)
def exRest : Prog := .use 1 2 false (fun _ => .load 1 3 (.use 0 2 false (fun _ => .done true)))

/-- The log of a project. -/
def logOf : Except Err St → Option (List Ev)
  | .ok s => some s.log
  | .error _ => none

example : logOf (project exSys 5 [1] exRoot exRest) =
    some [.boot 1, .boot 0, .init 0 0 true, .rootBuild, .init 2 0 true, .init 3 0 true,
      .init 1 0 true, .init 2 1 false] := by decide +kernel

/-! ## Each module is initialized for the first time once -/

/-- An initialization is said to be the first exactly if the module has not been initialized
before in this project, for whatever scope and whoever uses it, booted or not. -/
theorem first_exact {S : Sys} {n : Nat} {ms : List Nat} {rb rest : Prog} {s : St}
    (h : project S n ms rb rest = .ok s) : FirstOk s.log := by
  obtain ⟨_, _, _, _, _, _, _, _, _, _, _, _, _, _, _, _, _, _, _, _, hJ, _⟩ := stages h
  exact hJ.first

/-- Modules are booted first, each once, and only those that are found and have a boot
function. -/
theorem boot_once {S : Sys} {n : Nat} {ms : List Nat} {rb rest : Prog} {s : St}
    (h : project S n ms rb rest = .ok s) :
    (boots s.log).Nodup ∧ (∃ l, s.log = (boots s.log).map .boot ++ l ∧ boots l = []) ∧
    ∀ m ∈ boots s.log, (S.mods m).found = true ∧ (S.mods m).boot.isSome = true := by
  obtain ⟨s0, s1, s2, s3, s4, s5, hB, hJ, hp, x1, x2, x3, x4, x5, x6, _⟩ := stages h
  obtain ⟨l1, e1, b1, _⟩ := x1.log
  obtain ⟨l2, e2, b2, _⟩ := x2.log
  obtain ⟨l3, e3, b3, _⟩ := x3.log
  obtain ⟨l4, e4, b4, _⟩ := x4.log
  obtain ⟨l5, e5, b5, _⟩ := x5.log
  obtain ⟨l6, e6, b6, _⟩ := x6.log
  have e4 : s4.log = (s3.log ++ [.rootBuild]) ++ l4 := e4
  have e : s.log = (s0.loaded.map Prod.fst).map Ev.boot ++
      (l1 ++ l2 ++ l3 ++ [.rootBuild] ++ l4 ++ l5 ++ l6) := by
    rw [e6, e5, e4, e3, e2, e1, hB.log]; simp
  have eb : boots (l1 ++ l2 ++ l3 ++ [.rootBuild] ++ l4 ++ l5 ++ l6) = [] := by
    simp only [boots_append, b1, b2, b3, b4, b5, b6]; rfl
  have hbs : boots s.log = s0.loaded.map Prod.fst := by
    rw [e, boots_append, boots_map_boot, eb, List.append_nil]
  refine ⟨by rw [hbs]; exact hB.nodup, ⟨_, by rw [hbs]; exact e, eb⟩, ?_⟩
  rw [hbs]
  intro m hm
  have hf : find s0 m ≠ none := fun hh => (find_none_iff s0 m).1 hh hm
  refine ⟨hB.found m hf, ?_⟩
  cases hx : find s0 m with
  | none => exact absurd hx hf
  | some x =>
    cases x with
    | none => exact absurd hx (hp m)
    | some v =>
      have := hB.mode m v hx
      unfold Mod.mode at this
      cases hb : (S.mods m).boot with
      | none => rw [hb] at this; cases this
      | some _ => rfl

/-! ## What has been booted is initialized -/

/-- Every module that has been booted is initialized: one of the first batch before any other
batch is begun, one of the second before the remaining ones, these before `root.build` is
loaded, and one that is to be initialized after that before other buildfiles are. -/
theorem load_root_complete {S : Sys} {n : Nat} {ms : List Nat} {rb rest : Prog} {s : St}
    (h : project S n ms rb rest = .ok s) :
    ∃ l1 l2 l3 l4 l5 l6,
      s.log = (boots s.log).map .boot ++ l1 ++ l2 ++ l3 ++ .rootBuild :: (l4 ++ l5 ++ l6) ∧
      .rootBuild ∉ l1 ++ l2 ++ l3 ++ l4 ++ l5 ++ l6 ∧
      ∀ m ∈ boots s.log,
        ((S.mods m).mode = some .first → Inited l1 m) ∧
        ((S.mods m).mode = some .second → Inited (l1 ++ l2) m) ∧
        ((S.mods m).mode = some .before → Inited (l1 ++ l2 ++ l3) m) ∧
        ((S.mods m).mode = some .after → Inited (l1 ++ l2 ++ l3 ++ l4 ++ l5) m) := by
  obtain ⟨s0, s1, s2, s3, s4, s5, hB, hJ, hp, x1, x2, x3, x4, x5, x6, j1, j2, j3, j4, j5, j6,
    y1, y2, y3, y5⟩ := stages h
  obtain ⟨l1, e1, b1, r1⟩ := x1.log
  obtain ⟨l2, e2, b2, r2⟩ := x2.log
  obtain ⟨l3, e3, b3, r3⟩ := x3.log
  obtain ⟨l4, e4, b4, r4⟩ := x4.log
  obtain ⟨l5, e5, b5, r5⟩ := x5.log
  obtain ⟨l6, e6, b6, r6⟩ := x6.log
  have e4 : s4.log = (s3.log ++ [.rootBuild]) ++ l4 := e4
  have e : s.log = (s0.loaded.map Prod.fst).map Ev.boot ++
      (l1 ++ l2 ++ l3 ++ [.rootBuild] ++ l4 ++ l5 ++ l6) := by
    rw [e6, e5, e4, e3, e2, e1, hB.log]; simp
  have eb : boots (l1 ++ l2 ++ l3 ++ [.rootBuild] ++ l4 ++ l5 ++ l6) = [] := by
    simp only [boots_append, b1, b2, b3, b4, b5, b6]; rfl
  have hbs : boots s.log = s0.loaded.map Prod.fst := by
    rw [e, boots_append, boots_map_boot, eb, List.append_nil]
  have hnb : ∀ m l, Inited ((s0.loaded.map Prod.fst).map Ev.boot ++ l) m → Inited l m := by
    rintro m l ⟨sc, f, hm⟩
    rcases List.mem_append.1 hm with hm | hm
    · simp at hm
    · exact ⟨sc, f, hm⟩
  have n1 : ∀ m ∈ s0.loaded.map Prod.fst, find s0 m ≠ none :=
    fun m hm hh => (find_none_iff s0 m).1 hh hm
  have key : ∀ (m : Nat) (v : Mode) (t : St), J S t → find t m ≠ none →
      (∀ w, find t m = some (some w) → find s0 m = some (some w)) → find t m ≠ some (some v) →
      (S.mods m).mode = some v → Inited t.log m := by
    intro m v t jt hn hs hne hv
    rw [← jt.inited]
    cases hx : find t m with
    | none => exact absurd hx hn
    | some x =>
      cases x with
      | none => rfl
      | some w =>
        have := hB.mode m w (hs w hx)
        rw [hv] at this
        cases this
        exact absurd hx hne
  refine ⟨l1, l2, l3, l4, l5, l6, ?_, ?_, ?_⟩
  · rw [hbs, e]; simp
  · simp [r1, r2, r3, r4, r5, r6]
  rw [hbs]
  intro m hm
  have k1 : find s1 m ≠ none := x1.kept m (n1 m hm)
  have k2 : find s2 m ≠ none := x2.kept m k1
  have k3 : find s3 m ≠ none := x3.kept m k2
  have k4 : find s4 m ≠ none := x4.kept m k3
  have k5 : find s5 m ≠ none := x5.kept m k4
  have w2 : ∀ w, find s2 m = some (some w) → find s0 m = some (some w) :=
    fun w hw => x1.some m w (x2.some m w hw)
  have w3 : ∀ w, find s3 m = some (some w) → find s0 m = some (some w) :=
    fun w hw => w2 w (x3.some m w hw)
  have w5 : ∀ w, find s5 m = some (some w) → find s0 m = some (some w) :=
    fun w hw => w3 w (x4.some m w (x5.some m w hw))
  refine ⟨fun hv => ?_, fun hv => ?_, fun hv => ?_, fun hv => ?_⟩
  · have := key m _ s1 j1 k1 (x1.some m) (y1 m hm) hv
    rw [e1, hB.log] at this
    exact hnb m _ this
  · have := key m _ s2 j2 k2 w2 (y2 m hm) hv
    rw [e2, e1, hB.log, List.append_assoc] at this
    exact hnb m _ this
  · have := key m _ s3 j3 k3 w3 (y3 m hm) hv
    rw [e3, e2, e1, hB.log] at this
    simp only [List.append_assoc] at this
    have := hnb m _ this
    simpa using this
  · have := key m _ s5 j5 k5 w5 (y5 m hm) hv
    rw [e5, e4, e3, e2, e1, hB.log] at this
    simp only [List.append_assoc] at this
    obtain ⟨sc, f, hh⟩ := hnb m _ this
    refine ⟨sc, f, ?_⟩
    simp only [List.mem_append, List.mem_cons, List.mem_nil_iff, or_false, reduceCtorEq,
      false_or] at hh ⊢
    rcases hh with hh | hh | hh | hh | hh <;> simp [hh]

/-- If modules that are booted are not used otherwise, then they are initialized for the root
scope in the order in which they have been booted, first those of the first batch, then those of
the second, then the remaining ones, then `root.build` is loaded, then those are that are to be
initialized after it; each once. -/
theorem load_root_order {S : Sys} {n : Nat} {ms : List Nat} {rb rest : Prog} {s : St}
    (h : project S n ms rb rest = .ok s) (hN : NoUse S)
    (hrb : rb.Only (fun m => (S.mods m).boot = none))
    (hrest : rest.Only (fun m => (S.mods m).boot = none)) :
    ∃ pre post, s.log = pre ++ .rootBuild :: post ∧
      bootInits S pre = (withMode S (boots s.log) .first ++ withMode S (boots s.log) .second ++
        withMode S (boots s.log) .before).map (fun m => (m, 0)) ∧
      bootInits S post = (withMode S (boots s.log) .after).map (fun m => (m, 0)) := by
  have hbo := (boot_once h).2.2
  obtain ⟨s0, s1, s2, s3, s4, s5, b, b', h0, h1, h2, h3, h4, h5, h6⟩ := project_cases h
  obtain ⟨hB, hJ, hp⟩ := booted h0
  have x1 := (initModules_ext S n _ _ _ _ h1).1
  have x2 := (initModules_ext S n _ _ _ _ h2).1
  have x3 := (initModules_ext S n _ _ _ _ h3).1
  have x4 := execN_ext S n _ _ _ _ h4
  have x5 := (initModules_ext S n _ _ _ _ h5).1
  have x6 := execN_ext S n _ _ _ _ h6
  obtain ⟨l1, e1, c1, _⟩ := x1.log
  obtain ⟨l2, e2, c2, _⟩ := x2.log
  obtain ⟨l3, e3, c3, _⟩ := x3.log
  obtain ⟨l4, e4, c4, _⟩ := x4.log
  obtain ⟨l5, e5, c5, _⟩ := x5.log
  obtain ⟨l6, e6, c6, _⟩ := x6.log
  have e4 : s4.log = (s3.log ++ [.rootBuild]) ++ l4 := e4
  have hbs : boots s.log = s0.loaded.map Prod.fst := by
    rw [e6, e5, e4, e3, e2, e1, hB.log]
    simp only [boots_append, c1, c2, c3, c4, c5, c6, boots_map_boot]
    simp [boots]
  rw [hbs] at hbo ⊢
  generalize hns : s0.loaded.map Prod.fst = names at *
  have hb : ∀ m ∈ names, (S.mods m).boot.isSome = true := fun m hm => (hbo m hm).2
  have hnd : names.Nodup := by rw [← hns]; exact hB.nodup
  have hmode : ∀ m ∈ names, ∃ v, find s0 m = some (some v) ∧ (S.mods m).mode = some v := by
    intro m hm
    cases hx : find s0 m with
    | none => exact absurd (by rw [hns]; exact hm) ((find_none_iff s0 m).1 hx)
    | some x =>
      cases x with
      | none => exact absurd hx (hp m)
      | some v => exact ⟨v, rfl, hB.mode m v hx⟩
  have j1 := x1.inv hJ
  have j2 := x2.inv j1
  have j3 := x3.inv j2
  have j4 := x4.inv (atRoot_inv j3)
  obtain ⟨i1, f1⟩ := initModules_order hN _ _ _ _ hJ hnd hb h1
  obtain ⟨i2, f2⟩ := initModules_order hN _ _ _ _ j1 hnd hb h2
  obtain ⟨i3, f3⟩ := initModules_order hN _ _ _ _ j2 hnd hb h3
  obtain ⟨i4, f4⟩ := exec_alone hN hrb h4
  obtain ⟨i5, f5⟩ := initModules_order hN _ _ _ _ j4 hnd hb h5
  obtain ⟨i6, f6⟩ := exec_alone hN hrest h6
  -- What is found at each stage.
  have g1 : ∀ m ∈ names, find s1 m = if (S.mods m).mode = some .first then some none
      else find s0 m := by
    intro m hm
    obtain ⟨v, hv, hv'⟩ := hmode m hm
    rw [f1 m (hb m hm), hv, hv']
    simp [hm]
  have g2 : ∀ m ∈ names, find s2 m = if (S.mods m).mode = some .first ∨
      (S.mods m).mode = some .second then some none else find s0 m := by
    intro m hm
    obtain ⟨v, hv, hv'⟩ := hmode m hm
    rw [f2 m (hb m hm), g1 m hm, hv, hv']
    cases v <;> simp [hm]
  have g3 : ∀ m ∈ names, find s3 m = if (S.mods m).mode = some .after then find s0 m
      else some none := by
    intro m hm
    obtain ⟨v, hv, hv'⟩ := hmode m hm
    rw [f3 m (hb m hm), g2 m hm, hv, hv']
    cases v <;> simp [hm]
  have g4 : ∀ m ∈ names, find s4 m = if (S.mods m).mode = some .after then find s0 m
      else some none := by
    intro m hm
    rw [f4 m (hb m hm)]
    exact g3 m hm
  have q : ∀ (t : St) (v : Mode), (∀ m ∈ names, find t m = some (some v) ↔ (S.mods m).mode = some v) →
      names.filter (fun m => find t m == some (some v)) = withMode S names v := by
    intro t v hh
    unfold withMode
    apply List.filter_congr
    intro m hm
    rw [Bool.eq_iff_iff, beq_iff_eq, beq_iff_eq]
    exact hh m hm
  have q1 := q s0 .first (fun m hm => by
    obtain ⟨v, hv, hv'⟩ := hmode m hm
    rw [hv, hv']; simp)
  have q2 := q s1 .second (fun m hm => by
    obtain ⟨v, hv, hv'⟩ := hmode m hm
    rw [g1 m hm, hv, hv']; cases v <;> simp)
  have q3 := q s2 .before (fun m hm => by
    obtain ⟨v, hv, hv'⟩ := hmode m hm
    rw [g2 m hm, hv, hv']; cases v <;> simp)
  have q5 := q s4 .after (fun m hm => by
    obtain ⟨v, hv, hv'⟩ := hmode m hm
    rw [g4 m hm, hv, hv']; cases v <;> simp)
  rw [q1] at i1; rw [q2] at i2; rw [q3] at i3; rw [q5] at i5
  have hz : bootInits S s0.log = [] := by
    rw [hB.log]; unfold bootInits; rw [inits_boot]; rfl
  refine ⟨s3.log, l4 ++ l5 ++ l6, ?_, ?_, ?_⟩
  · rw [e6, e5, e4]; simp
  · rw [i3, i2, i1, hz]; simp
  · have k4 : bootInits S l4 = [] := by
      rw [e4] at i4
      have i4 : bootInits S (s3.log ++ [.rootBuild] ++ l4) =
        bootInits S (s3.log ++ [.rootBuild]) := i4
      rw [bootInits_append] at i4
      simpa using i4
    have k5 : bootInits S l5 = (withMode S names .after).map (fun m => (m, 0)) := by
      rw [e5, bootInits_append] at i5
      exact List.append_cancel_left i5
    have k6 : bootInits S l6 = [] := by
      rw [e6, bootInits_append] at i6
      simpa using i6
    rw [bootInits_append, bootInits_append, k4, k5, k6]; simp

/-- The example is such a project. -/
example : NoUse exSys ∧ exRoot.Only (fun m => (exSys.mods m).boot = none) ∧
    exRest.Only (fun m => (exSys.mods m).boot = none) := by
  refine ⟨?_, ?_, ?_⟩
  · intro m sc f opt
    match m with
    | 0 => trivial
    | 1 => trivial
    | 2 => exact ⟨rfl, trivial⟩
    | 3 => exact ⟨rfl, fun _ => trivial⟩
    | _ + 4 => trivial
  · exact ⟨rfl, fun _ => trivial⟩
  · exact ⟨rfl, fun _ => ⟨rfl, rfl, fun _ => trivial⟩⟩

/-! ## Using a module again -/

/-- If modules don't use one another in cycles, each is initialized at most once for a scope,
however often it is used. -/
theorem once_per_scope_partial {S : Sys} {r : Nat → Nat} (hA : Acyclic S r) {n : Nat}
    {ms : List Nat} {rb rest : Prog} {s : St} (h : project S n ms rb rest = .ok s) :
    (inits s.log).Nodup := by
  obtain ⟨s0, s1, s2, s3, s4, s5, b, b', h0, h1, h2, h3, h4, h5, h6⟩ := project_cases h
  obtain ⟨hB, hJ, hp⟩ := booted h0
  let O : Nat × Nat → Prop := fun _ => False
  have hi : ∀ sc m opt s s' b, initModule S n sc m opt s = .ok (s', b) → OnceK S O s s' :=
    fun sc m opt s s' b hh => initModule_once hA n sc m opt s s' b O (fun _ hx => hx.elim) hh
  have hm : ∀ v ms s s', initModules S n v ms s = .ok s' → OnceK S O s s' := fun v =>
    initModules_keeps (OnceK.refl S O) OnceK.trans (fun m s s' b hh => hi _ _ _ _ _ _ hh) v
  have he : ∀ p s s' b, exec S (initModule S n) p s = .ok (s', b) → OnceK S O s s' :=
    fun p s s' b hh => exec_keeps (P := fun _ => True) (OnceK.refl S O) OnceK.trans
      (fun sc m opt s s' b _ hx => hi sc m opt s s' b hx) p s s' b
      (Prog.only_all (fun _ => trivial) p) hh
  have hi0 : inits s0.log = [] := by rw [hB.log, inits_boot]
  obtain ⟨j, o, nd⟩ := hm _ _ _ _ h1 hJ
    (fun x hx => by have := hx.1; rw [hi0] at this; cases this) (by rw [hi0]; exact .nil)
  obtain ⟨j, o, nd⟩ := hm _ _ _ _ h2 j o nd
  obtain ⟨j, o, nd⟩ := hm _ _ _ _ h3 j o nd
  obtain ⟨j, o, nd⟩ := he _ _ _ _ h4 (atRoot_inv j) (fun x hx => o x (atRoot_open hx))
    (by unfold atRoot; rw [inits_atRoot]; exact nd)
  obtain ⟨j, o, nd⟩ := hm _ _ _ _ h5 j o nd
  exact (he _ _ _ _ h6 j o nd).2.2

/-- The ranks of the example. -/
def exRank : Nat → Nat
  | 2 => 2
  | 3 => 1
  | _ => 0

example : Acyclic exSys exRank := by
  intro m sc f opt
  match m with
  | 0 => trivial
  | 1 => trivial
  | 2 => exact ⟨by decide, trivial⟩
  | 3 => exact ⟨by decide, fun _ => trivial⟩
  | _ + 4 => trivial

/-- Once a module has been used for a scope, using it again changes nothing, whatever happened
in between: if it was configured, it is reported so; if not, that is reported to an optional
use, and any other fails. -/
theorem use_again {S : Sys} {n n' n'' : Nat} {ms : List Nat} {rb rest : Prog} {s : St}
    (h : project S n ms rb rest = .ok s) {sc m : Nat} {opt b : Bool} {s1 : St}
    (h1 : initModule S n' sc m opt s = .ok (s1, b)) {p : Prog} {s2 : St} {b2 : Bool}
    (h2 : exec S (initModule S n') p s1 = .ok (s2, b2)) (opt' : Bool) :
    initModule S (n'' + 1) sc m opt' s2 =
      if b || opt' then .ok (s2, b)
      else if (S.mods m).found then .error (.notConfigured m) else .error (.unable m) := by
  obtain ⟨_, _, _, _, _, _, _, _, _, _, _, _, _, _, _, _, _, _, _, _, hJ, _⟩ := stages h
  obtain ⟨x1, y1⟩ := initModule_ext S n' sc m opt s s1 b h1
  have j1 := x1.inv hJ
  have x2 := execN_ext S n' p s1 s2 b2 h2
  have j2 := x2.inv j1
  obtain ⟨l, c, hv, hb⟩ := y1 hJ
  have hv2 := x2.vars j1 m sc _ hv
  obtain ⟨a1, a2⟩ := j2.vars m sc l c hv2
  rw [initModule, initWith]
  cases l with
  | true =>
    have hf := a1 rfl
    have hfo := j2.found m (by rw [hf]; simp)
    have : enter S m opt' s2 = .ok (s2, false) := by unfold enter; rw [hf]
    rw [this]
    dsimp only
    rw [hv2, hfo, hb]
    cases c <;> cases opt' <;> simp
  | false =>
    obtain ⟨rfl, hfo⟩ := a2 rfl
    have hn : find s2 m = none := by
      cases hx : find s2 m with
      | none => rfl
      | some x =>
        have := j2.found m (by rw [hx]; simp)
        rw [hfo] at this; cases this
    rw [hb, hfo]
    cases opt' with
    | true =>
      have : enter S m true s2 = .ok (s2, true) := by unfold enter; rw [hn]; simp [hfo]
      rw [this]
      dsimp only
      rw [hv2]
      simp
    | false =>
      have : enter S m false s2 = .error (.unable m) := by unfold enter; rw [hn]; simp [hfo]
      rw [this]
      simp

private theorem project_V {S : Sys} {n : Nat} {ms : List Nat} {rb rest : Prog} {s : St}
    (h : project S n ms rb rest = .ok s) : V S s := by
  obtain ⟨s0, s1, s2, s3, s4, s5, b, b', h0, h1, h2, h3, h4, h5, h6⟩ := project_cases h
  have hB := (booted h0).1
  have v0 : V S s0 := by
    intro m sc _ hv
    unfold var at hv
    rw [hB.vars] at hv
    exact absurd rfl hv
  have v3 := initModules_V h3 (initModules_V h2 (initModules_V h1 v0))
  have v3' : V S (atRoot s3) := by
    intro m sc hf hv
    show (m, sc) ∈ inits (s3.log ++ [.rootBuild])
    rw [inits_atRoot]; exact v3 m sc hf hv
  exact exec_V h6 (initModules_V h5 (exec_V h4 v3'))

/-- Modules that load another one (rather than use it) take it from the nearest outer scope for
which it has been initialized: it is not initialized again, and what is reported is whether it
was configured there; with one that requires it, that isn't considered. -/
theorem load_outer {S : Sys} {n n' n'' : Nat} {ms : List Nat} {rb rest : Prog} {s : St}
    (h : project S n ms rb rest = .ok s) {sc' m : Nat} {opt b : Bool} {s1 : St}
    (hfo : (S.mods m).found = true) (h1 : initModule S n' sc' m opt s = .ok (s1, b)) {p : Prog}
    {s2 : St} {b2 : Bool} (h2 : exec S (initModule S n') p s1 = .ok (s2, b2)) {sc : Nat}
    {pre post : List Nat} (hc : S.chain sc = pre ++ sc' :: post)
    (hpre : ∀ x ∈ pre, (m, x) ∉ inits s2.log) :
    (∀ k, exec S (initModule S n'') (.tryLoad sc m k) s2 = exec S (initModule S n'') (k b) s2) ∧
    (∀ k, exec S (initModule S n'') (.load sc m k) s2 = exec S (initModule S n'') k s2) := by
  have hV2 : V S s2 := exec_V h2 (initModule_V _ _ _ _ _ _ _ h1 (project_V h))
  obtain ⟨_, _, _, _, _, _, _, _, _, _, _, _, _, _, _, _, _, _, _, _, hJ, _⟩ := stages h
  obtain ⟨x1, y1⟩ := initModule_ext S n' sc' m opt s s1 b h1
  have j1 := x1.inv hJ
  have x2 := execN_ext S n' p s1 s2 b2 h2
  have j2 := x2.inv j1
  obtain ⟨l, c, hv, hb⟩ := y1 hJ
  have hv2 := x2.vars j1 m sc' _ hv
  have hl : l = true := by
    cases l with
    | true => rfl
    | false => have := ((j2.vars m sc' _ c hv2).2 rfl).2; rw [hfo] at this; cases this
  subst hl
  have hlook : lookupVar s2 m (S.chain sc) = some (true, c) := by
    rw [hc]
    clear hc
    induction pre with
    | nil => rw [List.nil_append, lookupVar, hv2]
    | cons x pre ih =>
      rw [List.cons_append, lookupVar]
      have : var s2 m x = none := by
        cases hx : var s2 m x with
        | none => rfl
        | some w => exact absurd (hV2 m x hfo (by rw [hx]; simp)) (hpre x (by simp))
      rw [this]
      exact ih (fun y hy => hpre y (by simp [hy]))
  have hbc : b = c := by simpa using hb
  subst hbc
  constructor
  · intro k; rw [exec, tryLoadWith, hlook]
  · intro k; rw [exec, loadWith, hlook]

/-- In a scope 1 inside of the root scope, `cxx.config` is taken from the latter, and `bin`, which is
not found, is looked for. -/
example : logOf (project exSys 5 [1] exRoot
    (.tryLoad 1 3 (fun b => if b then .tryLoad 1 4 (fun b => if b then .fail else .load 1 3
      (.done true)) else .fail))) =
    some [.boot 1, .boot 0, .init 0 0 true, .rootBuild, .init 2 0 true, .init 3 0 true,
      .init 1 0 true] := by decide +kernel

/-- If it has not been initialized for any of these scopes, loading is using. -/
theorem load_new {S : Sys} {n n' : Nat} {ms : List Nat} {rb rest : Prog} {s : St}
    (h : project S n ms rb rest = .ok s) {sc m : Nat}
    (hc : ∀ x ∈ S.chain sc, (m, x) ∉ inits s.log) :
    (∀ k, exec S (initModule S n') (.tryLoad sc m k) s =
      exec S (initModule S n') (.use sc m true k) s) ∧
    (∀ k, (∀ s' b, initModule S n' sc m false s = .ok (s', b) → b = true) →
      exec S (initModule S n') (.load sc m k) s =
      exec S (initModule S n') (.use sc m false (fun _ => k)) s) := by
  have hV := project_V h
  obtain ⟨_, _, _, _, _, _, _, _, _, _, _, _, _, _, _, _, _, _, _, _, hJ, _⟩ := stages h
  have hlook : ∀ c, lookupVar s m (S.chain sc) ≠ some (true, c) := by
    generalize S.chain sc = ch at hc
    induction ch with
    | nil => intro c hh; cases hh
    | cons x ch ih =>
      intro c hh
      rw [lookupVar] at hh
      split at hh
      · rename_i v hx
        subst hh
        have hf := (hJ.vars m x _ c hx).1 rfl
        exact hc x (by simp) (hV m x (hJ.found m (by rw [hf]; simp)) (by rw [hx]; simp))
      · exact ih (fun y hy => hc y (by simp [hy])) c hh
  constructor
  · intro k
    rw [exec, exec, tryLoadWith]
    split
    · rename_i hx
      split at hx
      · cases hx
      · rw [hx]
    · rename_i hx
      split at hx
      · rename_i hy; exact absurd hy (hlook _)
      · rw [hx]
  · intro k hr
    rw [exec, exec]
    have key : loadWith S (initModule S n') sc m s =
        match initModule S n' sc m false s with
          | .error e => .error e
          | .ok (s, _) => .ok s := by
      unfold loadWith
      split
      · rename_i hy; exact absurd hy (hlook _)
      · cases hi : initModule S n' sc m false s with
        | error e => rfl
        | ok r =>
          obtain ⟨s', b⟩ := r
          have := hr s' b hi
          subst this
          rfl
    rw [key]
    cases initModule S n' sc m false s <;> rfl

/-- What a required use reports: that the module is configured, if modules that are not optional
either are configured or fail. -/
theorem required_configured_partial {S : Sys} (hS : Strict S) {n sc m : Nat} {s s' : St} {b : Bool}
    (h : initModule S n sc m false s = .ok (s', b)) : b = true :=
  initModule_required hS n sc m s s' b h

/-- If a module is not found, or has to be booted and has not been, then it is not initialized: a
required use of it fails, and so does an optional one in the latter case. -/
theorem not_loaded {S : Sys} {n n' : Nat} {ms : List Nat} {rb rest : Prog} {s : St}
    (h : project S n ms rb rest = .ok s) (sc m : Nat) :
    ((S.mods m).found = false → ¬ Inited s.log m ∧
      initModule S (n' + 1) sc m false s = .error (.unable m)) ∧
    ((S.mods m).found = true → (S.mods m).boot.isSome = true → m ∉ boots s.log →
      ¬ Inited s.log m ∧ ∀ opt, initModule S (n' + 1) sc m opt s = .error (.shouldBoot m)) := by
  have hJ : J S s := by
    obtain ⟨_, _, _, _, _, _, _, _, _, _, _, _, _, _, _, _, _, _, _, _, hJ, _⟩ := stages h
    exact hJ
  constructor
  · intro hf
    have hn : find s m = none := by
      cases hx : find s m with
      | none => rfl
      | some x =>
        have := hJ.found m (by rw [hx]; simp)
        rw [hf] at this; cases this
    refine ⟨fun hi => ?_, ?_⟩
    · rw [← hJ.inited, hn] at hi; cases hi
    · rw [initModule, initWith]
      have : enter S m false s = .error (.unable m) := by unfold enter; rw [hn]; simp [hf]
      rw [this]
  · intro hf hb hnb
    have hn : find s m = none := by
      obtain ⟨s0, s1, s2, s3, s4, s5, b, b', h0, h1, h2, h3, h4, h5, h6⟩ := project_cases h
      have hB := (booted h0).1
      have x1 := (initModules_ext S n _ _ _ _ h1).1
      have x2 := (initModules_ext S n _ _ _ _ h2).1
      have x3 := (initModules_ext S n _ _ _ _ h3).1
      have x4 := execN_ext S n _ _ _ _ h4
      have x5 := (initModules_ext S n _ _ _ _ h5).1
      have x6 := execN_ext S n _ _ _ _ h6
      obtain ⟨l1, e1, c1, _⟩ := x1.log
      obtain ⟨l2, e2, c2, _⟩ := x2.log
      obtain ⟨l3, e3, c3, _⟩ := x3.log
      obtain ⟨l4, e4, c4, _⟩ := x4.log
      obtain ⟨l5, e5, c5, _⟩ := x5.log
      obtain ⟨l6, e6, c6, _⟩ := x6.log
      have e4 : s4.log = (s3.log ++ [.rootBuild]) ++ l4 := e4
      have hbs : boots s.log = s0.loaded.map Prod.fst := by
        rw [e6, e5, e4, e3, e2, e1, hB.log]
        simp only [boots_append, c1, c2, c3, c4, c5, c6, boots_map_boot]
        simp [boots]
      rw [hbs, ← find_none_iff] at hnb
      have h23' : Fresh S s2 s3 := initModules_fresh h3
      have h23 : Fresh S s2 (atRoot s3) := h23'
      have h34 : Fresh S (atRoot s3) s4 := exec_fresh h4
      have hfr : Fresh S s0 s :=
        ((((initModules_fresh h1).trans _ _ _ (initModules_fresh h2)).trans _ _ _
          h23).trans _ _ _ h34).trans _ _ _
          ((initModules_fresh h5).trans _ _ _ (exec_fresh h6))
      cases hx : find s m with
      | none => rfl
      | some x =>
        rcases hfr m (by rw [hx]; simp) with hh | hh
        · exact absurd hnb hh
        · rw [hh] at hb; cases hb
    refine ⟨fun hi => ?_, fun opt => ?_⟩
    · rw [← hJ.inited, hn] at hi; cases hi
    · rw [initModule, initWith]
      have : enter S m opt s = .error (.shouldBoot m) := by
        unfold enter; rw [hn]; simp [hf, hb]
      rw [this]

/-- Whether the module is there does not depend on how deep uses of modules are nested. -/
theorem depth_irrelevant {S : Sys} {n n' : Nat} (hn : n ≤ n') (p : Prog) (s : St)
    (h : exec S (initModule S n) p s ≠ .error .fuel) :
    exec S (initModule S n') p s = exec S (initModule S n) p s :=
  exec_refines (initModule_le S hn) p s h

/-! ## Ending -/

/-- If modules neither use nor boot one another in cycles, the project is loaded or something
fails. -/
theorem terminates_partial {S : Sys} {r rb : Nat → Nat} (hA : Acyclic S r)
    (hB : BootAcyclic S rb) {n : Nat} (hr : ∀ m, r m < n) (hrb : ∀ m, rb m < n)
    (ms : List Nat) (root rest : Prog) : project S n ms root rest ≠ .error .fuel := by
  have hi : ∀ sc m opt s, initModule S n sc m opt s ≠ .error .fuel :=
    fun sc m opt s => initModule_deep hA n sc m opt s (hr m)
  have he : ∀ p s, exec S (initModule S n) p s ≠ .error .fuel := fun p s =>
    exec_deep (P := fun _ => True) (fun sc m opt s _ => hi sc m opt s) p s
      (Prog.only_all (fun _ => trivial) p)
  exact project_err ((bootAll_fine hB n ms).1 hrb)
    (fun v ms s => initModules_deep (fun m s => hi _ _ _ _) v ms s) (he root) (he rest)

/-- If moreover modules that are not optional either are configured or fail, then no assertion
fails and no null pointer is dereferenced. -/
theorem no_assert_partial {S : Sys} (hS : Strict S) {rb : Nat → Nat} (hB : BootAcyclic S rb)
    (n : Nat) (ms : List Nat) (root rest : Prog) :
    project S n ms root rest ≠ .error .assertion := by
  have he : ∀ p s, exec S (initModule S n) p s ≠ .error .assertion := fun p s =>
    exec_noassert (initModule_noassert hS n) (initModule_required hS n) p s
  exact project_err (bootAll_fine hB n ms).2 (fun v ms s => initModules_noassert hS n v ms s)
    (he root) (he rest)

example : Strict exSys ∧ BootAcyclic exSys id ∧ BootAcyclic exSys (fun m => if m = 1 then 1 else 0) := by
  refine ⟨?_, ?_, ?_⟩
  · intro m sc f
    match m with
    | 0 => exact rfl
    | 1 => exact rfl
    | 2 => exact rfl
    | 3 => exact fun _ => rfl
    | _ + 4 => exact rfl
  · intro m ms v h m' hm'
    match m with
    | 0 => cases h; cases hm'
    | 1 => cases h; simp at hm'; subst hm'; decide
    | 2 => cases h
    | 3 => cases h
    | _ + 4 => cases h
  · intro m ms v h m' hm'
    match m with
    | 0 => cases h; cases hm'
    | 1 => cases h; simp at hm'; subst hm'; decide
    | 2 => cases h
    | 3 => cases h
    | _ + 4 => cases h

/-! ## Where the claims do not hold -/

/-- The failure of a project. -/
def errOf : Except Err St → Option Err
  | .ok _ => none
  | .error e => some e

/-- `a` (0) and `b` (1) use one another for the same scope. -/
def loopSys : Sys where
  mods m := ⟨true, none, fun sc _ _ => .use sc (1 - m) false (fun _ => .done true)⟩
  chain sc := [sc]

private theorem loop_never : ∀ n m s, (∀ m v, var s m 0 ≠ some (some v)) →
    initModule loopSys n 0 m false s = .error .fuel := by
  intro n
  induction n with
  | zero => intro m s _; rfl
  | succ n ih =>
    intro m s hv
    rw [initModule, initWith]
    have he : ∃ s1 f, enter loopSys m false s = .ok (s1, f) ∧ s1.vars = s.vars ∧
        (find s1 m).isSome = true := by
      cases hf : enter loopSys m false s with
      | error e =>
        exfalso
        unfold enter at hf
        split at hf
        · cases hf
        · cases hf
        · cases hf
      | ok r =>
        obtain ⟨s1, f⟩ := r
        obtain ⟨e1, _, _, e4, _⟩ := enter_frame hf
        exact ⟨s1, f, rfl, e1, by rw [e4 (.inl rfl)]; rfl⟩
    obtain ⟨s1, f, he, e1, hs⟩ := he
    rw [he]
    dsimp only
    split
    · rename_i hx
      rw [var_of_vars e1] at hx
      exact absurd hx (hv _ _)
    · rw [find_setVar, if_pos hs]
      have : exec loopSys (initModule loopSys n) ((loopSys.mods m).init 0 f false)
          (started s1 m 0 f) = .error .fuel := by
        show exec loopSys (initModule loopSys n) (.use 0 (1 - m) false (fun _ => .done true))
          (started s1 m 0 f) = .error .fuel
        rw [exec, ih]
        intro m' v
        show var (setVar s1 m 0 none) m' 0 ≠ _
        rw [var_setVar]
        split
        · simp
        · rw [var_of_vars e1]; exact hv m' v
      unfold started at this
      have this' : exec loopSys (initModule loopSys n) ((loopSys.mods m).init 0 f false)
        { setVar s1 m 0 none with log := (setVar s1 m 0 none).log ++ [.init m 0 f] } = _ := this
      rw [this']

/-- Modules that use one another in a cycle are initialized again and again, to any depth: that
one has been begun is not noticed. -/
theorem cyclic_use_never_ends (n : Nat) :
    project loopSys n [] (.use 0 0 false (fun _ => .done true)) (.done true) = .error .fuel := by
  unfold project loadRoot
  simp only [List.foldlM_nil, List.map_nil, initModules, pure, Except.pure]
  rw [exec, loop_never n 0 _ (by intro m v h; cases h)]

/-- Modules that boot one another in a cycle. -/
def bootLoop : Sys where
  mods m := ⟨true, some ([1 - m], .before), fun _ _ _ => .done true⟩
  chain sc := [sc]

/-- That two modules boot one another is an assertion. -/
theorem cyclic_boot_asserts : errOf (project bootLoop 5 [0] (.done true) (.done true)) =
    some .assertion := by decide +kernel

/-- `a` (0), which is used optionally, is not configured; `c` (1) requires it. -/
def optSys : Sys where
  mods m := match m with
    | 0 => ⟨true, none, fun _ _ opt => if opt then .done false else .fail⟩
    | 1 => ⟨true, none, fun sc _ _ => .load sc 0 (.done true)⟩
    | 2 => ⟨true, none, fun sc _ _ => .use sc 0 false (fun _ => .done true)⟩
    | _ => ⟨true, none, fun _ _ _ => .done false⟩
  chain sc := [sc]

/-- A module that requires another with `load_module` gets it although it could not be configured,
if it has been used optionally before; not so if it hasn't, and not so with `init_module`. -/
theorem load_ignores_configured :
    logOf (project optSys 5 [] (.use 0 0 true (fun b => if b then .fail else
      .use 0 1 false (fun b => .done b))) (.done true)) =
      some [.rootBuild, .init 0 0 true, .init 1 0 true] ∧
    errOf (project optSys 5 [] (.use 0 0 true (fun b => if b then .fail else
      .use 0 2 false (fun b => .done b))) (.done true)) = some (.notConfigured 0) ∧
    errOf (project optSys 5 [] (.use 0 1 false (fun b => .done b)) (.done true)) =
      some .failed := by decide +kernel

/-- A required use of a module that chooses to remain unconfigured succeeds the first time and
fails the second time; with `load_module` a null pointer is dereferenced. -/
theorem unconfigured_required :
    logOf (project optSys 5 [] (.use 0 3 false (fun _ => .done true)) (.done true)) =
      some [.rootBuild, .init 3 0 true] ∧
    errOf (project optSys 5 [] (.use 0 3 false (fun _ => .use 0 3 false (fun _ => .done true)))
      (.done true)) = some (.notConfigured 3) ∧
    errOf (project optSys 5 [] (.load 0 3 (.done true)) (.done true)) = some .assertion := by
  decide +kernel

end Verif.Modules
