import Verif.TestExec.Ends

/-!
# C72: parallel execution of the scopes of a testscript

In the following `s` is any state after any number of steps of any of the scopes, in any order.
-/

namespace Verif.TestExec

section
variable {V : Type} {S : Script V} {root size : Nat} {v₀ : V} {kg : Bool} {k : Nat} {s : State V}

/-- What there is to be executed is executed at most once: an inner scope after the setup and
before the teardown of the group that it is in. -/
theorem nested (ht : S.Tree root size) (h : Reach S root v₀ kg k s) : Nested S s.log :=
  (SI.reach ht h).nested

/-- It is not stuck before it has ended. -/
theorem progress (ht : S.Tree root size) (h : Reach S root v₀ kg k s)
    (hr : ∀ b, s.st root ≠ .done b) : ∃ n s', Step S v₀ kg n s s' :=
  progress_node ht (SI.reach ht h) _ root (Nat.le_refl _) (SI.reach ht h).top hr

/-- It ends. -/
theorem ends (ht : S.Tree root size) (v₀ : V) (kg : Bool) :
    ∃ bound, ∀ k s, Reach S root v₀ kg k s → k ≤ bound :=
  ⟨total S size (init root v₀), fun _ _ h => by have := Reach.total ht h; omega⟩

/-- Nothing is still being executed when it has. -/
theorem all_ended (ht : S.Tree root size) (h : Reach S root v₀ kg k s) {b : Bool}
    (hb : s.st root = .done b) (n : Nat) (v : V) (hn : .run n v ∈ s.log) :
    ∃ b, s.st n = .done b := by
  have hi := SI.reach ht h
  exact all_done ht hi hb n ((hi.runs n).mp ⟨v, hn⟩).1

/-- Specification: there is one result. -/
theorem one_result {n : Nat} {v : V} {b b' : Bool} (h : Passes S n v b) (h' : Passes S n v b') :
    b = b' := passes_unique h' h

/-- The result does not depend on the order, if conditions don't set variables. -/
theorem result_partial (ht : S.Tree root size) (hp : S.Pure) (h : Reach S root v₀ kg k s) {b : Bool}
    (hb : s.st root = .done b) : Passes S root v₀ b := by
  have := passes_of_good (Sem.reach ht hp h) hb
  rwa [show vis S v₀ s root = v₀ from by unfold vis; rw [ht.top]] at this

/-- Nor on whether to keep going. -/
theorem keep_going_partial (ht : S.Tree root size) (hp : S.Pure) {kg' : Bool} {k' : Nat}
    {s' : State V} (h : Reach S root v₀ kg k s) (h' : Reach S root v₀ kg' k' s') {b b' : Bool}
    (hb : s.st root = .done b) (hb' : s'.st root = .done b') : b = b' :=
  one_result (result_partial ht hp h hb) (result_partial ht hp h' hb')

/-- Only that is executed that is selected, with the variables that it is to be. -/
theorem selected_partial (ht : S.Tree root size) (hp : S.Pure) (h : Reach S root v₀ kg k s)
    {n : Nat} {v : V} (hn : .run n v ∈ s.log) : Executed S root v₀ n v := by
  have hs := Sem.reach ht hp h
  rw [hs.runs n v hn]
  exact hs.exec n (((SI.reach ht h).runs n).mp ⟨v, hn⟩).1

/-- If keeping going, all of that is executed in the end. -/
theorem complete_partial (ht : S.Tree root size) (hp : S.Pure) (h : Reach S root v₀ true k s)
    {b : Bool} (hb : s.st root = .done b) {n : Nat} {v : V} (hn : Executed S root v₀ n v) :
    .run n v ∈ s.log := by
  have hs := Sem.reach ht hp h
  have hi := SI.reach ht h
  obtain ⟨⟨b', h1⟩, h2⟩ := executed_done ht hi hs hb hn
  obtain ⟨w, hw⟩ := (hi.runs n).mpr (by rw [h1]; simp)
  have := hs.runs n w hw
  rw [this, h2] at hw; exact hw

/-- The teardown is only executed if everything in the group passes. -/
theorem teardown_partial (ht : S.Tree root size) (hp : S.Pure) (h : Reach S root v₀ kg k s)
    {n : Nat} {w : V} (hn : .tdown n w ∈ s.log) : ∃ v, .run n v ∈ s.log ∧ Torn S n v w := by
  have hs := Sem.reach ht hp h
  have hi := SI.reach ht h
  obtain ⟨b, hb⟩ := hi.tdowns n w hn
  obtain ⟨v, hv⟩ := (hi.runs n).mpr (by rw [hb]; simp)
  refine ⟨v, hv, ?_⟩
  rw [hs.runs n v hv]; exact hs.tdowns n w hn

/-- And then it is. -/
theorem torn_down_partial (ht : S.Tree root size) (hp : S.Pure) (h : Reach S root v₀ kg k s)
    {b : Bool} (hb : s.st root = .done b) {n : Nat} {v w : V} (hn : .run n v ∈ s.log)
    (htn : Torn S n v w) : .tdown n w ∈ s.log := by
  have hs := Sem.reach ht hp h
  have hi := SI.reach ht h
  obtain ⟨b', h1⟩ := all_done ht hi hb n ((hi.runs n).mp ⟨v, hn⟩).1
  have hg := hs.good n
  rw [h1] at hg
  exact hg.2.2 w (by rw [← hs.runs n v hn]; exact htn)

end

/-! ## A script with a choice and a group -/

/-- A group with a test, then another group (with a test) or else a test. -/
def demo : Script Nat where
  parent n := if n = 0 then none else if n = 4 then some 2 else some 0
  isTest n := n = 1 || n = 3 || n = 4
  test n v := n != 4 || v = 9
  setup n v := (.ok, if n = 0 then v + 7 else v + 2)
  chains n :=
    if n = 0 then
      [⟨false, [⟨none, false, 1⟩]⟩,
       ⟨false, [⟨some fun v => (if v = 7 then .yes else .no, v), false, 2⟩, ⟨none, false, 3⟩]⟩]
    else if n = 2 then [⟨false, [⟨none, false, 4⟩]⟩]
    else []
  tdown _ _ := true

theorem demo_tree : demo.Tree 0 5 where
  top := rfl
  parent g n h := by
    rcases g with _ | _ | _ | g
    · simp [Script.inner, demo] at h; rcases h with rfl | rfl | rfl <;> decide
    · simp [Script.inner, demo] at h
    · simp [Script.inner, demo] at h; subst h; decide
    · simp [Script.inner, demo] at h
  once g := by
    rcases g with _ | _ | _ | g
    · decide
    · decide
    · decide
    · simp [Script.inner, demo]
  start := by decide

theorem demo_pure : demo.Pure := by
  intro g c hc a ha f hf v
  rcases g with _ | _ | _ | g
  · simp only [demo, if_pos, List.mem_cons, List.not_mem_nil, or_false] at hc
    rcases hc with rfl | rfl
    · simp at ha; subst ha; cases hf
    · simp at ha
      rcases ha with rfl | rfl
      · simp only [Option.some.injEq] at hf; rw [← hf]
      · cases hf
  · simp [demo] at hc
  · simp [demo] at hc; subst hc; simp at ha; subst ha; cases hf
  · simp [demo] at hc

/-- It may be executed like this: the first test last of all. -/
theorem demo_run : ∃ k s, Reach demo 0 0 false k s ∧ s.st 0 = .done true ∧
    s.log = [.tdown 0 7, .run 1 7, .tdown 2 9, .run 4 9, .run 2 7, .run 0 0] := by
  have r0 := Reach.init (S := demo) (root := 0) (v₀ := 0) (kg := false)
  have r1 := r0.step (.setup (n := 0) rfl rfl)
  have r2 := r1.step (.chain (n := 0) rfl)
  have r3 := r2.step (.always (n := 0) rfl rfl)
  have r4 := r3.step (.chain (n := 0) rfl)
  have r5 := r4.step (.cond (n := 0) rfl rfl)
  have r6 := r5.step (.chain (n := 0) rfl)
  have r7 := r6.step (.setup (n := 2) rfl rfl)
  have r8 := r7.step (.chain (n := 2) rfl)
  have r9 := r8.step (.always (n := 2) rfl rfl)
  have r10 := r9.step (.chain (n := 2) rfl)
  have r11 := r10.step (.test (n := 4) rfl rfl)
  have r12 := r11.step (.passed (n := 2) rfl (by
    intro c hc; have : c = 4 := List.mem_singleton.mp hc
    subst this; rfl))
  have r13 := r12.step (.tdown (n := 2) rfl)
  have r14 := r13.step (.test (n := 1) rfl rfl)
  have r15 := r14.step (.passed (n := 0) rfl (by
    intro c hc; have : c = 1 ∨ c = 2 := by
      have hc : c ∈ [1, 2] := hc
      simpa using hc
    rcases this with rfl | rfl <;> rfl))
  have r16 := r15.step (.tdown (n := 0) rfl)
  exact ⟨_, _, r16, rfl, rfl⟩

/-- The result is what it should be. -/
example : Passes demo 0 0 true := by
  obtain ⟨k, s, h, hb, _⟩ := demo_run
  exact result_partial demo_tree demo_pure h hb

/-- The scope that isn't selected is not executed. -/
example : ∀ v, ¬ Executed demo 0 0 3 v := by
  intro v h
  obtain ⟨k, s, hr, hb, hl⟩ := demo_run
  have : ∀ {n v}, Executed demo 0 0 n v → n ≠ 3 := by
    intro n v h
    cases h with
    | root => decide
    | @inner g w w' ns f n h1 h2 h3 h4 h5 =>
      intro he; subst he
      have hn := picks_nodes h4 3 h5
      have hg : g = 0 := by
        have h6 : (3 : Nat) ∈ demo.inner g := by simpa [nodes, Script.inner] using hn
        have := (demo_tree.parent g 3 h6).1
        have h7 : demo.parent 3 = some 0 := rfl
        rw [h7] at this; cases this; rfl
      subst hg
      cases h1 with
      | root =>
        simp [demo] at h3
        subst h3
        have hp : Picks 7 [] (demo.chains 0) [1, 2] false :=
          .chain rfl (.take (by simp) rfl (.chain rfl (.take (by
            intro p hp; simp only [Option.some.injEq] at hp; rw [← hp]; rfl) rfl .done)))
        have := (picks_unique hp h4).1
        rw [this] at h5
        simp at h5
      | @inner g' _ _ _ _ _ _ _ _ h9 h10 =>
        have h6 : (0 : Nat) ∈ demo.inner g' := by
          have := picks_nodes h9 0 h10
          simpa [nodes, Script.inner] using this
        have := (demo_tree.parent g' 0 h6).1
        cases this
  exact this h rfl

/-! ## Conditions that set variables -/

/-- A group with a test that passes if a variable is 0, followed by a scope with a condition that
sets it, such as `if echo 1 | set x`. -/
def race : Script Nat where
  parent n := if n = 0 then none else some 0
  isTest n := n = 1 || n = 2
  test _ v := v = 0
  setup _ v := (.ok, v)
  chains n :=
    if n = 0 then
      [⟨false, [⟨none, false, 1⟩]⟩, ⟨false, [⟨some fun _ => (.no, 1), false, 2⟩]⟩]
    else []
  tdown _ _ := true

theorem race_tree : race.Tree 0 3 where
  top := rfl
  parent g n h := by
    rcases g with _ | g
    · simp [Script.inner, race] at h; rcases h with rfl | rfl <;> decide
    · simp [Script.inner, race] at h
  once g := by
    rcases g with _ | g
    · decide
    · simp [Script.inner, race]
  start := by decide

/-- The condition is executed while the test is, since it has been started before, and it then
depends on which is faster whether the test passes. -/
theorem set_races : ∃ k k' s s', Reach race 0 0 true k s ∧ Reach race 0 0 true k' s' ∧
    s.st 0 = .done true ∧ s'.st 0 = .done false ∧
    .run 1 0 ∈ s.log ∧ .run 1 1 ∈ s'.log := by
  have r0 := Reach.init (S := race) (root := 0) (v₀ := 0) (kg := true)
  have r1 := r0.step (.setup (n := 0) rfl rfl)
  have r2 := r1.step (.chain (n := 0) rfl)
  have r3 := r2.step (.always (n := 0) rfl rfl)
  have r4 := r3.step (.chain (n := 0) rfl)
  have a5 := r4.step (.test (n := 1) rfl rfl)
  have a6 := a5.step (.cond (n := 0) rfl rfl)
  have a7 := a6.step (.chain (n := 0) rfl)
  have a8 := a7.step (.passed (n := 0) rfl (by
    intro c hc; have : c = 1 := List.mem_singleton.mp hc
    subst this; rfl))
  have a9 := a8.step (.tdown (n := 0) rfl)
  have b5 := r4.step (.cond (n := 0) rfl rfl)
  have b6 := b5.step (.test (n := 1) rfl rfl)
  have b7 := b6.step (.chain (n := 0) rfl)
  have b8 := b7.step (.failed (n := 0) (c := 1) rfl (by
    intro c hc; have : c = 1 := List.mem_singleton.mp hc
    subst this; exact ⟨false, rfl⟩) (.inr ⟨List.mem_cons_self, rfl⟩))
  exact ⟨_, _, _, _, a9, b8, rfl, rfl, .tail _ (.head _), .head _⟩

end Verif.TestExec
