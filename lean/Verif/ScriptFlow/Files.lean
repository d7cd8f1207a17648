import Verif.ScriptFlow.Index

/-!
# Script flow control: the files of the commands
-/

namespace Verif.ScriptFlow

variable {A V σ τ β : Type}

/-- Change the state of a result. -/
def Res.mapSt (φ : σ → τ) : Res σ β → Res τ β
  | .ok b s => .ok b (φ s)
  | .exit c s => .exit c (φ s)
  | .fail s => .fail (φ s)

/-- Change the state of an outcome. -/
def Out.map (φ : σ → τ) : Out σ → Out τ
  | .normal s => .normal (φ s)
  | .exited c s => .exited c (φ s)
  | .failed s => .failed (φ s)
  | .cont s => .cont (φ s)
  | .brk s => .brk (φ s)
  | .bad => .bad

/-- The callbacks do the same on the two states. -/
structure Sim (φ : σ → τ) (x : Exec A V σ) (y : Exec A V τ) : Prop where
  set : ∀ a s, y.set a (φ s) = (x.set a s).mapSt φ
  cmd : ∀ a ii li b s, y.cmd a ii li b (φ s) = (x.cmd a ii li b s).mapSt φ
  cond : ∀ a ii li s, y.cond a ii li (φ s) = (x.cond a ii li s).mapSt φ
  value : ∀ k a s, y.value k a (φ s) = (x.value k a s).mapSt φ
  stream : ∀ a ii li s, y.stream a ii li (φ s) = (x.stream a ii li s).mapSt φ
  args : ∀ a s, y.args a (φ s) = (x.args a s).mapSt φ
  assign : ∀ a v s, y.assign a v (φ s) = (x.assign a v s).mapSt φ

/-- Change the state of the result of the execution. -/
def mapR (φ : σ → τ) (o : Option (Out σ × Nat)) : Option (Out τ × Nat) :=
  o.map fun r => (r.1.map φ, r.2)

theorem go_map {φ : σ → τ} {tof : Bool} {li : Nat} {r : Res σ β}
    {k : β → σ → Option (Out σ × Nat)} {k' : β → τ → Option (Out τ × Nat)}
    (h : ∀ b s, k' b (φ s) = mapR φ (k b s)) :
    (r.mapSt φ).go tof li k' = mapR φ (r.go tof li k) := by
  cases r with
  | ok b s => exact h b s
  | exit c s =>
    simp only [Res.mapSt, Res.go, mapR, Option.map_some]
    split <;> rfl
  | fail s => rfl

theorem Sim.decide {φ : σ → τ} {x : Exec A V σ} {y : Exec A V τ} (S : Sim φ x y) (k : Kind) (a : A)
    (ii : List Nat) (li : Nat) (s : σ) : y.decide k a ii li (φ s) = (x.decide k a ii li s).mapSt φ := by
  cases k
  · exact S.cond ..
  · exact S.value ..
  · exact S.value ..

theorem exec_map {φ : σ → τ} {x : Exec A V σ} {y : Exec A V τ} (S : Sim φ x y) (tof : Bool) (f : Nat) :
    (∀ ls ii li s, exec y tof f ls ii li (φ s) = mapR φ (exec x tof f ls ii li s)) ∧
    (∀ t r ii li s, branch y tof f t r ii li (φ s) = mapR φ (branch x tof f t r ii li s)) ∧
    (∀ a r ii li k s, whileLoop y tof f a r ii li k (φ s) =
      mapR φ (whileLoop x tof f a r ii li k s)) ∧
    (∀ a r ii fli vs k fe li s, forLoop y tof f a r ii fli vs k fe li (φ s) =
      mapR φ (forLoop x tof f a r ii fli vs k fe li s)) := by
  induction f with
  | zero =>
    refine ⟨?_, ?_, ?_, ?_⟩
    · intros; simp [exec, mapR]
    · intros; simp [branch, mapR]
    · intros; simp [whileLoop, mapR]
    · intros; simp [forLoop, mapR]
  | succ f ih =>
    obtain ⟨hE, hB, hW, hF⟩ := ih
    refine ⟨?_, ?_, ?_, ?_⟩
    · intro ls ii li s
      cases ls with
      | nil => simp only [exec]; rfl
      | cons l r =>
        cases l with
        | var a => simp only [exec, S.set]; exact go_map fun b s => hE ..
        | cmd a => simp only [exec, S.cmd]; exact go_map fun b s => hE ..
        | ifc k neg a => simp only [exec, S.decide]; exact go_map fun b s => hB ..
        | elifc k neg a => simp only [exec, S.decide]; exact go_map fun b s => hB ..
        | els => simp only [exec]; exact hB ..
        | whl a => simp only [exec]; exact hW ..
        | forS a => simp only [exec, S.stream]; exact go_map fun b s => hF ..
        | forA a => simp only [exec, S.args]; exact go_map fun b s => hF ..
        | cont => simp only [exec]; rfl
        | brk => simp only [exec]; rfl
        | fin => simp only [exec]; rfl
    · intro t r ii li s
      cases t with
      | true =>
        simp only [branch]
        cases fcend false false 0 li r with
        | none => rfl
        | some j =>
          simp only
          rw [hE]
          cases exec x tof f j.before ii li s with
          | none => rfl
          | some ol =>
            obtain ⟨o, l⟩ := ol
            cases o with
            | normal s' =>
              simp only [mapR, Option.map_some, Out.map]
              split
              · exact hE ..
              · cases fcend true true 0 l j.after with
                | none => rfl
                | some j' => exact hE ..
            | _ => rfl
      | false =>
        simp only [branch]
        cases fcend false true 0 li r with
        | none => rfl
        | some j =>
          simp only
          split
          · exact hE ..
          · exact hE ..
    · intro a r ii li k s
      simp only [whileLoop, S.cond]
      refine go_map fun b s => ?_
      cases b with
      | false =>
        simp only [Bool.false_eq_true, if_false]
        cases fcend true true 0 (li + 1) r with
        | none => rfl
        | some j => exact hE ..
      | true =>
        simp only [if_true]
        cases fcend true false 0 li r with
        | none => rfl
        | some j =>
          simp only
          rw [hE]
          cases exec x tof f j.before (k :: ii) (li + 1) s with
          | none => rfl
          | some ol =>
            obtain ⟨o, l⟩ := ol
            cases o with
            | normal s' => exact hW ..
            | cont s' => exact hW ..
            | brk s' =>
              simp only [mapR, Option.map_some, Out.map]
              cases fcend true true 0 (li + 1) r with
              | none => rfl
              | some j => exact hE ..
            | _ => rfl
    · intro a r ii fli vs k fe li s
      cases vs with
      | nil =>
        simp only [forLoop]
        split
        · cases fcend true true 0 (if li = 0 then fli else li) r with
          | none => rfl
          | some j => exact hE ..
        · cases fcend true false 0 li r with
          | none => rfl
          | some j => exact hE ..
      | cons v vs =>
        simp only [forLoop, S.assign]
        refine go_map fun b s => ?_
        cases fcend true false 0 fli r with
        | none => rfl
        | some j =>
          simp only
          rw [hE]
          cases exec x tof f j.before (k :: ii) fli s with
          | none => rfl
          | some ol =>
            obtain ⟨o, l⟩ := ol
            cases o with
            | normal s' => exact hF ..
            | cont s' => exact hF ..
            | brk s' => exact hF ..
            | _ => rfl

/-! ## Invariants of the state -/

/-- The state of a result. -/
def Res.st : Res σ β → σ
  | .ok _ s => s
  | .exit _ s => s
  | .fail s => s

/-- All the callbacks keep the invariant, given that `single` is only passed with the line
index 1. -/
structure Keeps (I : σ → Prop) (x : Exec A V σ) : Prop where
  set : ∀ a s, I s → I (x.set a s).st
  cmd : ∀ a ii li b s, (b = true → li = 1) → I s → I (x.cmd a ii li b s).st
  cond : ∀ a ii li s, I s → I (x.cond a ii li s).st
  value : ∀ k a s, I s → I (x.value k a s).st
  stream : ∀ a ii li s, I s → I (x.stream a ii li s).st
  args : ∀ a s, I s → I (x.args a s).st
  assign : ∀ a v s, I s → I (x.assign a v s).st

/-- The invariant holds at the end. -/
def Holds (I : σ → Prop) (o : Option (Out σ × Nat)) : Prop :=
  ∀ o' li st, o = some (o', li) → o'.state = some st → I st

theorem go_inv {I : σ → Prop} {tof : Bool} {li : Nat} {r : Res σ β}
    {k : β → σ → Option (Out σ × Nat)} (hr : I r.st) (h : ∀ b s, I s → Holds I (k b s)) :
    Holds I (r.go tof li k) := by
  cases r with
  | ok b s => exact h b s hr
  | exit c s =>
    intro o' l st h1 h2
    simp only [Res.go, Option.some.injEq, Prod.mk.injEq] at h1
    obtain ⟨rfl, _⟩ := h1
    split at h2 <;> (cases h2; exact hr)
  | fail s =>
    intro o' l st h1 h2
    cases h1
    cases h2
    exact hr

theorem Keeps.decide {I : σ → Prop} {x : Exec A V σ} (K : Keeps I x) (k : Kind) (a : A)
    (ii : List Nat) (li : Nat) (s : σ) (hs : I s) : I (x.decide k a ii li s).st := by
  cases k
  · exact K.cond _ _ _ _ hs
  · exact K.value _ _ _ hs
  · exact K.value _ _ _ hs

theorem single_one {li : Nat} {r : List (Line A)} (h : single li r = true) : li = 1 := by
  simp only [single, Bool.and_eq_true, beq_iff_eq] at h
  exact h.1

theorem holds_none {I : σ → Prop} : Holds I none := fun _ _ _ h => by cases h

theorem holds_bad {I : σ → Prop} (li : Nat) : Holds I (some ((.bad : Out σ), li)) :=
  fun _ _ _ h h' => by cases h; cases h'

theorem exec_inv {I : σ → Prop} {x : Exec A V σ} (K : Keeps I x) (tof : Bool) (f : Nat) :
    (∀ ls ii li s, I s → Holds I (exec x tof f ls ii li s)) ∧
    (∀ t r ii li s, I s → Holds I (branch x tof f t r ii li s)) ∧
    (∀ a r ii li k s, I s → Holds I (whileLoop x tof f a r ii li k s)) ∧
    (∀ a r ii fli vs k fe li s, I s → Holds I (forLoop x tof f a r ii fli vs k fe li s)) := by
  induction f with
  | zero =>
    refine ⟨?_, ?_, ?_, ?_⟩
    · intros; simp only [exec]; exact holds_none
    · intros; simp only [branch]; exact holds_none
    · intros; simp only [whileLoop]; exact holds_none
    · intros; simp only [forLoop]; exact holds_none
  | succ f ih =>
    obtain ⟨hE, hB, hW, hF⟩ := ih
    refine ⟨?_, ?_, ?_, ?_⟩
    · intro ls ii li s hs
      have one : ∀ (o : Out σ), (∀ st, o.state = some st → I st) → Holds I (some (o, li)) := by
        intro o ho o' l st h h'
        cases h
        exact ho st h'
      cases ls with
      | nil => simp only [exec]; exact one _ (fun st h => by cases h; exact hs)
      | cons l r =>
        cases l with
        | var a => simp only [exec]; exact go_inv (K.set a s hs) fun b s h => hE _ _ _ _ h
        | cmd a =>
          simp only [exec]
          exact go_inv (K.cmd a ii li _ s single_one hs) fun b s h => hE _ _ _ _ h
        | ifc k neg a => simp only [exec]; exact go_inv (K.decide k a ii li s hs) fun b s h => hB _ _ _ _ _ h
        | elifc k neg a => simp only [exec]; exact go_inv (K.decide k a ii li s hs) fun b s h => hB _ _ _ _ _ h
        | els => simp only [exec]; exact hB _ _ _ _ _ hs
        | whl a => simp only [exec]; exact hW _ _ _ _ _ _ hs
        | forS a =>
          simp only [exec]
          exact go_inv (K.stream a ii li s hs) fun b s h => hF _ _ _ _ _ _ _ _ _ h
        | forA a =>
          simp only [exec]
          exact go_inv (K.args a s hs) fun b s h => hF _ _ _ _ _ _ _ _ _ h
        | cont => simp only [exec]; exact one _ (fun st h => by cases h; exact hs)
        | brk => simp only [exec]; exact one _ (fun st h => by cases h; exact hs)
        | fin => simp only [exec]; exact holds_bad _
    · intro t r ii li s hs
      cases t with
      | true =>
        simp only [branch]
        cases fcend false false 0 li r with
        | none => exact holds_bad _
        | some j =>
          simp only
          have hj := hE j.before ii li s hs
          cases hx : exec x tof f j.before ii li s with
          | none => exact holds_none
          | some ol =>
            rw [hx] at hj
            obtain ⟨o, l⟩ := ol
            cases o with
            | normal s' =>
              have hs' : I s' := hj _ _ s' rfl rfl
              simp only
              split
              · exact hE _ _ _ _ hs'
              · cases fcend true true 0 l j.after with
                | none => exact holds_bad _
                | some j' => exact hE _ _ _ _ hs'
            | _ => exact hj
      | false =>
        simp only [branch]
        cases fcend false true 0 li r with
        | none => exact holds_bad _
        | some j =>
          simp only
          split
          · exact hE _ _ _ _ hs
          · exact hE _ _ _ _ hs
    · intro a r ii li k s hs
      simp only [whileLoop]
      refine go_inv (K.cond _ _ _ _ hs) fun b s hs => ?_
      cases b with
      | false =>
        simp only [Bool.false_eq_true, if_false]
        cases fcend true true 0 (li + 1) r with
        | none => exact holds_bad _
        | some j => exact hE _ _ _ _ hs
      | true =>
        simp only [if_true]
        cases fcend true false 0 li r with
        | none => exact holds_bad _
        | some j =>
          simp only
          have hj := hE j.before (k :: ii) (li + 1) s hs
          cases hx : exec x tof f j.before (k :: ii) (li + 1) s with
          | none => exact holds_none
          | some ol =>
            rw [hx] at hj
            obtain ⟨o, l⟩ := ol
            cases o with
            | normal s' => exact hW _ _ _ _ _ _ (hj _ _ s' rfl rfl)
            | cont s' => exact hW _ _ _ _ _ _ (hj _ _ s' rfl rfl)
            | brk s' =>
              simp only
              cases fcend true true 0 (li + 1) r with
              | none => exact holds_bad _
              | some j => exact hE _ _ _ _ (hj _ _ s' rfl rfl)
            | _ => exact hj
    · intro a r ii fli vs k fe li s hs
      cases vs with
      | nil =>
        simp only [forLoop]
        split
        · cases fcend true true 0 (if li = 0 then fli else li) r with
          | none => exact holds_bad _
          | some j => exact hE _ _ _ _ hs
        · cases fcend true false 0 li r with
          | none => exact holds_bad _
          | some j => exact hE _ _ _ _ hs
      | cons v vs =>
        simp only [forLoop]
        refine go_inv (K.assign _ _ _ hs) fun b s hs => ?_
        cases fcend true false 0 fli r with
        | none => exact holds_bad _
        | some j =>
          simp only
          have hj := hE j.before (k :: ii) fli s hs
          cases hx : exec x tof f j.before (k :: ii) fli s with
          | none => exact holds_none
          | some ol =>
            rw [hx] at hj
            obtain ⟨o, l⟩ := ol
            cases o with
            | normal s' => exact hF _ _ _ _ _ _ _ _ _ (hj _ _ s' rfl rfl)
            | cont s' => exact hF _ _ _ _ _ _ _ _ _ (hj _ _ s' rfl rfl)
            | brk s' => exact hF _ _ _ _ _ _ _ _ _ (hj _ _ s' rfl rfl)
            | _ => exact hj

end Verif.ScriptFlow
