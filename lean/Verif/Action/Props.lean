import Verif.Action.Model

/-! Properties of action identifiers (C10). -/

namespace Verif.Action

/-- Ids are limited to four bits (libbuild2/action.hxx:14-20); operation 0 is not a valid
operation and as an outer operation means "none". -/
def Id4 (b : Byte) : Prop := b.toNat < 16

instance (b : Byte) : Decidable (Id4 b) := inferInstanceAs (Decidable (_ < _))

theorem id4_cases {b : Byte} (h : Id4 b) : ∃ n : Fin 16, b = BitVec.ofNat 8 n.val := by
  refine ⟨⟨b.toNat, h⟩, ?_⟩
  simp

/-- C10: An action gives back the meta-operation, operation and outer operation it was
built from. -/
theorem action_decode (m i o : Byte) (hm : Id4 m) (hi : Id4 i) (ho : Id4 o) :
    (Action.mk3 m i o).metaOperation = m ∧
    (Action.mk3 m i o).operation = i ∧
    (Action.mk3 m i o).outerOperation = o := by
  obtain ⟨m, rfl⟩ := id4_cases hm
  obtain ⟨i, rfl⟩ := id4_cases hi
  obtain ⟨o, rfl⟩ := id4_cases ho
  revert m i o
  decide +kernel

example : Id4 2 ∧ Id4 3 ∧ Id4 4 ∧ (Action.mk3 2 3 4).outerOperation = 4 := by decide

/-- C10: Actions built from different ids compare as different, from the same ids as
equal (both for `==` and for `!=` on two actions). -/
theorem action_eq_iff (m i o m' i' o' : Byte)
    (hm : Id4 m) (hi : Id4 i) (ho : Id4 o) (hm' : Id4 m') (hi' : Id4 i') (ho' : Id4 o') :
    ((Action.mk3 m i o).eq (Action.mk3 m' i' o') = true ↔ m = m' ∧ i = i' ∧ o = o') ∧
    ((Action.mk3 m i o).ne (Action.mk3 m' i' o') = true ↔ ¬ (m = m' ∧ i = i' ∧ o = o')) := by
  have h1 := action_decode m i o hm hi ho
  have h2 := action_decode m' i' o' hm' hi' ho'
  have key : (Action.mk3 m i o).eq (Action.mk3 m' i' o') = true ↔
      m = m' ∧ i = i' ∧ o = o' := by
    constructor
    · intro h
      have e : Action.mk3 m i o = Action.mk3 m' i' o' := by
        unfold Action.eq at h
        simp only [Bool.and_eq_true, beq_iff_eq] at h
        cases hA : Action.mk3 m i o; cases hB : Action.mk3 m' i' o'
        simp_all
      rw [e] at h1
      refine ⟨?_, ?_, ?_⟩
      · rw [← h1.1, h2.1]
      · rw [← h1.2.1, h2.2.1]
      · rw [← h1.2.2, h2.2.2]
    · rintro ⟨rfl, rfl, rfl⟩; simp [Action.eq]
  refine ⟨key, ?_⟩
  unfold Action.ne
  rw [← key]
  simp

example : (Action.mk3 2 2 4).ne (Action.mk3 2 2 0) = true := by decide

/-- C10: An action is outer exactly if it has an outer operation; its inner action has
the same meta-operation and operation and no outer operation, and selects the
inner state while the outer action selects the outer state. -/
theorem action_inner_outer (m i o : Byte) (hm : Id4 m) (hi : Id4 i) (ho : Id4 o) :
    ((Action.mk3 m i o).outer = true ↔ o ≠ 0) ∧
    ((Action.mk3 m i o).inner = true ↔ o = 0) ∧
    (Action.mk3 m i o).innerAction = Action.mk3 m i 0 := by
  obtain ⟨m, rfl⟩ := id4_cases hm
  obtain ⟨i, rfl⟩ := id4_cases hi
  obtain ⟨o, rfl⟩ := id4_cases ho
  revert m i o
  decide +kernel

example : Id4 2 ∧ Id4 6 ∧ (Action.mk3 2 2 6).outer = true := by decide

/-- C10: The inner and the outer state of a target do not interfere: storing through an
action is seen through actions of the same kind and not through the others. -/
theorem action_state_get_set {α : Type} (s : ActionState α) (a b : Action) (v : α) :
    (s.set a v).get b = if a.inner = b.inner then v else s.get b := by
  unfold ActionState.set ActionState.get
  cases a.inner <;> cases b.inner <;> rfl

example : ((ActionState.mk 1 2).set (Action.mk3 2 2 4) 7).get (Action.mk3 2 2 0) = 1 := by decide

/-- C10: An action identifier converts to the action without outer operation that has this
identifier. -/
theorem action_id_round_trip (m i : Byte) (hm : Id4 m) (hi : Id4 i) :
    Action.ofId (Action.mk3 m i 0).innerId = Action.mk3 m i 0 := by
  obtain ⟨m, rfl⟩ := id4_cases hm
  obtain ⟨i, rfl⟩ := id4_cases hi
  revert m i
  decide +kernel

example : Action.ofId (Action.mk3 2 3 0).innerId = Action.mk3 2 3 0 := by decide

/-- C10: Three of the four comparisons of an action with a raw action id mean what they
say: the action has no outer operation and has this id. -/
theorem action_compare_id (m i o m' i' : Byte)
    (hm : Id4 m) (hi : Id4 i) (ho : Id4 o) (hm' : Id4 m') (hi' : Id4 i') :
    ((Action.mk3 m i o).eqId (Action.mk3 m' i' 0).innerId = true ↔ m = m' ∧ i = i' ∧ o = 0) ∧
    ((Action.mk3 m i o).neId (Action.mk3 m' i' 0).innerId = true ↔ ¬ (m = m' ∧ i = i' ∧ o = 0)) ∧
    (Action.idEq (Action.mk3 m' i' 0).innerId (Action.mk3 m i o) = true ↔
      m' = m ∧ i' = i ∧ 0 = o) := by
  have z : Id4 0 := by decide
  unfold Action.eqId Action.neId Action.idEq
  rw [action_id_round_trip m' i' hm' hi']
  exact ⟨(action_eq_iff m i o m' i' 0 hm hi ho hm' hi' z).1,
         (action_eq_iff m i o m' i' 0 hm hi ho hm' hi' z).2,
         (action_eq_iff m' i' 0 m i o hm' hi' z hm hi ho).1⟩

example : (Action.mk3 2 2 0).eqId 0x22 = true ∧ (Action.mk3 2 2 4).eqId 0x22 = false := by decide

/-- C10, negation: the fourth comparison, `action_id != action`
(libbuild2/action.hxx:112), is inverted: it is true exactly when the action is
equal to the id, for instance for `perform_update_id != action (perform_id, update_id)`. -/
theorem action_id_ne_action_inverted (x : Byte) (y : Action) :
    Action.idNe x y = Action.idEq x y := rfl

theorem action_id_ne_action_violated :
    ∃ (x : Byte) (y : Action), y = Action.ofId x ∧ Action.idNe x y = true :=
  ⟨0x22, Action.mk3 2 2 0, by decide, by decide⟩

end Verif.Action
