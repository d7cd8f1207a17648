import Verif.TargetState.Model

/-! Properties of merging target states (C09). -/

namespace Verif.TargetState

open TState

/-! ### Lemmas -/

theorem val_inj {a b : TState} (h : a.val = b.val) : a = b := by
  cases a <;> cases b <;> simp_all [TState.val]

theorem merge_val (a b : TState) : (merge a b).val = max a.val b.val := by
  unfold merge; split <;> omega

theorem foldl_merge_val (ss : List TState) (a : TState) :
    (ss.foldl merge a).val = ss.foldl (fun m s => max m s.val) a.val := by
  induction ss generalizing a with
  | nil => rfl
  | cons s ss ih => simp [ih, merge_val]

theorem foldl_merge_ge (ss : List TState) (a : TState) : a.val ≤ (ss.foldl merge a).val := by
  induction ss generalizing a with
  | nil => simp
  | cons s ss ih => have := ih (merge a s); rw [merge_val] at this; simp; omega

theorem foldl_merge_mem_ge (ss : List TState) (a s : TState) (h : s ∈ ss) :
    s.val ≤ (ss.foldl merge a).val := by
  induction ss generalizing a with
  | nil => simp at h
  | cons x ss ih =>
    simp only [List.mem_cons] at h
    rcases h with h | h
    · subst h
      have := foldl_merge_ge ss (merge a s); rw [merge_val] at this; simp; omega
    · exact ih _ h

theorem foldl_merge_mem (ss : List TState) (a : TState) :
    ss.foldl merge a = a ∨ ss.foldl merge a ∈ ss := by
  induction ss generalizing a with
  | nil => simp
  | cons x ss ih =>
    simp only [List.foldl_cons, List.mem_cons]
    rcases ih (merge a x) with h | h
    · rw [h]; unfold merge; split
      · exact Or.inr (Or.inl rfl)
      · exact Or.inl rfl
    · exact Or.inr (Or.inr h)

theorem merge_comm' (a b : TState) : merge a b = merge b a := by
  apply val_inj; simp only [merge_val]; omega

theorem merge_assoc' (a b c : TState) : merge (merge a b) c = merge a (merge b c) := by
  apply val_inj; simp only [merge_val]; omega

/-! ### C09 -/

/-- C09: The merged state does not depend on the order in which the members complete. -/
theorem merge_order_independent (ss ts : List TState) (h : ss.Perm ts) :
    mergeAll ss = mergeAll ts := by
  unfold mergeAll
  apply List.Perm.foldl_eq' h
  intro x _ y _ z
  rw [merge_assoc', merge_assoc', merge_comm' x y]

example : mergeAll [changed, unchanged, failed] = mergeAll [failed, changed, unchanged] ∧
    mergeAll [changed, unchanged, failed] = failed := by decide

/-- C09: Grouping does not matter: merging the merged states of sub-lists gives the same
result as merging all the states. -/
theorem merge_grouping_independent (sss : List (List TState)) :
    mergeAll (sss.map mergeAll) = mergeAll sss.flatten := by
  apply val_inj
  unfold mergeAll
  have key : ∀ (sss : List (List TState)) (a : TState), unchanged.val ≤ a.val →
      ((sss.map (fun ss => ss.foldl merge unchanged)).foldl merge a).val =
      (sss.flatten.foldl merge a).val := by
    intro sss
    induction sss with
    | nil => intro a _; rfl
    | cons ss sss ih =>
      intro a ha
      have e : merge a (ss.foldl merge unchanged) = ss.foldl merge a := by
        have : ∀ (ss : List TState) (a b : TState),
            merge a (ss.foldl merge b) = ss.foldl merge (merge a b) := by
          intro ss
          induction ss with
          | nil => intros; rfl
          | cons x ss ih => intro a b; simp only [List.foldl_cons]; rw [ih, merge_assoc']
        rw [this]
        have : merge a unchanged = a := by
          apply val_inj; rw [merge_val]; omega
        rw [this]
      simp only [List.map_cons, List.foldl_cons, List.flatten_cons, List.foldl_append]
      rw [e]
      apply ih
      have := foldl_merge_ge ss a
      omega
  exact key sss unchanged (Nat.le_refl _)

/-- C09: The result is `failed` as soon as one state is `failed` (group never occurs
among member states because `executed_state` resolves it). -/
theorem merge_failed_iff (ss : List TState) (hg : group ∉ ss) :
    mergeAll ss = failed ↔ failed ∈ ss := by
  constructor
  · intro h
    rcases foldl_merge_mem ss unchanged with h1 | h1
    · unfold mergeAll at h; rw [h1] at h; cases h
    · unfold mergeAll at h; rw [h] at h1; exact h1
  · intro h
    have h1 := foldl_merge_mem_ge ss unchanged failed h
    rcases foldl_merge_mem ss unchanged with h2 | h2
    · rw [h2] at h1; simp [TState.val] at h1
    · unfold mergeAll
      generalize ss.foldl merge unchanged = r at h1 h2
      cases r <;> simp_all [TState.val]

example : group ∉ [changed, failed, unchanged] ∧ failed ∈ [changed, failed, unchanged] := by decide

/-- C09: The result is `changed` exactly if nothing failed and something changed. -/
theorem merge_changed_iff (ss : List TState) (hg : group ∉ ss) :
    mergeAll ss = changed ↔ failed ∉ ss ∧ changed ∈ ss := by
  constructor
  · intro h
    constructor
    · intro hf
      have := (merge_failed_iff ss hg).2 hf
      rw [h] at this; cases this
    · rcases foldl_merge_mem ss unchanged with h1 | h1
      · unfold mergeAll at h; rw [h1] at h; cases h
      · unfold mergeAll at h; rw [h] at h1; exact h1
  · intro ⟨hf, hc⟩
    have h1 := foldl_merge_mem_ge ss unchanged changed hc
    rcases foldl_merge_mem ss unchanged with h2 | h2
    · rw [h2] at h1; simp [TState.val] at h1
    · unfold mergeAll
      generalize ss.foldl merge unchanged = r at h1 h2
      cases r <;> simp_all [TState.val]

example : group ∉ [changed, unchanged] ∧ failed ∉ [changed, unchanged] ∧
    changed ∈ [changed, unchanged] := by decide

/-- Exactly which states are merged when a set of members is executed: `postponed` for
the members postponed when started and the final state for the others. -/
def memberState : Option (TState × TState) → Option TState
  | none => none
  | some (s, c) => if s = postponed then some postponed else some c

private theorem two_loops (ms : List (Option (TState × TState))) (a : TState) :
    let r := ms.foldl (fun r m =>
      match m with
      | some (postponed, _) => merge r postponed
      | _ => r) a
    ms.foldl (fun r m =>
      match m with
      | some (s, c) => if s = postponed then r else merge r c
      | none => r) r = (ms.filterMap memberState).foldl merge a := by
  induction ms generalizing a with
  | nil => rfl
  | cons m ms ih =>
    -- the second loop commutes with merging something into the accumulator
    have comm : ∀ (ms : List (Option (TState × TState))) (r x : TState),
        ms.foldl (fun r m =>
          match m with
          | some (s, c) => if s = postponed then r else merge r c
          | none => r) (merge r x) =
        merge (ms.foldl (fun r m =>
          match m with
          | some (s, c) => if s = postponed then r else merge r c
          | none => r) r) x := by
      intro ms
      induction ms with
      | nil => intros; rfl
      | cons m ms ih =>
        intro r x
        rcases m with _ | ⟨s, c⟩
        · simp only [List.foldl_cons]; exact ih r x
        · by_cases hs : s = postponed
          · simp only [List.foldl_cons, hs, if_true]; exact ih r x
          · simp only [List.foldl_cons, hs, if_false]
            rw [merge_assoc', merge_comm' x c, ← merge_assoc']; exact ih _ x
    have comm1 : ∀ (ms : List (Option (TState × TState))) (r x : TState),
        ms.foldl (fun r m =>
          match m with
          | some (postponed, _) => merge r postponed
          | _ => r) (merge r x) =
        merge (ms.foldl (fun r m =>
          match m with
          | some (postponed, _) => merge r postponed
          | _ => r) r) x := by
      intro ms
      induction ms with
      | nil => intros; rfl
      | cons m ms ih =>
        intro r x
        rcases m with _ | ⟨s, c⟩
        · simp only [List.foldl_cons]; exact ih r x
        · cases s <;> simp only [List.foldl_cons] <;> try exact ih r x
          rw [merge_assoc', merge_comm' x postponed, ← merge_assoc']; exact ih _ x
    rcases m with _ | ⟨s, c⟩
    · simp only [List.foldl_cons, List.filterMap_cons, memberState]; exact ih a
    · by_cases hs : s = postponed
      · subst hs
        simp only [List.foldl_cons, List.filterMap_cons, memberState, if_true]
        exact ih _
      · have e1 : (match (some (s, c) : Option (TState × TState)) with
          | some (postponed, _) => merge a postponed
          | _ => a) = a := by cases s <;> simp_all
        simp only [List.foldl_cons, List.filterMap_cons, memberState, hs, if_false]
        rw [e1, comm, ← comm, ← comm1]
        exact ih _

/-- C09: Executing members, straight or reverse, yields the merge of their states
whatever the order of the members. -/
theorem execute_members_state (ms : List (Option (TState × TState))) :
    executeMembers ms = mergeAll (ms.filterMap memberState) ∧
    reverseExecuteMembers ms = mergeAll (ms.filterMap memberState) := by
  have h : ∀ ms, executeMembers ms = mergeAll (ms.filterMap memberState) :=
    fun ms => two_loops ms unchanged
  refine ⟨h ms, ?_⟩
  unfold reverseExecuteMembers
  rw [h]
  apply merge_order_independent
  exact (List.reverse_perm ms).filterMap _

example : executeMembers [some (unknown, changed), none, some (postponed, unknown)] = changed ∧
    reverseExecuteMembers [some (unknown, changed), none, some (postponed, unknown)] = changed := by
  decide

/-- C09: Executing a recipe with its callbacks: if one of them fails the target is
failed; if all return `changed`, `unchanged` or `postponed` the assertion cannot
fail, the result is `changed` if one of them returned it, and `unchanged`
otherwise; a postponed result is stored but reported as unchanged. -/
theorem execute_recipe_state (ss : List (Option TState)) (g : TState)
    (hs : ∀ s, some s ∈ ss → s = changed ∨ s = unchanged ∨ s = postponed) :
    executeRecipe ss g =
      if none ∈ ss then .ok failed failed
      else if some changed ∈ ss then .ok changed changed
      else if some postponed ∈ ss then .ok postponed unchanged
      else .ok unchanged unchanged := by
  unfold executeRecipe
  by_cases hn : none ∈ ss
  · have : ss.any (· == none) = true := by
      rw [List.any_eq_true]; exact ⟨none, hn, rfl⟩
    simp [this, hn]
  · have h0 : ss.any (· == none) = false := by
      rw [Bool.eq_false_iff]; intro h
      rw [List.any_eq_true] at h
      obtain ⟨x, hx, he⟩ := h
      simp at he; subst he; exact hn hx
    have hm : ∀ s, s ∈ ss.filterMap id ↔ some s ∈ ss := by intro s; simp
    have hge := foldl_merge_ge (ss.filterMap id) unchanged
    have hmem := foldl_merge_mem (ss.filterMap id) unchanged
    have hall := fun s => foldl_merge_mem_ge (ss.filterMap id) unchanged s
    simp only [h0, hn, if_false]
    unfold mergeAll
    generalize hr : (ss.filterMap id).foldl merge unchanged = r at *
    by_cases hc : some changed ∈ ss
    · have := hall changed ((hm _).2 hc)
      have h3 : r = changed := by
        rcases hmem with h | h
        · subst h; simp [TState.val] at this
        · rcases hs r ((hm _).1 h) with h | h | h <;> subst h <;> simp_all [TState.val]
      subst h3; simp [hc]
    · by_cases hp : some postponed ∈ ss
      · have := hall postponed ((hm _).2 hp)
        have h3 : r = postponed := by
          rcases hmem with h | h
          · subst h; simp [TState.val] at this
          · rcases hs r ((hm _).1 h) with h' | h' | h' <;> subst h'
            · exact absurd ((hm _).1 h) hc
            · simp [TState.val] at this
            · rfl
        subst h3; simp [hc, hp]
      · have h3 : r = unchanged := by
          rcases hmem with h | h
          · exact h
          · rcases hs r ((hm _).1 h) with h' | h' | h'
            · subst h'; exact absurd ((hm _).1 h) hc
            · exact h'
            · subst h'; exact absurd ((hm _).1 h) hp
        subst h3; simp [hc, hp]

example : executeRecipe [some unchanged, some changed, some postponed] unknown =
    .ok changed changed := by decide

end Verif.TargetState
