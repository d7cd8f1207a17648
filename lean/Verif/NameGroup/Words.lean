import Verif.NameGroup.Render
/-! # Words -/

namespace Verif.NameGroup

/-- The result is an error. -/
def Fails {α : Type} (x : Except Err α) : Prop := ∃ er, x = .error er

theorem fails_bind {α β : Type} {x : Except Err α} {k : α → Except Err β}
    (h : Fails x) : Fails (x >>= k) := by
  obtain ⟨er, h⟩ := h
  exact ⟨er, by rw [h]; rfl⟩

/-- The result is what the specification says. -/
def Is {α : Type} (x : Except Err α) : Option α → Prop
  | some a => x = .ok a
  | none => Fails x

theorem is_bind {α β : Type} {x : Except Err α} {k : α → Except Err β}
    {o : Option α} {m : α → Option β} (h : Is x o)
    (hk : ∀ a, o = some a → Is (k a) (m a)) : Is (x >>= k) (o >>= m) := by
  cases o with
  | none => exact fails_bind h
  | some a =>
    have h' : x = .ok a := h
    rw [h']
    exact hk a rfl

theorem is_map {α β : Type} {x : Except Err α} {o : Option α} {g : α → β}
    (h : Is x o) : Is (x >>= fun a => .ok (g a)) (o.map g) := by
  cases o with
  | none => exact fails_bind h
  | some a =>
    have h' : x = .ok a := h
    rw [h']
    rfl

theorem lastIdx_append (p : Char → Bool) (b : Str) : ∀ a,
    lastIdx p (a ++ b) = match lastIdx p b with
      | some i => some (a.length + i)
      | none => lastIdx p a := by
  intro a
  induction a with
  | nil =>
    simp only [List.nil_append, List.length_nil, Nat.zero_add]
    cases lastIdx p b <;> rfl
  | cons x a ih =>
    simp only [List.cons_append, lastIdx, ih]
    cases h : lastIdx p b with
    | some i =>
      simp only [List.length_cons]
      congr 1; omega
    | none => rfl

theorem lastIdx_none (p : Char → Bool) : ∀ s, (∀ x ∈ s, p x = false) →
    lastIdx p s = none := by
  intro s
  induction s with
  | nil => intro _; rfl
  | cons x s ih =>
    intro h
    unfold lastIdx
    rw [ih fun y hy => h y (List.mem_cons_of_mem _ hy), h x List.mem_cons_self]
    rfl

theorem lastIdx_lt (p : Char → Bool) : ∀ s i, lastIdx p s = some i →
    ∃ x, s[i]? = some x ∧ p x = true := by
  intro s
  induction s with
  | nil => intro i h; cases h
  | cons x s ih =>
    intro i h
    unfold lastIdx at h
    split at h
    · rename_i j hj
      cases h
      obtain ⟨y, hy, hp⟩ := ih j hj
      exact ⟨y, by simpa using hy, hp⟩
    · split at h
      · rename_i hx
        cases h
        exact ⟨x, rfl, hx⟩
      · cases h

theorem not_percent {s : Str} (h : '%' ∉ s) : ∀ x ∈ s, (decide (x = '%')) = false := by
  intro x hx
  apply decide_eq_false
  intro hx'
  exact h (hx' ▸ hx)

theorem percent_at {s : Str} (h : '%' ∉ s) {i : Nat} : s[i]? ≠ some '%' := by
  intro hi
  exact h (List.mem_of_getElem? hi)

/-- The project is what precedes the last `%`. -/
theorem wordProject_is (e : Env) (c : Ctx) (pr : Option Str) (text : Str) (q : Bool)
    (hp : Proj.wf e pr) (ht : '%' ∉ text) :
    Is (wordProject e c (projText pr ++ text) q)
      ((atMostOne c.proj pr).map fun p => (p, text, lastIdx isSep text)) := by
  unfold wordProject
  cases pr with
  | none =>
    have ha : atMostOne c.proj none = some c.proj := by
      unfold atMostOne; cases c.proj <;> rfl
    rw [ha]
    simp only [projText, List.nil_append, Option.map_some]
    cases hl : lastIdx isSep text with
    | none => rfl
    | some pos =>
      have h1 : lastIdx (fun x => decide (x = '%')) (text.take pos) = none :=
        lastIdx_none _ _ fun x hx => not_percent ht x (List.mem_of_mem_take hx)
      have h2 : ¬ (text[pos]? = some '%') := percent_at ht
      simp only [h2, if_false, h1]
      rfl
  | some p =>
    have hv : ¬ (p ≠ [] ∧ e.validProj p = false) := by
      intro ⟨h1, h2⟩
      rcases hp with h | h
      · exact h1 h
      · rw [h] at h2; cases h2
    have e1 : projText (some p) ++ text = p ++ '%' :: text := by
      simp [projText]
    rw [e1, lastIdx_append]
    have hdrop : (p ++ '%' :: text).drop (p.length + 1) = text := by
      rw [List.drop_append]; simp
    have htake : (p ++ '%' :: text).take p.length = p := by simp
    cases hl : lastIdx isSep text with
    | none =>
      have h2 : lastIdx isSep ('%' :: text) = some 0 := by
        unfold lastIdx; rw [hl]; rfl
      have h3 : (p ++ '%' :: text)[p.length]? = some '%' := by simp
      simp only [h2, Nat.add_zero, h3, if_true]
      rw [htake, if_neg hv, hdrop]
      cases hc : c.proj with
      | none => rfl
      | some cp => exact ⟨_, rfl⟩
    | some i =>
      have h2 : lastIdx isSep ('%' :: text) = some (i + 1) := by
        unfold lastIdx; rw [hl]
      have h3 : ¬ ((p ++ '%' :: text)[p.length + (i + 1)]? = some '%') := by
        rw [List.getElem?_append_right (by omega)]
        have : p.length + (i + 1) - p.length = i + 1 := by omega
        rw [this]
        simp only [List.getElem?_cons_succ]
        exact percent_at ht
      have h4 : lastIdx (fun x => decide (x = '%'))
          ((p ++ '%' :: text).take (p.length + (i + 1))) = some p.length := by
        have : (p ++ '%' :: text).take (p.length + (i + 1)) = p ++ '%' :: text.take i := by
          rw [List.take_append, List.take_of_length_le (by omega)]; simp
        rw [this, lastIdx_append]
        have h5 : lastIdx (fun x => decide (x = '%')) ('%' :: text.take i) = some 0 := by
          unfold lastIdx
          rw [lastIdx_none _ _ fun x hx => not_percent ht x (List.mem_of_mem_take hx)]
          rfl
        rw [h5]; rfl
      simp only [h2, h3, if_false, h4]
      rw [htake, if_neg hv, hdrop]
      have h6 : p.length + (i + 1) - (p.length + 1) = i := by omega
      rw [h6]
      cases hc : c.proj with
      | none => rfl
      | some cp => exact ⟨_, rfl⟩

theorem concat_of_ne {s : Str} (h : s ≠ []) : ∃ a x, s = a ++ [x] := by
  rcases List.eq_nil_or_concat s with h' | ⟨a, x, h'⟩
  · exact absurd h' h
  · exact ⟨a, x, by simpa using h'⟩

/-- The last separator is the last character exactly if the text ends with
a slash. -/
theorem atEnd_iff {text : Str} (ht : '%' ∉ text) :
    atEnd text (lastIdx isSep text) = endsSlash text := by
  by_cases h0 : text = []
  · subst h0; rfl
  · obtain ⟨a, x, rfl⟩ := concat_of_ne h0
    rw [lastIdx_append]
    have hx : x ≠ '%' := by
      intro h; apply ht; rw [h]; simp
    unfold endsSlash
    rw [List.getLast?_append]
    by_cases h1 : x = '/'
    · subst h1
      have : lastIdx isSep ['/'] = some 0 := by decide
      rw [this]
      simp [atEnd]
    · have : lastIdx isSep [x] = none := by
        unfold lastIdx lastIdx
        rw [if_neg (by simp [isSep, h1, hx])]
      rw [this]
      have h2 : decide (([x].getLast?.or a.getLast?) = some '/') = false := by
        apply decide_eq_false; intro h
        have h' : some x = some '/' := h
        cases h'; exact h1 rfl
      rw [h2]
      dsimp only
      cases hl : lastIdx isSep a with
      | none => rfl
      | some i =>
        obtain ⟨y, hy, _⟩ := lastIdx_lt _ _ _ hl
        have hi : i < a.length := by
          rcases Nat.lt_or_ge i a.length with h | h
          · exact h
          · rw [List.getElem?_eq_none h] at hy; cases hy
        unfold atEnd
        simp only [List.length_append, List.length_cons, List.length_nil]
        apply decide_eq_false
        omega

/-- Adding an acceptable name. -/
theorem appendName_is (ns : List FName) (p d t v) :
    Is (appendName ns p d t v)
      ((accept ⟨p, d, t, v⟩).map fun n => ns ++ [(n, false)]) := by
  unfold appendName accept Name.ok
  by_cases h : d = [] ∧ v = [] ∧ t ≠ []
  · rw [if_pos h]
    obtain ⟨h1, h2, h3⟩ := h
    simp [h1, h2, h3]
    exact ⟨_, rfl⟩
  · rw [if_neg h]
    have : (decide (t = []) || decide (d ≠ []) || decide (v ≠ [])) = true := by
      by_cases h1 : t = []
      · simp [h1]
      · by_cases h2 : d = []
        · by_cases h3 : v = []
          · exact absurd ⟨h2, h3, h1⟩ h
          · simp [h3]
        · simp [h2]
    simp only [this, if_true]
    rfl

theorem joinDir_is (e : Env) (dp : Option Str) (d : Str) :
    Is (joinDir e dp d) (inDir e dp d) := by
  unfold joinDir inDir
  cases dp with
  | none => rfl
  | some b =>
    dsimp only
    cases e.join b d with
    | none => exact ⟨_, rfl⟩
    | some d => rfl

theorem wordAppend_is (e : Env) (c : Ctx) (ns : List FName) (w : Word) (p : Option Str)
    (ht : '%' ∉ w.text) (hp : atMostOne c.proj w.proj = some p) :
    Is (wordAppend e c ns p w.text (lastIdx isSep w.text))
      ((wordName e c w).map fun n => ns ++ [(n, false)]) := by
  unfold wordAppend wordName
  rw [atEnd_iff ht, hp]
  simp only [Option.bind_eq_bind, Option.bind_some]
  cases (if endsSlash w.text = true then e.exactDir w.text else none) with
  | none => exact appendName_is _ _ _ _ _
  | some d =>
    dsimp only
    have h := joinDir_is e c.dir d
    cases hd : inDir e c.dir d with
    | none => rw [hd] at h; exact fails_bind h
    | some x =>
      rw [hd] at h
      have h' : joinDir e c.dir d = .ok x := h
      rw [h']
      exact appendName_is _ _ _ _ _

theorem toDir_is (e : Env) (s : Str) : Is (toDir e s) (e.mkDir s) := by
  unfold toDir
  cases e.mkDir s with
  | none => exact ⟨_, rfl⟩
  | some d => rfl

theorem dir_is (e : Env) (c : Ctx) (s : Str) {β : Type} (k : Str → β) :
    Is (toDir e s >>= fun x => joinDir e c.dir x >>= fun d => .ok (k d))
      (((e.mkDir s).bind fun x => inDir e c.dir x).map k) := by
  have h1 := toDir_is e s
  cases hm : e.mkDir s with
  | none => rw [hm] at h1; exact fails_bind h1
  | some d' =>
    rw [hm] at h1
    have h1' : toDir e s = .ok d' := h1
    rw [h1']
    exact is_map (joinDir_is e c.dir d')

theorem lastIdx_none_of {t : Str} (h1 : '%' ∉ t) (h2 : '/' ∉ t) : lastIdx isSep t = none := by
  apply lastIdx_none
  intro x hx
  unfold isSep
  have hx1 : x ≠ '/' := fun h => h2 (h ▸ hx)
  have hx2 : x ≠ '%' := fun h => h1 (h ▸ hx)
  simp [hx1, hx2]

theorem wordPrefix_is (e : Env) (c : Ctx) (p : Pre) (j : Option Str)
    (hpt : ∀ t, p.type = some t → t ≠ [] ∧ '%' ∉ t ∧ '/' ∉ t)
    (hne : p.dir = none → p.type ≠ none)
    (hp : atMostOne c.proj p.proj = some j) :
    Is (wordPrefix e c j p.rest (lastIdx isSep p.rest)) (preCtx e c p) := by
  unfold preCtx
  rw [hp]
  simp only [Option.bind_eq_bind, Option.bind_some]
  unfold wordPrefix preDir
  cases hdir : p.dir with
  | none =>
    cases htype : p.type with
    | none => exact absurd htype (hne hdir)
    | some t =>
      obtain ⟨ht0, ht1, ht2⟩ := hpt t htype
      have hr : p.rest = t := by simp [Pre.rest, hdir, htype]
      rw [hr, lastIdx_none_of ht1 ht2]
      simp only [atEnd]
      cases hc : c.type with
      | none => rfl
      | some ct => exact ⟨_, rfl⟩
  | some d =>
    cases htype : p.type with
    | none =>
      have hr : p.rest = d ++ ['/'] := by simp [Pre.rest, hdir, htype]
      have hl : lastIdx isSep (d ++ ['/']) = some d.length := by
        rw [lastIdx_append]
        have : lastIdx isSep ['/'] = some 0 := by decide
        rw [this]; rfl
      have hend : atEnd (d ++ ['/']) (some d.length) = true := by
        simp [atEnd]
      have ha : atMostOne c.type none = some c.type := by
        unfold atMostOne; cases c.type <;> rfl
      rw [hr, hl, hend, ha]
      rw [if_neg (by simp)]
      simp only [if_true]
      have h := dir_is e c (d ++ ['/']) (fun d => (⟨j, some d, c.type⟩ : Ctx))
      cases hm : (e.mkDir (d ++ ['/'])).bind fun x => inDir e c.dir x with
      | none =>
        rw [hm] at h
        simp only [Option.bind_eq_bind]
        cases hm' : e.mkDir (d ++ ['/']) with
        | none => exact h
        | some y =>
          rw [hm'] at hm
          simp only [Option.bind_some] at hm ⊢
          rw [hm]
          exact h
      | some x =>
        rw [hm] at h
        simp only [Option.bind_eq_bind]
        cases hm' : e.mkDir (d ++ ['/']) with
        | none => rw [hm'] at hm; cases hm
        | some y =>
          rw [hm'] at hm
          simp only [Option.bind_some] at hm ⊢
          rw [hm]
          exact h
    | some t =>
      have hr : p.rest = d ++ '/' :: t := by simp [Pre.rest, hdir, htype]
      obtain ⟨ht0, ht1, ht2⟩ := hpt t htype
      have hl : lastIdx isSep (d ++ '/' :: t) = some d.length := by
        rw [lastIdx_append]
        have : lastIdx isSep ('/' :: t) = some 0 := by
          unfold lastIdx; rw [lastIdx_none_of ht1 ht2]; rfl
        rw [this]; rfl
      have hend : atEnd (d ++ '/' :: t) (some d.length) = false := by
        have : t.length ≠ 0 := by
          intro h; exact ht0 (List.eq_nil_of_length_eq_zero h)
        unfold atEnd
        apply decide_eq_false
        simp only [List.length_append, List.length_cons]
        omega
      rw [hr, hl, hend]
      have htake : (d ++ '/' :: t).take (d.length + 1) = d ++ ['/'] := by
        rw [List.take_append, List.take_of_length_le (by omega)]; simp
      have hdrop : (d ++ '/' :: t).drop (d.length + 1) = t := by
        rw [List.drop_append]; simp
      dsimp only
      rw [htake, hdrop]
      cases hc : c.type with
      | some ct =>
        rw [if_pos (by simp)]
        have : atMostOne (some ct) (some t) = none := rfl
        rw [this]
        simp only [Option.bind_eq_bind, Option.bind_none]
        cases ((e.mkDir (d ++ ['/'])).bind fun x => (inDir e c.dir x).bind fun d => some (some d)) with
        | none => exact ⟨_, rfl⟩
        | some x => exact ⟨_, rfl⟩
      | none =>
        rw [if_neg (by simp), if_neg (by simp)]
        have : atMostOne none (some t) = some (some t) := rfl
        rw [this]
        have h := dir_is e c (d ++ ['/']) (fun d => (⟨j, some d, some t⟩ : Ctx))
        cases hm' : e.mkDir (d ++ ['/']) with
        | none => rw [hm'] at h; exact h
        | some y =>
          rw [hm'] at h
          simp only [Option.bind_some, Option.bind_eq_bind] at h ⊢
          cases hm : inDir e c.dir y with
          | none => rw [hm] at h; exact h
          | some x => rw [hm] at h; exact h

end Verif.NameGroup
