import Verif.Json.CompareLemmas

/-! # JSON values: lemmas about append and prepend -/

namespace Verif.Json

/-! ## Numbers -/

theorem appendTo_spec (u s : BitVec 64) (hex : Bool)
    (h1 : -2 ^ 63 ≤ (u.toNat : Int) + s.toInt) (h2 : (u.toNat : Int) + s.toInt < 2 ^ 64)
    (hm : ¬ (u.toNat = 0 ∧ s.toInt = -2 ^ 63)) :
    ∃ n, appendTo u s hex = .ok n ∧ n.value = (u.toNat : Int) + s.toInt ∧ n.hex = hex := by
  have hs := toInt_cond s
  have ls := s.isLt
  have lu := u.isLt
  unfold appendTo
  by_cases h0 : s.toInt < 0
  · rw [if_pos h0]
    generalize ha : (if s ≠ BitVec.intMin 64 then -s else BitVec.intMax 64 + 1#64) = a
    have hav : a.toNat = 2 ^ 64 - s.toNat := by
      subst ha
      split
      · rw [BitVec.toNat_neg, Nat.mod_eq_of_lt]
        split at hs <;> omega
      · rename_i h
        rw [ne_eq, Classical.not_not] at h
        subst h
        decide
    have hs' : s.toInt = (s.toNat : Int) - 2 ^ 64 := by split at hs <;> omega
    simp only
    by_cases hu : u.toNat ≥ a.toNat
    · rw [if_pos hu]
      refine ⟨_, rfl, ?_, rfl⟩
      simp only [Num.value, Bool.false_eq_true, if_false]
      rw [BitVec.toNat_sub_of_le (by rw [BitVec.le_def]; omega)]
      omega
    · rw [if_neg hu]
      have hd : (a - u).toNat = a.toNat - u.toNat :=
        BitVec.toNat_sub_of_le (by rw [BitVec.le_def]; omega)
      have hne : ¬ (a - u = BitVec.intMin 64) := by
        intro e
        rw [e] at hd
        have : (BitVec.intMin 64).toNat = 2 ^ 63 := by decide
        split at hs <;> omega
      rw [if_neg hne]
      refine ⟨_, rfl, ?_, rfl⟩
      simp only [Num.value, if_true]
      have hn := toInt_cond (-(a - u))
      have hnn : (-(a - u)).toNat = 2 ^ 64 - (a.toNat - u.toNat) := by
        rw [BitVec.toNat_neg, hd, Nat.mod_eq_of_lt]
        omega
      rw [hn, hnn]
      have : ¬ (2 ^ 64 - (a.toNat - u.toNat) < 2 ^ 63) := by
        split at hs
        · omega
        · intro hlt
          omega
      rw [if_neg this]
      omega
  · rw [if_neg h0]
    refine ⟨_, rfl, ?_, rfl⟩
    simp only [Num.value, Bool.false_eq_true, if_false]
    rw [BitVec.toNat_add_of_lt] <;> split at hs <;> omega

theorem appendNumbers_spec (l r : Num) (h1 : -2 ^ 63 ≤ l.value + r.value)
    (h2 : l.value + r.value < 2 ^ 64) (hh : ¬ (r.hex = true ∧ r.value < 0))
    (hm : ¬ (l.value = 0 ∧ r.value = -2 ^ 63) ∧ ¬ (l.value = -2 ^ 63 ∧ r.value = 0)) :
    ∃ n, appendNumbers l r = .ok n ∧ n.value = l.value + r.value ∧ n.hex = l.hex := by
  obtain ⟨sl, xl, l⟩ := l
  obtain ⟨sr, xr, r⟩ := r
  have hl := toInt_cond l
  have hr := toInt_cond r
  have ll := l.isLt
  have lr := r.isLt
  cases sl <;> cases sr <;> simp only [Num.value, Bool.false_eq_true, if_false, if_true] at * <;>
    simp only [appendNumbers, Bool.false_eq_true, if_false, if_true, Bool.false_and, Bool.true_and]
  · -- unsigned, unsigned
    refine ⟨_, rfl, ?_, rfl⟩
    simp only [Bool.false_eq_true, if_false]
    rw [BitVec.toNat_add_of_lt (by omega)]
    omega
  · -- unsigned, signed
    cases xr
    · simp only [Bool.not_false, if_true]
      have := appendTo_spec l r xl h1 h2 (by omega)
      exact this
    · simp only [Bool.not_true, Bool.false_eq_true, if_false]
      simp at hh
      refine ⟨_, rfl, ?_, rfl⟩
      simp only [Bool.false_eq_true, if_false]
      rw [BitVec.toNat_add_of_lt] <;> split at hr <;> omega
  · -- signed, unsigned
    obtain ⟨n, e1, e2, e3⟩ := appendTo_spec r l xl (by omega) (by omega) (by omega)
    exact ⟨n, e1, by simp only [Num.value] at e2; rw [e2]; omega, e3⟩
  · -- signed, signed
    cases xr
    · simp only [Bool.not_false, if_true]
      by_cases hl0 : l.toInt ≥ 0
      · rw [if_pos hl0]
        have e : l.toInt = l.toNat := by split at hl <;> omega
        obtain ⟨n, e1, e2, e3⟩ := appendTo_spec l r xl (by omega) (by omega) (by omega)
        exact ⟨n, e1, by simp only [Num.value] at e2; rw [e2]; omega, e3⟩
      · rw [if_neg hl0]
        by_cases hr0 : r.toInt ≥ 0
        · rw [if_pos hr0]
          have e : r.toInt = r.toNat := by split at hr <;> omega
          obtain ⟨n, e1, e2, e3⟩ := appendTo_spec r l xl (by omega) (by omega) (by omega)
          exact ⟨n, e1, by simp only [Num.value] at e2; rw [e2]; omega, e3⟩
        · rw [if_neg hr0, if_neg (by omega)]
          refine ⟨_, rfl, ?_, rfl⟩
          simp only [if_true]
          have hn := toInt_cond (l + r)
          have hnn : (l + r).toNat = l.toNat + r.toNat - 2 ^ 64 := by
            rw [BitVec.toNat_add]
            split at hl <;> split at hr <;> omega
          rw [hn, hnn]
          split at hl <;> split at hr <;> (try omega)
    · simp only [Bool.not_true, Bool.false_eq_true, if_false]
      simp at hh
      have e : r.toInt = r.toNat := by split at hr <;> omega
      obtain ⟨n, e1, e2, e3⟩ := appendTo_spec r l xl (by omega) (by omega) (by omega)
      exact ⟨n, e1, by simp only [Num.value] at e2; rw [e2]; omega, e3⟩

/-! ## Objects -/

theorem any_iff {o : List (Str × Value)} {n : Str} :
    o.any (fun x => n == x.1) = true ↔ n ∈ o.map (·.1) := by
  rw [List.any_eq_true, List.mem_map]
  constructor
  · rintro ⟨x, hx, e⟩; exact ⟨x, hx, (by simpa using e : n = x.1).symm⟩
  · rintro ⟨x, hx, e⟩; exact ⟨x, hx, by simp [e]⟩

theorem names_assign (n : Str) (v : Value) (o : List (Str × Value)) :
    (assign n v o).map (·.1) = o.map (·.1) := by
  induction o with
  | nil => rfl
  | cons x o ih =>
    obtain ⟨k, w⟩ := x
    simp only [assign]
    split <;> simp [ih]

theorem member_cons (x : Str × Value) (o : List (Str × Value)) (n : Str) :
    member (x :: o) n = if x.1 = n then some x.2 else member o n := by
  unfold member
  rw [List.find?_cons]
  by_cases h : x.1 = n
  · simp [h]
  · have : (x.1 == n) = false := by simpa using h
    rw [this, if_neg h]

theorem member_assign (n k : Str) (v : Value) (o : List (Str × Value)) (h : n ∈ o.map (·.1)) :
    member (assign n v o) k = if n = k then some v else member o k := by
  induction o with
  | nil => cases h
  | cons x o ih =>
    obtain ⟨i, w⟩ := x
    simp only [assign]
    by_cases hi : n = i
    · subst hi
      simp only [beq_self_eq_true, if_true, member_cons]
      by_cases hk : n = k <;> simp [hk]
    · have : (n == i) = false := by simpa using hi
      simp only [this, Bool.false_eq_true, if_false, member_cons]
      simp only [List.map_cons, List.mem_cons, hi, false_or] at h
      rw [ih h]
      by_cases hk : i = k
      · subst hk
        simp [hi]
      · simp [hk]

theorem member_append (o p : List (Str × Value)) (n : Str) :
    member (o ++ p) n = (member o n).or (member p n) := by
  induction o with
  | nil => simp [member]
  | cons x o ih =>
    rw [List.cons_append, member_cons, member_cons, ih]
    split <;> simp

theorem member_merge1 (front override : Bool) (o : List (Str × Value)) (m : Str × Value) (n : Str) :
    member (merge1 front override o m) n =
      if m.1 = n then (if override then some m.2 else (member o n).or (some m.2))
      else member o n := by
  unfold merge1
  by_cases h : o.any (fun x => m.1 == x.1) = true
  · rw [if_pos h]
    rw [any_iff] at h
    cases override
    · simp only [Bool.false_eq_true, if_false]
      by_cases hn : m.1 = n
      · subst hn
        rw [if_pos rfl]
        cases hm : member o m.1 with
        | none => rw [member_none_iff] at hm; exact absurd h hm
        | some v => rfl
      · rw [if_neg hn]
    · simp only [if_true]
      exact member_assign _ _ _ _ h
  · rw [if_neg h]
    rw [any_iff] at h
    have hnone := member_none_iff.mpr h
    cases front
    · simp only [Bool.false_eq_true, if_false]
      rw [member_append, member_cons]
      by_cases hn : m.1 = n
      · subst hn
        rw [hnone]
        simp
      · simp [hn, member]
    · simp only [if_true]
      rw [member_cons]
      by_cases hn : m.1 = n
      · subst hn
        rw [hnone]
        simp
      · simp [hn]

theorem member_foldl (front override : Bool) {o v : List (Str × Value)}
    (hv : (v.map (·.1)).Nodup) (n : Str) :
    member (v.foldl (merge1 front override) o) n =
      if override then (member v n).or (member o n) else (member o n).or (member v n) := by
  induction v generalizing o with
  | nil => cases override <;> simp [member]
  | cons x v ih =>
    simp only [List.map_cons, List.nodup_cons] at hv
    rw [List.foldl_cons, ih hv.2, member_merge1, member_cons]
    by_cases hn : x.1 = n
    · subst hn
      have : member v x.1 = none := member_none_iff.mpr hv.1
      rw [this]
      cases override <;> simp
    · simp [hn]

theorem names_merge1 (front override : Bool) (o : List (Str × Value)) (m : Str × Value) :
    (merge1 front override o m).map (·.1) =
      if m.1 ∈ o.map (·.1) then o.map (·.1)
      else if front then m.1 :: o.map (·.1) else o.map (·.1) ++ [m.1] := by
  unfold merge1
  by_cases h : o.any (fun x => m.1 == x.1) = true
  · rw [if_pos h, if_pos (any_iff.mp h)]
    split
    · exact names_assign _ _ _
    · rfl
  · rw [if_neg h, if_neg (fun e => h (any_iff.mpr e))]
    split <;> simp

theorem nodup_foldl (front override : Bool) (v o : List (Str × Value)) (h : (o.map (·.1)).Nodup) :
    ((v.foldl (merge1 front override) o).map (·.1)).Nodup := by
  induction v generalizing o with
  | nil => exact h
  | cons x v ih =>
    rw [List.foldl_cons]
    apply ih
    rw [names_merge1]
    split
    · exact h
    · rename_i hx
      split
      · exact List.nodup_cons.mpr ⟨hx, h⟩
      · rw [List.nodup_append]
        refine ⟨h, by simp, ?_⟩
        intro a ha b hb e
        simp at hb
        subst hb; subst e
        exact hx ha

theorem mem_assign {n : Str} {v : Value} {o : List (Str × Value)} {z : Str × Value}
    (h : z ∈ assign n v o) : z ∈ o ∨ z.2 = v := by
  induction o with
  | nil => cases h
  | cons x o ih =>
    obtain ⟨k, w⟩ := x
    simp only [assign] at h
    split at h
    · simp only [List.mem_cons] at h ⊢
      rcases h with rfl | h
      · exact .inr rfl
      · exact .inl (.inr h)
    · simp only [List.mem_cons] at h ⊢
      rcases h with rfl | h
      · exact .inl (.inl rfl)
      · rcases ih h with h | h
        · exact .inl (.inr h)
        · exact .inr h

theorem mem_foldl (front override : Bool) (v o : List (Str × Value)) (z : Str × Value)
    (h : z ∈ v.foldl (merge1 front override) o) : z ∈ o ∨ z ∈ v ∨ ∃ k, (k, z.2) ∈ v := by
  induction v generalizing o with
  | nil => exact .inl h
  | cons x v ih =>
    rw [List.foldl_cons] at h
    rcases ih _ h with h | h | ⟨k, h⟩
    · unfold merge1 at h
      split at h
      · split at h
        · rcases mem_assign h with h | h
          · exact .inl h
          · exact .inr (.inr ⟨x.1, by rw [h]; simp⟩)
        · exact .inl h
      · split at h
        · simp only [List.mem_cons] at h
          rcases h with rfl | h
          · exact .inr (.inl (by simp))
          · exact .inl h
        · simp only [List.mem_append, List.mem_singleton] at h
          rcases h with h | rfl
          · exact .inl h
          · exact .inr (.inl (by simp))
    · exact .inr (.inl (by simp [h]))
    · exact .inr (.inr ⟨k, by simp [h]⟩)

theorem filter_new {v : List Str} {o : List Str} {n : Str} (hn : n ∉ v)
    (p : List Str) (hp : ∀ x, x ∈ p ↔ x = n ∨ x ∈ o) :
    v.filter (fun x => !p.contains x) = v.filter (fun x => !o.contains x) := by
  apply List.filter_congr
  intro x hx
  have hxn : x ≠ n := by rintro rfl; exact hn hx
  have : x ∈ p ↔ x ∈ o := by rw [hp]; simp [hxn]
  rw [Bool.eq_iff_iff]
  simp [this]

theorem names_append (override : Bool) {o v : List (Str × Value)} (hv : (v.map (·.1)).Nodup) :
    (v.foldl (merge1 false override) o).map (·.1) =
      o.map (·.1) ++ (v.map (·.1)).filter (fun n => !(o.map (·.1)).contains n) := by
  induction v generalizing o with
  | nil => simp
  | cons x v ih =>
    simp only [List.map_cons, List.nodup_cons] at hv
    rw [List.foldl_cons, ih hv.2, names_merge1]
    by_cases h : x.1 ∈ o.map (·.1)
    · rw [if_pos h, List.map_cons, List.filter_cons_of_neg (by simpa using h)]
    · rw [if_neg h, List.map_cons, List.filter_cons_of_pos (by simpa using h)]
      simp only [Bool.false_eq_true, if_false]
      rw [filter_new hv.1 (o.map (·.1) ++ [x.1]) (o := o.map (·.1))
        (by intro y; simp [or_comm])]
      simp

theorem names_prepend (override : Bool) {o v : List (Str × Value)} (hv : (v.map (·.1)).Nodup) :
    (v.foldl (merge1 true override) o).map (·.1) =
      ((v.map (·.1)).filter (fun n => !(o.map (·.1)).contains n)).reverse ++ o.map (·.1) := by
  induction v generalizing o with
  | nil => simp
  | cons x v ih =>
    simp only [List.map_cons, List.nodup_cons] at hv
    rw [List.foldl_cons, ih hv.2, names_merge1]
    by_cases h : x.1 ∈ o.map (·.1)
    · rw [if_pos h, List.map_cons, List.filter_cons_of_neg (by simpa using h)]
    · rw [if_neg h, List.map_cons, List.filter_cons_of_pos (by simpa using h)]
      simp only [if_true]
      rw [filter_new hv.1 (x.1 :: o.map (·.1)) (o := o.map (·.1))
        (by intro y; simp)]
      simp

end Verif.Json
