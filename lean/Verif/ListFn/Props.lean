import Verif.ListFn.Lemmas

/-! # Sequences and sorting: properties -/

namespace Verif.ListFn

/-- `$integer_sequence()` gives the sequence, exactly if some number of it that isn't less than the end can
be represented. That it always does is false, see `sequence_endless`, `sequence_wrong` and `step_zero`. -/
theorem sequence_partial (b e s : Nat) (hb : b < max64) (hs : s < max64) (h0 : s ≠ 0) :
    (∃ k r, integerSequence b e (some s) k = .ok (some r) ∧ Sequence b e s r) ↔
      e ≤ b ∨ ∃ n, e ≤ b + n * s ∧ b + n * s < max64 := by
  unfold integerSequence
  rw [Option.getD_some]
  constructor
  · rintro ⟨k, r, h, ha, _⟩
    split at h
    · exact .inr (seqLoop_ascending hs k b r hb (Except.ok.inj h) ha)
    · rename_i hn
      exact .inl (Nat.le_of_not_lt hn)
  · intro h
    by_cases hbe : b < e
    · simp only [if_pos hbe, if_neg h0]
      have hex : ∃ n, e ≤ b + n * s ∧ b + n * s < max64 := h.resolve_left (by omega)
      obtain ⟨n, h1, h2⟩ := hex
      -- The least such number.
      have hleast : ∃ n, e ≤ b + n * s ∧ b + n * s < max64 ∧ ∀ m, m < n → b + m * s < e := by
        induction n with
        | zero => exact ⟨0, h1, h2, nofun⟩
        | succ n ih =>
          by_cases hn : e ≤ b + n * s
          · refine ih hn ?_
            rw [Nat.succ_mul] at h2
            omega
          · refine ⟨n + 1, h1, h2, fun m hm => ?_⟩
            have : m * s ≤ n * s := Nat.mul_le_mul_right _ (by omega)
            omega
      obtain ⟨n, h1, h2, h3⟩ := hleast
      obtain ⟨r, h4, h5⟩ := seqLoop_ends h0 n b h1 h2 h3
      exact ⟨n + 1, r, by rw [h4], h5⟩
    · simp only [if_neg hbe]
      refine ⟨0, [], rfl, .nil, fun n => ⟨nofun, fun ⟨h, k, hk⟩ => ?_⟩⟩
      have : b ≤ n := hk ▸ Nat.le_add_right _ _
      omega

/-- With the default step, and always if the end and the step add up to no more than can be represented, the
sequence is what one gets. -/
theorem sequence_usual (b e : Nat) (step : Option Nat) (hb : b < max64) (h0 : step ≠ some 0)
    (he : e + step.getD 1 ≤ max64) :
    ∃ k r, integerSequence b e step k = .ok (some r) ∧ Sequence b e (step.getD 1) r := by
  have hd : ∀ k, integerSequence b e step k = integerSequence b e (some (step.getD 1)) k := by
    intro k; cases step <;> rfl
  have hs : step.getD 1 ≠ 0 := by
    cases step with
    | none => decide
    | some s => intro h; exact h0 (congrArg some h)
  simp only [hd]
  generalize step.getD 1 = s at *
  by_cases hbe : e ≤ b
  · unfold integerSequence
    simp only [Option.getD_some, if_neg (Nat.not_lt.2 hbe)]
    refine ⟨0, [], rfl, .nil, fun n => ⟨nofun, fun ⟨h, k, hk⟩ => ?_⟩⟩
    have : b ≤ n := hk ▸ Nat.le_add_right _ _
    omega
  · by_cases hsm : s < max64
    · refine (sequence_partial b e s hb hsm hs).2 (.inr ⟨(e - b - 1) / s + 1, ?_⟩)
      have h1 := Nat.div_add_mod (e - b - 1) s
      have h2 := Nat.mod_lt (e - b - 1) (Nat.pos_of_ne_zero hs)
      rw [Nat.mul_comm] at h1
      rw [Nat.succ_mul]
      omega
    · omega

/-- There is only one result. -/
theorem sequence_unique (b e : Nat) (step : Option Nat) (k j : Nat) (r q : List Nat)
    (h : integerSequence b e step k = .ok (some r)) (h' : integerSequence b e step j = .ok (some q)) : r = q := by
  unfold integerSequence at h h'
  split at h
  · rename_i hb
    rw [if_pos hb] at h'
    split at h
    · cases h
    · rename_i hs
      rw [if_neg hs] at h'
      exact seqLoop_unique (Except.ok.inj h) (Except.ok.inj h')
  · rename_i hb
    rw [if_neg hb] at h'
    cases h; cases h'; rfl

/-- The step wraps around and the loop never ends: `$integer_sequence(0, 18446744073709551615, 2)`. -/
theorem sequence_endless (k : Nat) : integerSequence 0 18446744073709551615 (some 2) k = .ok none := by
  have h : ∀ k b, b % 2 = 0 → b < max64 → seqLoop 18446744073709551615 2 k b = none := by
    intro k
    induction k with
    | zero => intros; rfl
    | succ k ih =>
      intro b h1 h2
      have hm : max64 = 18446744073709551616 := rfl
      rw [seqLoop, if_pos (by omega), ih _ (by rw [hm]; omega) (Nat.mod_lt _ (by decide))]
      rfl
  have := h k 0 rfl (by decide)
  unfold integerSequence
  rw [Option.getD_some, if_pos (by decide), if_neg (by decide), this]

/-- It wraps around and ends with a number that isn't in the sequence:
`$integer_sequence(1, 18446744073709551614, 18446744073709551615)`. -/
theorem sequence_wrong : ∃ k r,
    integerSequence 1 18446744073709551614 (some 18446744073709551615) k = .ok (some r) ∧
    ¬ Sequence 1 18446744073709551614 18446744073709551615 r :=
  ⟨3, [1, 0], rfl, fun h => by
    obtain ⟨_, k, hk⟩ := (h.2 0).1 (by simp)
    omega⟩

/-- A step of 0 is a division by 0, unless the sequence is empty. -/
theorem step_zero (b e k : Nat) : integerSequence b e (some 0) k = .error .divideByZero ↔ b < e := by
  unfold integerSequence
  rw [Option.getD_some]
  by_cases h : b < e
  · simp [h]
  · simp [h]

variable {α : Type}

/-- `$sort()` with `dedup`: ascending, with exactly one of the elements that are equivalent to any element of
the list. -/
theorem sort_dedup (le : α → α → Bool) (srt : List α → List α) (ho : Ordering le) (hs : Sorts le srt)
    (l : List α) (fs : List String) (hf : ∀ f ∈ fs, f = "dedup") (hd : "dedup" ∈ fs) :
    ∃ r, sort le srt l fs = .ok r ∧ r.Pairwise (fun x y => le x y = true ∧ le y x = false) ∧
      (∀ x ∈ r, x ∈ l) ∧ ∀ x ∈ l, ∃ y ∈ r, le x y = true ∧ le y x = true := by
  obtain ⟨h1, h2⟩ := hs l
  unfold sort
  rw [sortFlags_spec fs hf]
  simp only [List.contains_iff_mem.2 hd]
  refine ⟨_, rfl, ?_⟩
  simp only [if_true]
  cases e : srt l with
  | nil =>
    rw [e] at h1
    rw [← h1.nil_eq]
    exact ⟨.nil, fun x hx => (nomatch hx), fun x hx => (nomatch hx)⟩
  | cons a v =>
    rw [e] at h1 h2
    obtain ⟨h3, h4⟩ := uniqueFrom_spec ho v a h2
    exact ⟨h3, fun x hx => h1.mem_iff.1 (uniqueFrom_sub v a x hx), fun x hx => h4 x (h1.mem_iff.2 hx)⟩

/-- `$sort()` without it: all elements, as often as they are there. -/
theorem sort_plain (le : α → α → Bool) (srt : List α → List α) (hs : Sorts le srt) (l : List α) :
    ∃ r, sort le srt l [] = .ok r ∧ r.Perm l ∧ r.Pairwise (fun x y => le x y = true) :=
  ⟨_, rfl, hs l⟩

/-- Any other flag is an error. -/
theorem sort_flag (le leIc : α → α → Bool) (srt srtIc : List α → List α) (l : List α) (fs : List String) :
    ((∃ f ∈ fs, f ≠ "dedup") → ∃ e, sort le srt l fs = .error e) ∧
    ((∃ f ∈ fs, f ≠ "icase" ∧ f ≠ "dedup") → ∃ e, sortStrings le leIc srt srtIc l fs = .error e) := by
  constructor
  · intro h
    obtain ⟨e, he⟩ := sortFlags_error fs h
    unfold sort
    rw [he]
    exact ⟨e, rfl⟩
  · intro h
    obtain ⟨e, he⟩ := stringFlags_error fs h
    unfold sortStrings
    rw [he]
    exact ⟨e, rfl⟩

/-- `$sort()` of strings: as above, in the order and up to the equivalence that `icase` says. -/
theorem sort_strings (le leIc : α → α → Bool) (srt srtIc : List α → List α) (ho : Ordering le)
    (hoIc : Ordering leIc) (hs : Sorts le srt) (hsIc : Sorts leIc srtIc) (l : List α) (fs : List String)
    (hf : ∀ f ∈ fs, f = "icase" ∨ f = "dedup") :
    ∃ r o, sortStrings le leIc srt srtIc l fs = .ok r ∧ o = (if "icase" ∈ fs then leIc else le) ∧
      ("dedup" ∉ fs → r.Perm l ∧ r.Pairwise (fun x y => o x y = true)) ∧
      ("dedup" ∈ fs → r.Pairwise (fun x y => o x y = true ∧ o y x = false) ∧
        (∀ x ∈ r, x ∈ l) ∧ ∀ x ∈ l, ∃ y ∈ r, o x y = true ∧ o y x = true) := by
  unfold sortStrings
  rw [stringFlags_spec fs hf]
  simp only [← List.contains_iff_mem]
  by_cases hd : fs.contains "dedup" = true
  · have hd' : fs.contains "dedup" = true := hd
    cases hi : fs.contains "icase" with
    | true =>
      obtain ⟨r, h1, h2⟩ := sort_dedup leIc srtIc hoIc hsIc l ["dedup"] (by simp) (by simp)
      refine ⟨r, leIc, ?_, by simp, fun h => absurd hd' h, fun _ => h2⟩
      rw [hd']
      exact h1
    | false =>
      obtain ⟨r, h1, h2⟩ := sort_dedup le srt ho hs l ["dedup"] (by simp) (by simp)
      refine ⟨r, le, ?_, by simp, fun h => absurd hd' h, fun _ => h2⟩
      rw [hd']
      exact h1
  · have hd' : fs.contains "dedup" = false := Bool.eq_false_iff.2 hd
    rw [hd']
    cases hi : fs.contains "icase" with
    | true => exact ⟨_, leIc, rfl, by simp, fun _ => hsIc l, nofun⟩
    | false => exact ⟨_, le, rfl, by simp, fun _ => hs l, nofun⟩

/-! Cases that meet the hypotheses. -/

example : (integerSequence 3 10 (some 3) 9).toOption = some (some [3, 6, 9]) ∧
    (integerSequence 3 3 none 9).toOption = some (some []) := by decide +kernel

example : Ordering (fun x y : Nat => decide (x ≤ y)) where
  total x y := by simpa using Nat.le_total x y
  trans x y z h1 h2 := by simp at *; omega

example : Sorts (fun x y : Nat => decide (x ≤ y)) (·.mergeSort) := fun l =>
  ⟨List.mergeSort_perm l _, List.pairwise_mergeSort (fun _ _ _ h1 h2 => by simp at *; omega)
    (fun x y => by simpa using Nat.le_total x y) l⟩

example : (sort (fun x y : Nat => decide (x ≤ y)) (fun _ => [1, 1, 2, 3, 3]) [3, 1, 2, 1, 3] ["dedup"]).toOption =
    some [1, 2, 3] := by decide +kernel

end Verif.ListFn
