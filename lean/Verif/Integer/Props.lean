import Verif.Integer.Lemmas

/-!
# Integer values: properties

C39 Integer values round trip; C45 Integer sequences.
-/

namespace Verif.Integer

/-! ## C39 -/

/-- A simple name with this value. -/
def simpleName (v : List Char) : Nm := ⟨false, false, true, v⟩

/-- Text is converted to a signed integer exactly if it is entirely a number in range
and the result is that number. -/
theorem int_accepts {w : Char → Bool} (hw : ∀ c, w c = isSpace c) (v : List Char) (x : BitVec 64) :
    convertInt w (simpleName v) = some x ↔ SignedText v x.toInt := by
  have hx1 := BitVec.le_toInt x
  have hx2 := BitVec.toInt_lt (x := x)
  simp at hx1 hx2
  unfold convertInt simpleName
  simp only [Bool.not_false, Bool.and_self, if_true, hw]
  by_cases hs : isSpace (at' v 0) = true
  · rw [if_pos hs]
    simp only [reduceCtorEq, false_iff]
    rintro (⟨n, (h | ⟨m, rfl, h⟩), _⟩ | ⟨m, n, rfl, h, _⟩)
    · obtain ⟨c, u, rfl, h1, _⟩ := magnitude_head h
      simp [at', h1] at hs
    · simp [at', isSpace] at hs
    · simp [at', isSpace] at hs
  · rw [if_neg hs, check_end]
    rcases forms v (by simpa using hs) with ⟨t, rfl, hsg, hb⟩ | ⟨t, rfl, hsg, hb⟩ | ⟨h1, h2, hsg, hb⟩
    · have e0 : at' ('-' :: t) 0 = '-' := rfl
      simp only [e0, true_or, if_true]
      obtain ⟨b1, b2⟩ := strto_body _ true 1 t rfl hsg hb (by simp)
      rw [stoll_end (fun neg' m r h => strto_neg hsg h) b1]
      simp only [b2, if_true]
      constructor
      · rintro ⟨m, hm, hr, rfl⟩
        refine .inr ⟨t, m, rfl, hm, ?_⟩
        rw [BitVec.toInt_ofInt, Int.bmod_eq_of_le] <;> omega
      · rintro (⟨n, (h | ⟨m, h, _⟩), _⟩ | ⟨m, n, h, hm, e⟩)
        · obtain ⟨c, u, h, _, h3, _⟩ := magnitude_head h
          cases h; exact absurd rfl h3
        · cases h
        · cases h
          refine ⟨n, hm, by omega, ?_⟩
          rw [← e, BitVec.ofInt_toInt]
    · have e0 : at' ('+' :: t) 0 = '+' := rfl
      simp only [e0, or_true, if_true]
      obtain ⟨b1, b2⟩ := strto_body _ false 1 t rfl hsg hb (by simp)
      rw [stoll_end (fun neg' m r h => strto_neg hsg h) b1]
      simp only [b2, Bool.false_eq_true, if_false]
      constructor
      · rintro ⟨m, hm, hr, rfl⟩
        refine .inl ⟨m, .inr ⟨t, rfl, hm⟩, ?_⟩
        rw [BitVec.toInt_ofInt, Int.bmod_eq_of_le] <;> omega
      · rintro (⟨n, (h | ⟨m, h, hm⟩), e⟩ | ⟨m, n, h, _, _⟩)
        · obtain ⟨c, u, h, _, _, h3, _⟩ := magnitude_head h
          cases h; exact absurd rfl h3
        · cases h
          refine ⟨n, hm, by omega, ?_⟩
          rw [← e, BitVec.ofInt_toInt]
        · cases h
    · simp only [h1, h2, or_self, if_false]
      obtain ⟨b1, b2⟩ := strto_body v false 0 v rfl hsg hb (by simp)
      rw [stoll_end (fun neg' m r h => strto_neg hsg h) b1]
      simp only [b2, Bool.false_eq_true, if_false]
      constructor
      · rintro ⟨m, hm, hr, rfl⟩
        refine .inl ⟨m, .inl hm, ?_⟩
        rw [BitVec.toInt_ofInt, Int.bmod_eq_of_le] <;> omega
      · rintro (⟨n, (h | ⟨m, rfl, hm⟩), e⟩ | ⟨m, n, rfl, _, _⟩)
        · refine ⟨n, h, by omega, ?_⟩
          rw [← e, BitVec.ofInt_toInt]
        · exact absurd rfl h2
        · exact absurd rfl h1

/-- Text is converted to an unsigned integer exactly if it is entirely a non-negative
number in range and the result is that number. -/
theorem uint_accepts {w : Char → Bool} (hw : ∀ c, w c = isSpace c) (v : List Char) (x : BitVec 64) :
    convertUint w (simpleName v) = some x ↔ UnsignedText v x.toNat := by
  have hx := x.isLt
  unfold convertUint simpleName
  simp only [Bool.not_false, Bool.and_self, if_true, hw]
  by_cases hs : isSpace (at' v 0) = true
  · rw [if_pos (by simp [hs])]
    simp only [reduceCtorEq, false_iff]
    rintro (h | ⟨m, rfl, h⟩)
    · obtain ⟨c, u, rfl, h1, _⟩ := magnitude_head h
      simp [at', h1] at hs
    · simp [at', isSpace] at hs
  · rcases forms v (by simpa using hs) with ⟨t, rfl, hsg, hb⟩ | ⟨t, rfl, hsg, hb⟩ | ⟨h1, h2, hsg, hb⟩
    · have e0 : at' ('-' :: t) 0 = '-' := rfl
      rw [if_pos (by simp [e0])]
      simp only [reduceCtorEq, false_iff]
      rintro (h | ⟨m, h, _⟩)
      · obtain ⟨c, u, h, _, h3, _⟩ := magnitude_head h
        cases h; exact absurd rfl h3
      · cases h
    · have e0 : at' ('+' :: t) 0 = '+' := rfl
      rw [if_neg (by rw [e0]; decide)]
      simp only [e0, if_true]
      rw [check_end]
      obtain ⟨b1, b2⟩ := strto_body _ false 1 t rfl hsg hb (by simp)
      rw [stoull_end (fun neg' m r h => strto_neg hsg h) b1]
      simp only [b2]
      constructor
      · rintro ⟨m, hm, hr, rfl⟩
        refine .inr ⟨t, rfl, ?_⟩
        rwa [BitVec.toNat_ofNat, Nat.mod_eq_of_lt hr]
      · rintro (h | ⟨m, h, hm⟩)
        · obtain ⟨c, u, h, _, _, h3, _⟩ := magnitude_head h
          cases h; exact absurd rfl h3
        · cases h
          exact ⟨x.toNat, hm, hx, by simp⟩
    · rw [if_neg (by simp [hs, h1])]
      simp only [h2, if_false]
      rw [check_end]
      obtain ⟨b1, b2⟩ := strto_body v false 0 v rfl hsg hb (by simp)
      rw [stoull_end (fun neg' m r h => strto_neg hsg h) b1]
      simp only [b2]
      constructor
      · rintro ⟨m, hm, hr, rfl⟩
        refine .inl ?_
        rwa [BitVec.toNat_ofNat, Nat.mod_eq_of_lt hr]
      · rintro (h | ⟨m, rfl, hm⟩)
        · exact ⟨x.toNat, h, hx, by simp⟩
        · exact absurd rfl h2

/-- Other text, including that of a number out of range, is rejected. -/
theorem rejects {w : Char → Bool} (hw : ∀ c, w c = isSpace c) (v : List Char) :
    (convertInt w (simpleName v) = none ↔ ¬ ∃ i : Int, SignedText v i ∧ -2 ^ 63 ≤ i ∧ i < 2 ^ 63) ∧
    (convertUint w (simpleName v) = none ↔ ¬ ∃ n : Nat, UnsignedText v n ∧ n < 2 ^ 64) := by
  constructor
  · rw [Option.eq_none_iff_forall_ne_some]
    constructor
    · rintro h ⟨i, ht, h1, h2⟩
      refine h (BitVec.ofInt 64 i) ?_
      rw [int_accepts hw, BitVec.toInt_ofInt, Int.bmod_eq_of_le] <;> first | exact ht | omega
    · intro h x hx
      rw [int_accepts hw] at hx
      have hx1 := BitVec.le_toInt x
      have hx2 := BitVec.toInt_lt (x := x)
      simp at hx1 hx2
      exact h ⟨_, hx, by omega, by omega⟩
  · rw [Option.eq_none_iff_forall_ne_some]
    constructor
    · rintro h ⟨n, ht, h1⟩
      refine h (BitVec.ofNat 64 n) ?_
      rwa [uint_accepts hw, BitVec.toNat_ofNat, Nat.mod_eq_of_lt h1]
    · intro h x hx
      rw [uint_accepts hw] at hx
      exact h ⟨_, hx, x.isLt⟩

/-- Pairs, patterns and names that are not simple are rejected. -/
theorem rejects_names (w : Char → Bool) (n : Nm)
    (h : n.paired = true ∨ n.pattern = true ∨ n.simple = false) :
    convertInt w n = none ∧ convertUint w n = none := by
  have : (!n.paired && !n.pattern && n.simple) = false := by
    rcases h with h | h | h <;> simp [h]
  unfold convertInt convertUint
  simp [this]

theorem magnitude_dec {ds : List Char} (h1 : ∀ c ∈ ds, IsDigit .dec c) (h2 : ds ≠ []) :
    Magnitude ds (positional .dec ds) := ⟨.dec, [], ds, rfl, h2, h1, rfl, rfl⟩

theorem magnitude_hex {ds : List Char} (h1 : ∀ c ∈ ds, IsDigit .hex c) (h2 : ds ≠ []) :
    Magnitude (['0', 'x'] ++ ds) (positional .hex ds) :=
  ⟨.hex, ['0', 'x'], ds, .inl rfl, h2, h1, rfl, rfl⟩

/-- A signed integer survives conversion to text and back. -/
theorem int_round_trip {w : Char → Bool} (hw : ∀ c, w c = isSpace c) (x : BitVec 64) :
    convertInt w (simpleName (toStringI x)) = some x := by
  rw [int_accepts hw]
  have hx1 := BitVec.le_toInt x
  have hx2 := BitVec.toInt_lt (x := x)
  simp at hx1 hx2
  obtain ⟨h1, h2, h3⟩ := decDigits_spec 19 x.toInt.natAbs (by omega)
  have hm := magnitude_dec h2 h3
  rw [h1] at hm
  unfold toStringI
  split
  · exact .inr ⟨_, _, rfl, hm, by omega⟩
  · exact .inl ⟨_, .inl hm, by omega⟩

/-- An unsigned integer survives conversion to text and back. -/
theorem uint_round_trip {w : Char → Bool} (hw : ∀ c, w c = isSpace c) (x : BitVec 64) :
    convertUint w (simpleName (toStringU x)) = some x := by
  rw [uint_accepts hw]
  obtain ⟨h1, h2, h3⟩ := toStringU_spec x
  have hm := magnitude_dec h2 h3
  rw [h1] at hm
  exact .inl hm

theorem toStringBaseU_magnitude {x : BitVec 64} {b wd : Nat} {t : List Char}
    (h : toStringBaseU x b wd = some t) : Magnitude t x.toNat := by
  unfold toStringBaseU at h
  split at h
  · cases h
    obtain ⟨h1, h2, h3⟩ := toStringU_spec x
    obtain ⟨g1, g2, g3⟩ := pad_spec (w := wd) h2 h3
    have hm := magnitude_dec g2 g3
    rwa [g1, h1] at hm
  · split at h
    · cases h
      obtain ⟨h1, h2, h3⟩ := hexLoop_spec x 16 [] (by
        have := x.isLt
        have e : positional .hex [] = 0 := rfl
        rw [e, Nat.div_eq_of_lt (by omega)]) (by simp) (by simp)
      obtain ⟨g1, g2, g3⟩ := pad_spec (w := wd) h2 h3
      have hm := magnitude_hex g2 g3
      rwa [g1, h1] at hm
    · cases h

/-- So does one converted to text in any supported base with any width. -/
theorem base_round_trip {w : Char → Bool} (hw : ∀ c, w c = isSpace c) (x : BitVec 64) (b wd : Nat)
    (t : List Char) :
    (toStringBaseU x b wd = some t → convertUint w (simpleName t) = some x) ∧
    (toStringBaseI x b wd = some t → convertInt w (simpleName t) = some x) := by
  constructor
  · intro h
    rw [uint_accepts hw]
    exact .inl (toStringBaseU_magnitude h)
  · intro h
    rw [int_accepts hw]
    have hx1 := BitVec.le_toInt x
    have hx2 := BitVec.toInt_lt (x := x)
    simp at hx1 hx2
    unfold toStringBaseI at h
    generalize hui : (if x = BitVec.intMin 64 then BitVec.intMax 64 + 1#64
      else BitVec.ofNat 64 x.toInt.natAbs) = ui at h
    have hv : ui.toNat = x.toInt.natAbs := by
      subst hui
      split
      · rename_i e; subst e; decide
      · rw [BitVec.toNat_ofNat, Nat.mod_eq_of_lt (by omega)]
    simp only at h
    cases hu : toStringBaseU ui b wd with
    | none => rw [hu] at h; cases h
    | some r =>
      rw [hu] at h
      have hm := toStringBaseU_magnitude hu
      rw [hv] at hm
      simp only [Option.some.injEq] at h
      subst h
      split
      · exact .inr ⟨_, _, rfl, hm, by omega⟩
      · exact .inl ⟨_, .inl hm, by omega⟩

/-- The supported bases are 10 and 16. -/
theorem base_supported (x : BitVec 64) (b wd : Nat) :
    (toStringBaseU x b wd).isSome = true ↔ b = 10 ∨ b = 16 := by
  unfold toStringBaseU
  split
  · simp [*]
  · split <;> simp [*]

/-- There are at least as many digits as the width and exactly that many if zeros are
added. -/
theorem width_respected (x : BitVec 64) (wd : Nat) :
    (∃ t, toStringBaseU x 10 wd = some t ∧ t.length = max wd (toStringU x).length) ∧
    (∃ t, toStringBaseU x 16 wd = some (['0', 'x'] ++ t) ∧
      t.length = max wd (hexLoop x 16 []).length) := by
  have key : ∀ r : List Char, (pad wd r).length = max wd r.length := by
    intro r
    unfold pad
    split
    · simp; omega
    · omega
  exact ⟨⟨_, rfl, key _⟩, ⟨_, rfl, key _⟩⟩

/-- The base passed to `$string()` is truncated: 4294967306 (2^32+10) is accepted as
10. -/
theorem base_truncated (x : BitVec 64) (wd : Nat) :
    stringFunction x 4294967306#64 wd = toStringBaseU x 10 wd := rfl

/-- That the check for white space covers everything skipped by `stoull` matters:
otherwise a negative number is converted to unsigned. -/
theorem wspace_must_cover {w : Char → Bool} (hw : w '\x0b' = false) :
    convertUint w (simpleName ['\x0b', '-', '1']) = some (BitVec.ofNat 64 (2 ^ 64 - 1)) := by
  have e : at' ['\x0b', '-', '1'] 0 = '\x0b' := rfl
  unfold convertUint simpleName
  simp only [e, hw]
  decide

/-! Non-vacuity. -/

example : convertInt isSpace (simpleName ['-', '0', 'x', '8', '0']) =
    some (BitVec.ofInt 64 (-128)) := by decide
example : convertUint isSpace (simpleName ['0', 'x']) = none := by decide
example : convertUint isSpace (simpleName ['1', ' ']) = none := by decide
example : convertUint isSpace
    (simpleName "18446744073709551616".toList) = none := by decide
example : toStringBaseI (BitVec.ofInt 64 (-255)) 16 4 = some ['-', '0', 'x', '0', '0', 'f', 'f'] := by
  decide

/-! ## C45 -/

theorem seqLoop_spec {e s : BitVec 64} (hs : s ≠ 0#64) (hw : e.toNat + s.toNat ≤ 2 ^ 64)
    (k : Nat) (b : BitVec 64) (r : List Nat)
    (h1 : ∀ i, i < k → b.toNat + i * s.toNat < e.toNat) (h2 : e.toNat ≤ b.toNat + k * s.toNat) :
    seqLoop e s (k + 1) b r = .ok (r ++ (List.range k).map (fun i => b.toNat + i * s.toNat)) := by
  induction k generalizing b r with
  | zero =>
    simp only [seqLoop]
    rw [if_neg (by simpa using h2)]
    simp
  | succ k ih =>
    have h0 := h1 0 (by omega)
    simp at h0
    rw [seqLoop, if_pos h0]
    have hb : (b + s).toNat = b.toNat + s.toNat := by
      rw [BitVec.toNat_add, Nat.mod_eq_of_lt (by omega)]
    rw [ih (b + s) (r ++ [b.toNat])]
    · rw [List.range_succ_eq_map, List.map_cons, List.map_map, List.append_assoc]
      congr 2
      simp only [Nat.zero_mul, Nat.add_zero, List.singleton_append, List.cons.injEq, true_and]
      apply List.map_congr_left
      intro i _
      simp only [Function.comp, Nat.succ_eq_add_one]
      rw [hb, Nat.add_mul]
      omega
    · intro i hi
      have := h1 (i + 1) (by omega)
      rw [Nat.add_mul] at this
      rw [hb]
      omega
    · rw [hb]
      rw [Nat.add_mul] at h2
      omega

/-- The sequence is begin, begin plus step, and so on, while less than end, provided
the step is not zero and end plus step is representable.

Full statement: for any step other than zero. Missing (and false, see
`sequence_does_not_end`): end plus step is greater than 2^64. -/
theorem sequence_partial (b e s : BitVec 64) (hs : s ≠ 0#64)
    (hw : e.toNat + s.toNat ≤ 2 ^ 64) :
    ∃ fuel k, (∀ f ≥ fuel, integerSequence f b e s =
        .ok ((List.range k).map (fun i => b.toNat + i * s.toNat))) ∧
      (∀ i, i < k → b.toNat + i * s.toNat < e.toNat) ∧ e.toNat ≤ b.toNat + k * s.toNat := by
  have hs' : 0 < s.toNat := by
    rcases Nat.eq_zero_or_pos s.toNat with h | h
    · exact absurd (BitVec.eq_of_toNat_eq h) hs
    · exact h
  have ex : ∃ k, (∀ i, i < k → b.toNat + i * s.toNat < e.toNat) ∧
      e.toNat ≤ b.toNat + k * s.toNat := by
    have : ∀ n, (∃ k, (∀ i, i < k → b.toNat + i * s.toNat < e.toNat) ∧
        e.toNat ≤ b.toNat + k * s.toNat) ∨ ∀ i, i < n → b.toNat + i * s.toNat < e.toNat := by
      intro n
      induction n with
      | zero => exact .inr (by intro i hi; omega)
      | succ n ih =>
        rcases ih with h | h
        · exact .inl h
        · by_cases hn : b.toNat + n * s.toNat < e.toNat
          · right
            intro i hi
            rcases Nat.lt_or_ge i n with h1 | h1
            · exact h i h1
            · have : i = n := by omega
              subst this; exact hn
          · exact .inl ⟨n, h, by omega⟩
    rcases this (e.toNat + 1) with h | h
    · exact h
    · exfalso
      have h1 := h e.toNat (by omega)
      have h2 : e.toNat * 1 ≤ e.toNat * s.toNat := Nat.mul_le_mul_left _ hs'
      omega
  obtain ⟨k, h1, h2⟩ := ex
  have more : ∀ f b r l, seqLoop e s f b r = .ok l → seqLoop e s (f + 1) b r = .ok l := by
    intro f
    induction f with
    | zero => intro b r l h; cases h
    | succ f ih =>
      intro b r l h
      rw [seqLoop] at h ⊢
      split at h
      · rename_i hlt; rw [if_pos hlt]; exact ih _ _ _ h
      · rename_i hlt; rw [if_neg hlt]; exact h
  refine ⟨k + 1, k, ?_, h1, h2⟩
  intro f hf
  unfold integerSequence
  by_cases hbe : b.toNat < e.toNat
  · rw [if_pos hbe, if_neg hs]
    obtain ⟨d, rfl⟩ := Nat.le.dest hf
    clear hf
    induction d with
    | zero =>
      have := seqLoop_spec hs hw k b [] h1 h2
      simpa using this
    | succ d ih => exact more _ _ _ _ ih
  · rw [if_neg hbe]
    have : k = 0 := by
      rcases Nat.eq_zero_or_pos k with h | h
      · exact h
      · have := h1 0 h; omega
    subst this
    rfl

/-- If begin is not less than end, then the sequence is empty. -/
theorem sequence_empty (fuel : Nat) {b e : BitVec 64} (s : BitVec 64) (h : e.toNat ≤ b.toNat) :
    integerSequence fuel b e s = .ok [] := by
  unfold integerSequence
  rw [if_neg (by omega)]

/-- A zero step is a division by zero. -/
theorem sequence_zero_step (fuel : Nat) {b e : BitVec 64} (h : b.toNat < e.toNat) :
    integerSequence fuel b e 0#64 = .divByZero := by
  unfold integerSequence
  rw [if_pos h, if_pos rfl]

/-- `$integer_sequence(18446744073709551614, 18446744073709551615, 2)` never ends (or,
rather, runs out of memory) instead of returning one integer. -/
theorem sequence_does_not_end (fuel : Nat) :
    integerSequence fuel (BitVec.ofNat 64 (2 ^ 64 - 2)) (BitVec.ofNat 64 (2 ^ 64 - 1)) 2#64 =
      .running := by
  have key : ∀ f (b : BitVec 64) r, b.toNat % 2 = 0 →
      seqLoop (BitVec.ofNat 64 (2 ^ 64 - 1)) 2#64 f b r = .running := by
    intro f
    induction f with
    | zero => intro b r _; rfl
    | succ f ih =>
      intro b r hb
      have := b.isLt
      rw [seqLoop, if_pos (by simp; omega)]
      apply ih
      rw [BitVec.toNat_add]
      simp
      omega
  unfold integerSequence
  rw [if_pos (by decide), if_neg (by decide)]
  exact key _ _ _ (by decide)

/-! Non-vacuity. -/

example : integerSequence 10 3#64 10#64 3#64 = .ok [3, 6, 9] := by decide
example : (10#64).toNat + (3#64).toNat ≤ 2 ^ 64 := by decide

end Verif.Integer
