import Verif.Integer.Model

/-! # Integer values: lemmas -/

namespace Verif.Integer

/-! ## Digits -/

theorem digit_some {b : Base} {c : Char} {d : Nat} :
    digit b.radix c = some d ↔ IsDigit b c ∧ d = digitValue c := by
  unfold digit IsDigit digitValue
  have e0 : '0'.toNat = 48 := by decide
  have e9 : '9'.toNat = 57 := by decide
  have ea : 'a'.toNat = 97 := by decide
  have ef : 'f'.toNat = 102 := by decide
  have ez : 'z'.toNat = 122 := by decide
  have eA : 'A'.toNat = 65 := by decide
  have eF : 'F'.toNat = 70 := by decide
  have eZ : 'Z'.toNat = 90 := by decide
  rw [e0, e9, ea, ef, ez, eA, eF, eZ]
  generalize c.toNat = n
  by_cases h1 : 48 ≤ n ∧ n ≤ 57
  · simp only [h1, and_self, if_true, true_or, true_and]
    have : n - 48 < b.radix := by cases b <;> simp [Base.radix] <;> omega
    simp only [this, if_true, Option.some.injEq]
    exact eq_comm
  · simp only [h1, if_false, false_or]
    by_cases h2 : 97 ≤ n ∧ n ≤ 122
    · have h3 : ¬ n ≤ 57 := by omega
      have h4 : ¬ n ≤ 70 := by omega
      simp only [h2, and_self, if_true, h3, h4, if_false]
      cases b
      · have : ¬ (n - 97 + 10 < Base.dec.radix) := by simp [Base.radix]
        simp [this]
      · simp only [Base.radix, true_and]
        by_cases hlt : n - 97 + 10 < 16
        · simp only [hlt, if_true, Option.some.injEq]
          constructor
          · intro h; exact ⟨by omega, h.symm⟩
          · rintro ⟨_, h⟩; exact h.symm
        · simp only [hlt, if_false, reduceCtorEq, false_iff]
          rintro ⟨h | ⟨_, h⟩, _⟩
          · omega
          · exact h
    · simp only [h2, if_false]
      by_cases h5 : 65 ≤ n ∧ n ≤ 90
      · have h3 : ¬ n ≤ 57 := by omega
        simp only [h5, and_self, if_true, h3, if_false]
        cases b
        · have : ¬ (n - 65 + 10 < Base.dec.radix) := by simp [Base.radix]
          simp [this]
        · simp only [Base.radix, true_and]
          by_cases hlt : n - 65 + 10 < 16
          · have h4 : n ≤ 70 := by omega
            simp only [hlt, h4, if_true, Option.some.injEq]
            constructor
            · intro h; exact ⟨.inr trivial, h.symm⟩
            · rintro ⟨_, h⟩; exact h.symm
          · simp only [hlt, if_false, reduceCtorEq, false_iff]
            rintro ⟨h, _⟩
            omega
      · simp only [h5, if_false, reduceCtorEq, false_iff]
        rintro ⟨⟨_, h⟩, _⟩
        omega

theorem digit_none {b : Base} {c : Char} (h : ¬ IsDigit b c) : digit b.radix c = none := by
  cases e : digit b.radix c with
  | none => rfl
  | some d => exact absurd (digit_some.mp e).1 h

/-- The value accumulated from an initial one. -/
def accum (b : Base) (acc : Nat) (ds : List Char) : Nat :=
  ds.foldl (fun n c => n * b.radix + digitValue c) acc

/-- What the conversion of digits gives. -/
theorem digits_spec (b : Base) (count acc : Nat) (t : List Char) :
    ∃ ds r, t = ds ++ r ∧ (∀ c ∈ ds, IsDigit b c) ∧ (∀ c u, r = c :: u → ¬ IsDigit b c) ∧
      digits b.radix count acc t = (count + ds.length, accum b acc ds, r) := by
  induction t generalizing count acc with
  | nil => exact ⟨[], [], rfl, by simp, by simp, rfl⟩
  | cons c t ih =>
    simp only [digits]
    cases e : digit b.radix c with
    | none =>
      refine ⟨[], c :: t, rfl, by simp, ?_, rfl⟩
      intro c' u h hd
      cases h
      rw [digit_some.mpr ⟨hd, rfl⟩] at e
      cases e
    | some d =>
      obtain ⟨hd, rfl⟩ := digit_some.mp e
      obtain ⟨ds, r, h1, h2, h3, h4⟩ := ih (count + 1) (acc * b.radix + digitValue c)
      refine ⟨c :: ds, r, by rw [h1]; rfl, ?_, h3, ?_⟩
      · intro x hx
        simp at hx
        rcases hx with rfl | hx
        · exact hd
        · exact h2 x hx
      · simp only
        rw [h4]
        simp only [List.length_cons, accum, List.foldl_cons]
        congr 1
        omega

theorem digits_all {b : Base} {t : List Char} (h : ∀ c ∈ t, IsDigit b c) :
    digits b.radix 0 0 t = (t.length, positional b t, []) := by
  obtain ⟨ds, r, h1, h2, h3, h4⟩ := digits_spec b 0 0 t
  have hr : r = [] := by
    cases r with
    | nil => rfl
    | cons c u => exact absurd (h c (by rw [h1]; simp)) (h3 c u rfl)
  subst hr
  rw [List.append_nil] at h1
  subst h1
  rw [h4]
  simp [accum, positional]

/-- A conversion that reaches the end has seen digits only. -/
theorem digits_end {b : Base} {t : List Char} {n : Nat} {m : Nat}
    (h : digits b.radix 0 0 t = (n, m, [])) :
    (∀ c ∈ t, IsDigit b c) ∧ n = t.length ∧ m = positional b t := by
  obtain ⟨ds, r, h1, h2, h3, h4⟩ := digits_spec b 0 0 t
  rw [h4] at h
  simp only [Prod.mk.injEq, Nat.zero_add] at h
  obtain ⟨e1, e2, rfl⟩ := h
  rw [List.append_nil] at h1
  subst h1
  exact ⟨h2, e1.symm, e2.symm⟩

theorem isDigit_not_space {b : Base} {c : Char} (h : IsDigit b c) :
    isSpace c = false ∧ c ≠ '-' ∧ c ≠ '+' ∧ c ≠ '\x00' := by
  have key : 48 ≤ c.toNat := by
    unfold IsDigit at h
    have e0 : '0'.toNat = 48 := by decide
    have ea : 'a'.toNat = 97 := by decide
    have eA : 'A'.toNat = 65 := by decide
    rw [e0, ea, eA] at h
    omega
  have ne : ∀ x : Char, x.toNat < 48 → c ≠ x := by
    rintro x hx rfl; omega
  have h1 := ne ' ' (by decide)
  have h2 := ne '\t' (by decide)
  have h3 := ne '\n' (by decide)
  have h4 := ne '\x0b' (by decide)
  have h5 := ne '\x0c' (by decide)
  have h6 := ne '\r' (by decide)
  refine ⟨?_, ne _ (by decide), ne _ (by decide), ne _ (by decide)⟩
  simp [isSpace, h1, h2, h3, h4, h5, h6]

theorem x_not_digit : ¬ IsDigit .dec 'x' ∧ ¬ IsDigit .dec 'X' := by
  constructor <;>
  · unfold IsDigit
    decide

theorem zero_digit (b : Base) : IsDigit b '0' := by
  unfold IsDigit
  exact .inl ⟨by decide, by decide⟩

/-! ## Magnitudes -/

/-- The base that is assumed for a magnitude. -/
def baseFor (t : List Char) : Base :=
  if at' t 0 = '0' ∧ (at' t 1 = 'x' ∨ at' t 1 = 'X') then .hex else .dec

theorem baseFor_radix (t : List Char) : (baseFor t).radix = baseOf t 0 := by
  unfold baseFor baseOf
  split <;> rfl

/-- The conversion of a magnitude, without a sign, in the base that is assumed. -/
theorem magnitude_iff (t : List Char) (n : Nat) :
    Magnitude t n ↔
      ∃ k, k ≠ 0 ∧ digits (baseFor t).radix 0 0 (skipPrefix (baseFor t).radix t) = (k, n, []) := by
  constructor
  · rintro ⟨b, p, ds, hp, hne, hd, rfl, rfl⟩
    cases b with
    | dec =>
      simp only [Prefix] at hp
      subst hp
      have hb : baseFor ([] ++ ds) = .dec := by
        unfold baseFor
        rw [if_neg]
        rintro ⟨_, h⟩
        cases ds with
        | nil => simp [at'] at h
        | cons c ds =>
          cases ds with
          | nil => simp [at'] at h
          | cons x ds =>
            simp [at'] at h
            have := hd x (by simp)
            rcases h with rfl | rfl
            · exact x_not_digit.1 this
            · exact x_not_digit.2 this
      rw [hb]
      have hs : skipPrefix Base.dec.radix ([] ++ ds) = ds := by
        unfold skipPrefix
        split
        · simp [Base.radix] at *
        · rfl
      rw [hs, digits_all hd]
      exact ⟨ds.length, by simpa using hne, rfl⟩
    | hex =>
      simp only [Prefix] at hp
      cases ds with
      | nil => exact absurd rfl hne
      | cons c ds =>
        have hc := hd c (by simp)
        have hsome : (digit 16 c).isSome = true := by
          have := digit_some.mpr ⟨hc, rfl⟩
          simp only [Base.radix] at this
          rw [this]
          rfl
        have hb : baseFor (p ++ c :: ds) = .hex := by
          unfold baseFor
          rcases hp with rfl | rfl <;> simp [at']
        rw [hb]
        have hs : skipPrefix Base.hex.radix (p ++ c :: ds) = c :: ds := by
          rcases hp with rfl | rfl <;> simp [skipPrefix, Base.radix, hsome]
        rw [hs, digits_all hd]
        exact ⟨(c :: ds).length, by simp, rfl⟩
  · rintro ⟨k, hk, h⟩
    by_cases hb : at' t 0 = '0' ∧ (at' t 1 = 'x' ∨ at' t 1 = 'X')
    · have hbf : baseFor t = .hex := by unfold baseFor; rw [if_pos hb]
      rw [hbf] at h
      match t, hb, h with
      | [], hb, _ => simp [at'] at hb
      | [a], hb, _ => simp [at'] at hb
      | [a, x], hb, h =>
        exfalso
        simp [at'] at hb
        obtain ⟨rfl, hx⟩ := hb
        have hs : skipPrefix Base.hex.radix ['0', x] = ['0', x] := rfl
        rw [hs] at h
        have := (digits_end h).1 x (by simp)
        unfold IsDigit at this
        rcases hx with rfl | rfl <;> simp at this
      | a :: x :: c :: u, hb, h =>
        simp [at'] at hb
        obtain ⟨rfl, hx⟩ := hb
        by_cases hc : (digit 16 c).isSome = true
        · have hs : skipPrefix Base.hex.radix ('0' :: x :: c :: u) = c :: u := by
            simp [skipPrefix, Base.radix, hx, hc]
          rw [hs] at h
          obtain ⟨h1, _, h3⟩ := digits_end h
          refine ⟨.hex, ['0', x], c :: u, ?_, by simp, h1, rfl, h3⟩
          rcases hx with rfl | rfl
          · exact .inl rfl
          · exact .inr rfl
        · exfalso
          have hs : skipPrefix Base.hex.radix ('0' :: x :: c :: u) = '0' :: x :: c :: u := by
            simp [skipPrefix, hc]
          rw [hs] at h
          have := (digits_end h).1 x (by simp)
          unfold IsDigit at this
          rcases hx with rfl | rfl <;> simp at this
    · have hbf : baseFor t = .dec := by unfold baseFor; rw [if_neg hb]
      rw [hbf] at h
      have hs : skipPrefix Base.dec.radix t = t := by
        unfold skipPrefix
        split
        · simp [Base.radix]
        · rfl
      rw [hs] at h
      obtain ⟨h1, h2, h3⟩ := digits_end h
      exact ⟨.dec, [], t, rfl, by rintro rfl; simp at h2; exact hk h2, h1, rfl, h3⟩

theorem magnitude_head {t : List Char} {n : Nat} (h : Magnitude t n) :
    ∃ c u, t = c :: u ∧ isSpace c = false ∧ c ≠ '-' ∧ c ≠ '+' ∧ c ≠ '\x00' := by
  obtain ⟨b, p, ds, hp, hne, hd, rfl, rfl⟩ := h
  cases ds with
  | nil => exact absurd rfl hne
  | cons c ds =>
    cases b with
    | dec =>
      simp only [Prefix] at hp
      subst hp
      exact ⟨c, ds, rfl, isDigit_not_space (hd c (by simp))⟩
    | hex =>
      have h0 := isDigit_not_space (zero_digit .dec)
      rcases hp with rfl | rfl
      · exact ⟨'0', 'x' :: c :: ds, rfl, h0⟩
      · exact ⟨'0', 'X' :: c :: ds, rfl, h0⟩

/-- Magnitudes are unambiguous. -/
theorem magnitude_unique {t : List Char} {m n : Nat} (h1 : Magnitude t m) (h2 : Magnitude t n) :
    m = n := by
  obtain ⟨k, _, e1⟩ := (magnitude_iff t m).mp h1
  obtain ⟨l, _, e2⟩ := (magnitude_iff t n).mp h2
  rw [e1] at e2
  simp at e2
  exact e2.2

/-! ## Conversion -/

theorem sign_other {c : Char} {u : List Char} (h1 : c ≠ '-') (h2 : c ≠ '+') :
    sign (c :: u) = (false, c :: u) := by
  unfold sign
  split
  · rename_i h; cases h; exact absurd rfl h1
  · rename_i h; cases h; exact absurd rfl h2
  · rfl

theorem digits_length (b : Base) (t : List Char) :
    (digits b.radix 0 0 t).2.2.length ≤ t.length := by
  obtain ⟨ds, r, h1, _, _, h4⟩ := digits_spec b 0 0 t
  rw [h4, h1]
  simp

/-- The body of a number: after the sign. -/
theorem strto_body (v : List Char) (neg : Bool) (p : Nat) (t : List Char)
    (hp : v = v.take p ++ t) (hs : sign (v.dropWhile isSpace) = (neg, t))
    (hb : baseOf v p = (baseFor t).radix) (hpl : p ≤ v.length) :
    (∀ m r, strto (baseOf v p) v = some (neg, m, r) → v.length - r.length = v.length →
      r = []) ∧
    ∀ m, (strto (baseOf v p) v = some (neg, m, []) ↔ Magnitude t m) := by
  have hlen : v.length = p + t.length := by
    have := congrArg List.length hp
    simp at this
    omega
  constructor
  · intro m r h hl
    unfold strto at h
    rw [hs, hb] at h
    simp only at h
    split at h
    · cases h
    · rename_i hd
      simp only [Option.some.injEq, Prod.mk.injEq, true_and] at h
      obtain ⟨_, rfl⟩ := h
      have h1 : (skipPrefix (baseFor t).radix t).length ≤ t.length := by
        unfold skipPrefix
        split
        · split
          · simp
          · exact Nat.le_refl _
        · exact Nat.le_refl _
      have h2 := digits_length (baseFor t) (skipPrefix (baseFor t).radix t)
      cases h3 : (digits (baseFor t).radix 0 0 (skipPrefix (baseFor t).radix t)).2.2 with
      | nil => rfl
      | cons a u => rw [h3] at hl h2; simp at hl h2; omega
  · intro m
    rw [magnitude_iff]
    unfold strto
    rw [hs, hb]
    simp only
    generalize digits (baseFor t).radix 0 0 (skipPrefix (baseFor t).radix t) = d
    obtain ⟨k, m', r⟩ := d
    simp only [Prod.mk.injEq]
    constructor
    · intro h
      split at h
      · cases h
      · simp at h
        exact ⟨k, by assumption, rfl, h.1, h.2⟩
    · rintro ⟨k', hk, rfl, rfl, rfl⟩
      rw [if_neg hk]

theorem strto_neg {b : Nat} {v t : List Char} {neg neg' : Bool} {m : Nat} {r : List Char}
    (hs : sign (v.dropWhile isSpace) = (neg, t)) (h : strto b v = some (neg', m, r)) :
    neg' = neg := by
  unfold strto at h
  rw [hs] at h
  simp only at h
  split at h
  · cases h
  · simp at h; exact h.1.symm

/-- The three forms of text that is not rejected outright. -/
theorem forms (v : List Char) (hv : isSpace (at' v 0) = false) :
    (∃ t, v = '-' :: t ∧ sign (v.dropWhile isSpace) = (true, t) ∧
      baseOf v 1 = (baseFor t).radix) ∨
    (∃ t, v = '+' :: t ∧ sign (v.dropWhile isSpace) = (false, t) ∧
      baseOf v 1 = (baseFor t).radix) ∨
    (at' v 0 ≠ '-' ∧ at' v 0 ≠ '+' ∧ sign (v.dropWhile isSpace) = (false, v) ∧
      baseOf v 0 = (baseFor v).radix) := by
  have shift : ∀ c t, baseOf (c :: t) 1 = (baseFor t).radix := by
    intro c t
    rw [baseFor_radix]
    unfold baseOf at'
    simp
  cases v with
  | nil => exact .inr (.inr ⟨by simp [at'], by simp [at'], rfl, (baseFor_radix _).symm⟩)
  | cons c t =>
    have hd : (c :: t).dropWhile isSpace = c :: t := by
      simp [at'] at hv
      simp [hv]
    rw [hd]
    by_cases h1 : c = '-'
    · subst h1; exact .inl ⟨t, rfl, rfl, shift _ _⟩
    · by_cases h2 : c = '+'
      · subst h2; exact .inr (.inl ⟨t, rfl, rfl, shift _ _⟩)
      · exact .inr (.inr ⟨by simpa [at'] using h1, by simpa [at'] using h2, sign_other h1 h2,
          (baseFor_radix _).symm⟩)

theorem stoll_end {v : List Char} {b : Nat} {neg : Bool} {x : BitVec 64}
    (hneg : ∀ neg' m r, strto b v = some (neg', m, r) → neg' = neg)
    (hend : ∀ m r, strto b v = some (neg, m, r) → v.length - r.length = v.length → r = []) :
    stoll v b = some (x, v.length) ↔
      ∃ m, strto b v = some (neg, m, []) ∧
        (if neg then m ≤ 2 ^ 63 else m < 2 ^ 63) ∧
        x = BitVec.ofInt 64 (if neg then -(m : Int) else m) := by
  unfold stoll
  cases h : strto b v with
  | none => simp
  | some q =>
    obtain ⟨neg', m, r⟩ := q
    have := hneg _ _ _ h
    subst this
    simp only
    by_cases hr : (if neg' = true then m ≤ 2 ^ 63 else m < 2 ^ 63)
    · rw [if_pos hr]
      simp only [Option.some.injEq, Prod.mk.injEq]
      constructor
      · rintro ⟨rfl, h2⟩
        exact ⟨m, by rw [hend m r h h2]; exact ⟨trivial, rfl, rfl⟩, hr, rfl⟩
      · rintro ⟨m', ⟨_, rfl, rfl⟩, _, rfl⟩
        exact ⟨rfl, by simp⟩
    · rw [if_neg hr]
      simp only [reduceCtorEq, false_iff]
      rintro ⟨m', h1, h2, _⟩
      simp only [Option.some.injEq, Prod.mk.injEq, true_and] at h1
      obtain ⟨rfl, _⟩ := h1
      exact hr h2

theorem stoull_end {v : List Char} {b : Nat} {x : BitVec 64}
    (hneg : ∀ neg' m r, strto b v = some (neg', m, r) → neg' = false)
    (hend : ∀ m r, strto b v = some (false, m, r) → v.length - r.length = v.length → r = []) :
    stoull v b = some (x, v.length) ↔
      ∃ m, strto b v = some (false, m, []) ∧ m < 2 ^ 64 ∧ x = BitVec.ofNat 64 m := by
  unfold stoull
  cases h : strto b v with
  | none => simp
  | some q =>
    obtain ⟨neg', m, r⟩ := q
    have := hneg _ _ _ h
    subst this
    simp only [Bool.false_eq_true, if_false]
    by_cases hr : m < 2 ^ 64
    · rw [if_pos hr]
      simp only [Option.some.injEq, Prod.mk.injEq]
      constructor
      · rintro ⟨rfl, h2⟩
        exact ⟨m, by rw [hend m r h h2]; exact ⟨trivial, rfl, rfl⟩, hr, rfl⟩
      · rintro ⟨m', ⟨_, rfl, rfl⟩, _, rfl⟩
        exact ⟨rfl, by simp⟩
    · rw [if_neg hr]
      simp only [reduceCtorEq, false_iff]
      rintro ⟨m', h1, h2, _⟩
      simp only [Option.some.injEq, Prod.mk.injEq, true_and] at h1
      obtain ⟨rfl, _⟩ := h1
      exact hr h2

theorem check_end {o : Option (BitVec 64 × Nat)} {v : List Char} {x : BitVec 64} :
    ifAll v o = some x ↔ o = some (x, v.length) := by
  unfold ifAll
  cases o with
  | none => simp
  | some q =>
    obtain ⟨r, i⟩ := q
    simp only
    split
    · rename_i h; subst h; simp
    · rename_i h; simp [h]

/-! ## Digits of numbers -/

theorem digitChar_spec {b : Base} {d : Nat} (h : d < b.radix) :
    IsDigit b (digitChar d) ∧ digitValue (digitChar d) = d := by
  have : d < 16 := by cases b <;> simp [Base.radix] at h <;> omega
  have all : ∀ d : Fin 16, IsDigit .hex (digitChar d.val) ∧ digitValue (digitChar d.val) = d.val ∧
      (d.val < 10 → IsDigit .dec (digitChar d.val)) := by
    unfold IsDigit digitValue digitChar
    decide
  have hd := all ⟨d, this⟩
  simp only at hd
  cases b with
  | dec => exact ⟨hd.2.2 h, hd.2.1⟩
  | hex => exact ⟨hd.1, hd.2.1⟩

theorem positional_append (b : Base) (ds : List Char) (c : Char) :
    positional b (ds ++ [c]) = positional b ds * b.radix + digitValue c := by
  simp [positional]

theorem decDigits_spec (f n : Nat) (h : n < 10 ^ (f + 1)) :
    positional .dec (decDigits (f + 1) n) = n ∧ (∀ c ∈ decDigits (f + 1) n, IsDigit .dec c) ∧
      decDigits (f + 1) n ≠ [] := by
  induction f generalizing n with
  | zero =>
    have hd := digitChar_spec (b := .dec) (d := n % 10) (by simp [Base.radix]; omega)
    have hn : n < 10 := by simpa using h
    simp only [decDigits, hn, if_true, List.nil_append]
    refine ⟨?_, ?_, by simp⟩
    · simp [positional, hd.2]; omega
    · intro c hc; simp at hc; subst hc; exact hd.1
  | succ f ih =>
    have hd := digitChar_spec (b := .dec) (d := n % 10) (by simp [Base.radix]; omega)
    rw [decDigits]
    by_cases hn : n < 10
    · simp only [hn, if_true, List.nil_append]
      refine ⟨?_, ?_, by simp⟩
      · simp [positional, hd.2]; omega
      · intro c hc; simp at hc; subst hc; exact hd.1
    · simp only [hn, if_false]
      have := ih (n / 10) (by
        rw [Nat.pow_succ] at h
        omega)
      refine ⟨?_, ?_, by simp⟩
      · rw [positional_append, this.1, hd.2]
        simp only [Base.radix]
        omega
      · intro c hc
        rw [List.mem_append] at hc
        rcases hc with hc | hc
        · exact this.2.1 c hc
        · simp at hc; subst hc; exact hd.1

theorem hexLoop_spec (i : BitVec 64) (j : Nat) (r : List Char)
    (h1 : positional .hex r = i.toNat / 16 ^ j) (h2 : ∀ c ∈ r, IsDigit .hex c)
    (h3 : j = 0 → r ≠ []) :
    positional .hex (hexLoop i j r) = i.toNat ∧ (∀ c ∈ hexLoop i j r, IsDigit .hex c) ∧
      hexLoop i j r ≠ [] := by
  induction j generalizing r with
  | zero => simp [hexLoop] at *; exact ⟨h1, h2, h3⟩
  | succ j ih =>
    simp only [hexLoop]
    have hdv : (i >>> (4 * j)).toNat % 16 = i.toNat / 16 ^ j % 16 := by
      rw [BitVec.toNat_ushiftRight, Nat.shiftRight_eq_div_pow, Nat.pow_mul]
    have hstep : i.toNat / 16 ^ j = i.toNat / 16 ^ (j + 1) * 16 + i.toNat / 16 ^ j % 16 := by
      rw [Nat.pow_succ, ← Nat.div_div_eq_div_mul]
      omega
    rw [hdv]
    have hd := digitChar_spec (b := .hex) (d := i.toNat / 16 ^ j % 16) (by simp [Base.radix]; omega)
    split
    · refine ih _ ?_ ?_ ?_
      · rw [positional_append, h1, hd.2]
        simp only [Base.radix]
        omega
      · intro c hc
        rw [List.mem_append] at hc
        rcases hc with hc | hc
        · exact h2 c hc
        · simp at hc; subst hc; exact hd.1
      · intro _; simp
    · rename_i h
      simp only [ne_eq, not_or, Classical.not_not] at h
      obtain ⟨g1, g2, g3⟩ := h
      have hr : r = [] := List.eq_nil_of_length_eq_zero g2
      subst hr
      refine ih _ ?_ (by simp) (fun e => absurd e g3)
      have h0 : positional .hex [] = 0 := rfl
      rw [hstep, g1, ← h1, h0]

theorem pad_spec {b : Base} {w : Nat} {r : List Char} (h : ∀ c ∈ r, IsDigit b c) (hne : r ≠ []) :
    positional b (pad w r) = positional b r ∧ (∀ c ∈ pad w r, IsDigit b c) ∧ pad w r ≠ [] := by
  have zeros : ∀ n, positional b (List.replicate n '0' ++ r) = positional b r := by
    intro n
    induction n with
    | zero => rfl
    | succ n ih =>
      rw [List.replicate_succ, List.cons_append]
      rw [← ih]
      show List.foldl _ (0 * b.radix + digitValue '0') _ = _
      have : 0 * b.radix + digitValue '0' = 0 := by rw [Nat.zero_mul]; rfl
      rw [this]
      rfl
  unfold pad
  split
  · refine ⟨zeros _, ?_, by simp [hne]⟩
    intro c hc
    rw [List.mem_append] at hc
    rcases hc with hc | hc
    · rw [List.mem_replicate] at hc
      rw [hc.2]
      exact zero_digit b
    · exact h c hc
  · exact ⟨rfl, h, hne⟩

theorem toStringU_spec (i : BitVec 64) :
    positional .dec (toStringU i) = i.toNat ∧ (∀ c ∈ toStringU i, IsDigit .dec c) ∧
      toStringU i ≠ [] :=
  decDigits_spec 19 i.toNat (by have := i.isLt; omega)

end Verif.Integer
