import Verif.CcLex.Lemmas

/-!
# C and C++ tokens: the parts of tokens
-/

namespace Verif.CcLex

/-! ## Numbers -/

theorem exp_not_ends {c : Char} (h : isExp c = true) : endsNumber c = false := by
  unfold isExp at h
  simp only [Bool.or_eq_true, beq_iff_eq] at h
  rcases h with ((h | h) | h) | h <;> subst h <;> decide

theorem sign_ends {c : Char} (h : isSign c = true) : endsNumber c = true := by
  unfold isSign at h
  simp only [Bool.or_eq_true, beq_iff_eq] at h
  rcases h with h | h <;> subst h <;> decide

theorem number_head {s : Str} (h : ∀ d, s.head? = some d → isSign d = false) :
    number true s = number false s := by
  cases s with
  | nil => rfl
  | cons c s =>
    rw [number, number, h c rfl]
    rfl

theorem number_complete {t r : Str} (h : NumberTail t r) : number false (t ++ r) = (t, r) := by
  induction h with
  | @nil r h =>
    cases r with
    | nil => rfl
    | cons c r =>
      rw [List.nil_append, number, if_neg (by simp), if_pos (h c rfl)]
  | @exp c d t r h1 h2 _ ih =>
    rw [List.cons_append, number, if_neg (by simp), if_neg (by rw [exp_not_ends h1]; decide), h1,
      List.cons_append, number, if_pos (by simp [h2]), ih]
  | @char c t r h1 h2 _ ih =>
    rw [List.cons_append, number, if_neg (by simp), if_neg (by rw [h1]; decide)]
    cases he : isExp c with
    | true => rw [number_head (h2 he), ih]
    | false => rw [ih]

theorem number_sound (s : Str) : ∀ e, s = (number e s).1 ++ (number e s).2 ∧
    ((e = false ∨ ∀ d, s.head? = some d → isSign d = false) → NumberTail (number e s).1 (number e s).2) ∧
    (e = true → ∀ d, s.head? = some d → isSign d = true →
      ∃ t, (number e s).1 = d :: t ∧ NumberTail t (number e s).2) := by
  induction s with
  | nil => intro e; exact ⟨rfl, fun _ => .nil (by intro c h; cases h), fun _ d h => by cases h⟩
  | cons c s ih =>
    intro e
    rw [number]
    by_cases h1 : (e && isSign c) = true
    · rw [if_pos h1]
      simp only [Bool.and_eq_true] at h1
      refine ⟨by rw [List.cons_append, ← (ih false).1], fun h => ?_, fun _ d hd _ => ?_⟩
      · rcases h with h | h
        · rw [h] at h1; exact absurd h1.1 (by decide)
        · rw [h c rfl] at h1; exact absurd h1.2 (by decide)
      · simp at hd; subst hd
        exact ⟨_, rfl, (ih false).2.1 (.inl rfl)⟩
    · rw [if_neg h1]
      by_cases h2 : endsNumber c = true
      · rw [if_pos h2]
        refine ⟨rfl, fun _ => .nil (by intro d hd; simp at hd; subst hd; exact h2), fun he d hd hs => ?_⟩
        simp at hd; subst hd
        rw [he, hs] at h1
        exact absurd rfl h1
      · rw [if_neg h2]
        refine ⟨by rw [List.cons_append, ← (ih _).1], fun _ => ?_, fun he d hd hs => ?_⟩
        · cases hx : isExp c with
          | false =>
            exact .char (by simpa using h2) (fun h => by rw [hx] at h; cases h) ((ih false).2.1 (.inl rfl))
          | true =>
            by_cases hh : ∃ d, s.head? = some d ∧ isSign d = true
            · obtain ⟨d, hd, hs⟩ := hh
              obtain ⟨t, e1, e2⟩ := (ih true).2.2 rfl d hd hs
              rw [e1]
              exact .exp hx hs e2
            · have hh' : ∀ d, s.head? = some d → isSign d = false := by
                intro d hd
                cases hs : isSign d with
                | false => rfl
                | true => exact absurd ⟨d, hd, hs⟩ hh
              refine .char (by simpa using h2) (fun _ => ?_) ((ih true).2.1 (.inr hh'))
              rw [← (ih true).1]
              exact hh'
        · simp at hd; subst hd
          rw [he, hs] at h1
          exact absurd rfl h1

theorem number_iff {s t r : Str} : number false s = (t, r) ↔ s = t ++ r ∧ NumberTail t r := by
  constructor
  · intro h
    obtain ⟨h1, h2, -⟩ := number_sound s false
    rw [h] at h1 h2
    exact ⟨h1, h2 (.inl rfl)⟩
  · rintro ⟨rfl, h⟩
    exact number_complete h

/-! ## Literals -/

theorem literal_iff {q : Char} (hq : q ≠ '\\') (s : Str) : ∀ p x r, (p ≠ '\\' →
      (literal q p s = some (x, r) ↔ ∃ b, x = b ++ [q] ∧ s = b ++ q :: r ∧ q ≠ '\n' ∧ Body q b)) ∧
    (p = '\\' → (literal q p s = some (x, r) ↔
      ∃ c b, x = c :: (b ++ [q]) ∧ s = c :: (b ++ q :: r) ∧ q ≠ '\n' ∧ c ≠ '\n' ∧ Body q b)) := by
  induction s with
  | nil =>
    intro p x r
    refine ⟨fun _ => ?_, fun _ => ?_⟩
    · simp [literal]
    · simp [literal]
  | cons c s ih =>
    intro p x r
    constructor
    · intro hp
      rw [literal]
      by_cases h1 : c = '\n'
      · rw [if_pos h1]
        constructor
        · intro h; cases h
        · rintro ⟨b, -, e, hn, hb⟩
          subst h1
          cases hb with
          | nil => obtain ⟨h, -⟩ := List.cons.inj e; exact absurd h.symm hn
          | char h2 h3 h4 _ => exact absurd (List.cons.inj e).1.symm h4
          | escape => exact absurd (List.cons.inj e).1 (by decide)
      rw [if_neg h1]
      by_cases h2 : c = q
      · rw [if_pos ⟨h2, hp⟩]
        subst h2
        constructor
        · intro h
          simp at h
          obtain ⟨rfl, rfl⟩ := h
          exact ⟨[], rfl, rfl, h1, .nil⟩
        · rintro ⟨b, rfl, e, -, hb⟩
          cases hb with
          | nil => obtain ⟨-, rfl⟩ := List.cons.inj e; rfl
          | char h2 _ _ _ => exact absurd (List.cons.inj e).1.symm h2
          | escape => exact absurd (List.cons.inj e).1 hq
      rw [if_neg (fun h => h2 h.1), if_neg (fun h => hp h.2)]
      by_cases h3 : c = '\\'
      · subst h3
        rw [Option.map_eq_some_iff]
        constructor
        · rintro ⟨⟨x', r'⟩, h, e⟩
          simp at e
          obtain ⟨rfl, rfl⟩ := e
          obtain ⟨d, b, rfl, rfl, hn, hd, hb⟩ := ((ih '\\' x' r').2 rfl).1 h
          exact ⟨'\\' :: d :: b, rfl, rfl, hn, .escape hd hb⟩
        · rintro ⟨b, rfl, e, hn, hb⟩
          cases hb with
          | nil => exact absurd (List.cons.inj e).1 h2
          | char _ h3 _ _ => exact absurd (List.cons.inj e).1.symm h3
          | @escape d t hd hb =>
            obtain ⟨-, rfl⟩ := List.cons.inj e
            exact ⟨(d :: (t ++ [q]), r), ((ih '\\' _ r).2 rfl).2 ⟨d, t, rfl, rfl, hn, hd, hb⟩, rfl⟩
      · rw [Option.map_eq_some_iff]
        constructor
        · rintro ⟨⟨x', r'⟩, h, e⟩
          simp at e
          obtain ⟨rfl, rfl⟩ := e
          obtain ⟨b, rfl, rfl, hn, hb⟩ := ((ih c x' r').1 h3).1 h
          exact ⟨c :: b, rfl, rfl, hn, .char h2 h3 h1 hb⟩
        · rintro ⟨b, rfl, e, hn, hb⟩
          cases hb with
          | nil => exact absurd (List.cons.inj e).1 h2
          | @char d t _ _ _ hb =>
            obtain ⟨rfl, rfl⟩ := List.cons.inj e
            exact ⟨(t ++ [q], r), ((ih c _ r).1 h3).2 ⟨t, rfl, rfl, hn, hb⟩, rfl⟩
          | escape => exact absurd (List.cons.inj e).1 h3
    · intro hp
      rw [literal]
      by_cases h1 : c = '\n'
      · rw [if_pos h1]
        constructor
        · intro h; cases h
        · rintro ⟨d, b, -, e, -, hn, -⟩
          exact absurd ((List.cons.inj e).1 ▸ h1) hn
      rw [if_neg h1, if_neg (fun h => h.2 hp)]
      have hne : (if c = '\\' ∧ p = '\\' then '\x00' else c) ≠ '\\' := by
        by_cases h2 : c = '\\'
        · rw [if_pos ⟨h2, hp⟩]; decide
        · rw [if_neg (fun h => h2 h.1)]; exact h2
      rw [Option.map_eq_some_iff]
      constructor
      · rintro ⟨⟨x', r'⟩, h, e⟩
        simp at e
        obtain ⟨rfl, rfl⟩ := e
        obtain ⟨b, rfl, rfl, hn, hb⟩ := ((ih _ x' r').1 hne).1 h
        exact ⟨c, b, rfl, rfl, hn, h1, hb⟩
      · rintro ⟨d, b, rfl, e, hn, -, hb⟩
        obtain ⟨rfl, rfl⟩ := List.cons.inj e
        exact ⟨(b ++ [q], r), ((ih _ _ r).1 hne).2 ⟨b, rfl, rfl, hn, hb⟩, rfl⟩

/-! ## Words and suffixes -/

theorem span_iff {p : Char → Bool} {s t r : Str} : (s.takeWhile p = t ∧ s.dropWhile p = r) ↔
    s = t ++ r ∧ (∀ c ∈ t, p c = true) ∧ ∀ c, r.head? = some c → p c = false := by
  constructor
  · rintro ⟨rfl, rfl⟩
    refine ⟨(List.takeWhile_append_dropWhile).symm, fun c hc => ?_, fun c hc => ?_⟩
    · exact List.all_eq_true.1 List.all_takeWhile c hc
    · have := List.head?_dropWhile_not p s
      rw [hc] at this
      simpa using this
  · rintro ⟨rfl, h1, h2⟩
    rw [List.takeWhile_append_of_pos h1, List.dropWhile_append_of_pos h1]
    cases r with
    | nil => simp
    | cons c r =>
      have := h2 c rfl
      simp [this]

theorem word_start {c : Char} (h : isWord c = true) : c.isDigit = false ↔ (c = '_' ∨ c.isAlpha = true) := by
  unfold isWord at h
  by_cases h1 : c = '_'
  · subst h1; simp
  · simp only [Bool.or_eq_true, beq_iff_eq] at h
    have h2 : c.isAlphanum = true := by rcases h with h | h; exact h; exact absurd h h1
    simp only [h1, false_or]
    simp only [Char.isAlphanum, Bool.or_eq_true] at h2
    constructor
    · intro h3; rcases h2 with h | h
      · exact h
      · rw [h3] at h; cases h
    · intro h3
      simp only [Char.isAlpha, Char.isUpper, Char.isLower, Char.isDigit, Bool.or_eq_true, Bool.and_eq_true,
        decide_eq_true_eq, Bool.and_eq_false_iff, decide_eq_false_iff_not, ge_iff_le, UInt32.le_iff_toNat_le,
        Nat.not_le] at *
      have e1 : '0'.val.toNat = 48 := rfl
      have e2 : '9'.val.toNat = 57 := rfl
      have e3 : 'A'.val.toNat = 65 := rfl
      have e4 : 'Z'.val.toNat = 90 := rfl
      have e5 : 'a'.val.toNat = 97 := rfl
      have e6 : 'z'.val.toNat = 122 := rfl
      omega

theorem alpha_word {c : Char} (h : c = '_' ∨ c.isAlpha = true) : isWord c = true := by
  unfold isWord
  rcases h with h | h
  · subst h; decide
  · simp [Char.isAlphanum, h]

theorem suffix_iff {s t r : Str} : suffix s = (t, r) ↔ s = t ++ r ∧ Suffix t r := by
  cases s with
  | nil =>
    unfold suffix
    constructor
    · intro h
      simp at h
      obtain ⟨rfl, rfl⟩ := h
      exact ⟨rfl, by simp, by simp, by simp, by simp⟩
    · rintro ⟨e, -⟩
      obtain ⟨rfl, rfl⟩ := List.append_eq_nil_iff.1 e.symm
      rfl
  | cons c s =>
    unfold suffix
    by_cases hc : c = '_' ∨ c.isAlpha = true
    · simp only [if_pos hc]
      constructor
      · intro h
        simp only [Prod.mk.injEq] at h
        obtain ⟨rfl, h⟩ := h
        obtain ⟨e, h1, h2⟩ := span_iff.1 ⟨rfl, h⟩
        refine ⟨by rw [List.cons_append, ← e], ?_, ?_, by simp, fun _ => h2⟩
        · intro d hd
          rcases List.mem_cons.1 hd with hd | hd
          · subst hd; exact alpha_word hc
          · exact h1 d hd
        · intro d hd
          simp at hd
          subst hd
          exact (word_start (alpha_word hc)).2 hc
      · rintro ⟨e, h1, h2, h3, h4⟩
        cases t with
        | nil =>
          rw [List.nil_append] at e
          subst e
          have := h3 rfl c rfl (alpha_word hc)
          rw [(word_start (alpha_word hc)).2 hc] at this
          cases this
        | cons d t =>
          obtain ⟨rfl, rfl⟩ := List.cons.inj e
          obtain ⟨e1, e2⟩ := span_iff.2 ⟨rfl, fun d hd => h1 d (List.mem_cons_of_mem _ hd), h4 (by simp)⟩
          exact Prod.ext (congrArg (List.cons c) e1) e2
    · simp only [if_neg hc]
      constructor
      · intro h
        simp at h
        obtain ⟨rfl, rfl⟩ := h
        refine ⟨rfl, by simp, by simp, fun _ d hd hw => ?_, by simp⟩
        simp at hd
        subst hd
        cases hx : c.isDigit with
        | true => rfl
        | false => exact absurd ((word_start hw).1 hx) hc
      · rintro ⟨e, h1, h2, -⟩
        cases t with
        | nil => rw [List.nil_append] at e; subst e; rfl
        | cons d t =>
          obtain ⟨rfl, rfl⟩ := List.cons.inj e
          exact absurd ((word_start (h1 c List.mem_cons_self)).1 (h2 c rfl)) hc

/-! ## Raw string literals -/

theorem delimiter_iff {s d r : Str} : delimiter s = some (d, r) ↔
    s = d ++ '(' :: r ∧ ∀ c ∈ d, c ≠ '(' ∧ c ≠ ')' ∧ c ≠ '\\' ∧ c ≠ ' ' := by
  induction s generalizing d r with
  | nil => simp [delimiter]
  | cons c s ih =>
    rw [delimiter]
    by_cases h1 : c = ')' ∨ c = '\\' ∨ c = ' '
    · rw [if_pos h1]
      constructor
      · intro h; cases h
      · rintro ⟨e, h⟩
        cases d with
        | nil =>
          obtain ⟨rfl, -⟩ := List.cons.inj e
          exact absurd h1 (by decide)
        | cons d t =>
          obtain ⟨rfl, -⟩ := List.cons.inj e
          obtain ⟨h2, h3, h4, h5⟩ := h c List.mem_cons_self
          rcases h1 with h | h | h <;> contradiction
    rw [if_neg h1]
    by_cases h2 : c = '('
    · rw [if_pos h2]
      subst h2
      constructor
      · intro h
        simp at h
        obtain ⟨rfl, rfl⟩ := h
        exact ⟨rfl, by simp⟩
      · rintro ⟨e, h⟩
        cases d with
        | nil => obtain ⟨-, rfl⟩ := List.cons.inj e; rfl
        | cons d t =>
          obtain ⟨rfl, -⟩ := List.cons.inj e
          exact absurd rfl (h _ List.mem_cons_self).1
    rw [if_neg h2, Option.map_eq_some_iff]
    constructor
    · rintro ⟨⟨d', r'⟩, h, e⟩
      simp at e
      obtain ⟨rfl, rfl⟩ := e
      obtain ⟨rfl, h'⟩ := ih.1 h
      refine ⟨rfl, fun x hx => ?_⟩
      rcases List.mem_cons.1 hx with hx | hx
      · subst hx
        exact ⟨h2, fun h => h1 (.inl h), fun h => h1 (.inr (.inl h)), fun h => h1 (.inr (.inr h))⟩
      · exact h' x hx
    · rintro ⟨e, h⟩
      cases d with
      | nil => obtain ⟨rfl, -⟩ := List.cons.inj e; exact absurd rfl h2
      | cons d t =>
        obtain ⟨rfl, rfl⟩ := List.cons.inj e
        exact ⟨(t, r), ih.2 ⟨rfl, fun x hx => h x (List.mem_cons_of_mem _ hx)⟩, rfl⟩

/-- The text ends with its first occurrence of the delimiter. -/
def First (d u : Str) : Prop := d <:+ u ∧ ∀ a x, u = a ++ d ++ x → x = []

theorem First.drop {d w v : Str} (h : ∀ a x, w ++ v = a ++ d ++ x → w.length ≤ a.length) :
    First d (w ++ v) ↔ First d v := by
  constructor
  · rintro ⟨⟨a, ha⟩, h2⟩
    have hl := h a [] (by rw [List.append_nil, ha])
    have : a = w ++ a.drop w.length := by
      have := congrArg (List.take w.length) ha
      rw [List.take_append_of_le_length hl, List.take_left] at this
      conv => lhs; rw [← List.take_append_drop w.length a, this]
    refine ⟨⟨a.drop w.length, ?_⟩, fun a x e => h2 (w ++ a) x (by rw [e]; simp)⟩
    rw [this, List.append_assoc] at ha
    exact List.append_cancel_left ha
  · rintro ⟨⟨a, ha⟩, h2⟩
    refine ⟨⟨w ++ a, by rw [List.append_assoc, ha]⟩, fun a x e => ?_⟩
    have hl := h a x e
    have hw : a = w ++ a.drop w.length := by
      have := congrArg (List.take w.length) e
      rw [List.take_left, List.append_assoc, List.take_append_of_le_length hl] at this
      conv => lhs; rw [← List.take_append_drop w.length a, ← this]
    rw [hw, List.append_assoc, List.append_assoc] at e
    exact h2 (a.drop w.length) x (by rw [List.append_cancel_left e, List.append_assoc])

theorem rawBody_iff {d' : Str} (hd : ')' ∉ d') (s : Str) : ∀ i x r, i < (')' :: d').length →
    (rawBody (')' :: d') i s = some (x, r) ↔ s = x ++ r ∧ First (')' :: d') ((')' :: d').take i ++ x) ∧ x ≠ []) := by
  generalize hD : ')' :: d' = d
  have hstart : ∀ (w v a x : Str) (j : Nat), w <+: d → w ++ v = a ++ d ++ x → a.length < w.length → a = [] := by
    intro w v a x j hw e hlt
    cases a with
    | nil => rfl
    | cons b a =>
      exfalso
      obtain ⟨z, hz⟩ := hw
      subst hD
      have h1 : (w ++ v)[(b :: a).length]? = some ')' := by
        rw [e, List.append_assoc, List.getElem?_append_right (Nat.le_refl _)]
        simp
      rw [List.getElem?_append_left hlt] at h1
      cases w with
      | nil => simp at hlt
      | cons c w =>
        obtain ⟨rfl, hz'⟩ := List.cons.inj hz
        rw [List.length_cons, List.getElem?_cons_succ] at h1
        exact hd (hz' ▸ List.mem_append_left _ (List.mem_of_getElem? h1))
  have hself : First d d := by
    refine ⟨List.suffix_refl d, fun a x e => ?_⟩
    have := congrArg List.length e
    simp at this
    exact List.length_eq_zero_iff.1 (by omega)
  have hnf : ∀ i, i < d.length → ¬ First d (d.take i) := by
    rintro i hi ⟨h, -⟩
    have := h.length_le
    rw [List.length_take] at this
    omega
  induction s with
  | nil =>
    intro i x r hi
    constructor
    · intro h; cases h
    · rintro ⟨e, -, hx⟩
      exact absurd (List.append_eq_nil_iff.1 e.symm).1 hx
  | cons c s ih =>
    intro i x r hi
    -- The texts that are matched before and after.
    have hstep : ∀ y, First d (d.take i ++ c :: y) ↔ First d (d.take (position d i c) ++ y) := by
      intro y
      unfold position
      by_cases h1 : d[i]? = some c
      · simp only [h1, ne_eq, not_true_eq_false, false_and, if_false, if_true]
        rw [List.take_add_one, h1]
        simp
      · have hdrop : First d (d.take i ++ c :: y) ↔ First d (c :: y) := by
          refine First.drop fun a z e => ?_
          refine Nat.le_of_not_lt fun hlt => ?_
          obtain rfl := hstart _ _ _ _ 0 (List.take_prefix i d) e hlt
          have h2 : (d.take i ++ c :: y)[i]? = some c := by
            have hlen : (d.take i).length = i := by rw [List.length_take]; omega
            rw [List.getElem?_append_right (by omega), hlen]
            simp
          rw [e, List.nil_append, List.getElem?_append_left hi] at h2
          exact h1 h2
        rw [hdrop]
        have hpos : (if d[i]? ≠ some c ∧ i ≠ 0 then 0 else i) = 0 := by
          by_cases h : i = 0
          · simp [h]
          · simp [h1, h]
        simp only [hpos]
        by_cases h2 : d[0]? = some c
        · rw [if_pos h2]
          subst hD
          simp at h2
          subst h2
          simp
        · rw [if_neg h2]
          simp only [List.take_zero, List.nil_append]
          refine First.drop (w := [c]) (v := y) fun a z e => ?_
          cases a with
          | nil =>
            subst hD
            rw [List.nil_append] at e
            exact absurd (congrArg some (List.cons.inj e).1.symm) (by simpa using h2)
          | cons => simp
    have hpl : position d i c ≤ d.length := by
      unfold position
      have : ∀ j, j ≤ i → (if d[j]? = some c then j + 1 else j) ≤ d.length := by
        intro j hj; split <;> omega
      apply this
      split <;> omega
    rw [rawBody]
    by_cases hp : position d i c = d.length
    · rw [if_pos hp]
      rw [hp, List.take_length] at hstep
      constructor
      · intro h
        simp at h
        obtain ⟨rfl, rfl⟩ := h
        exact ⟨rfl, (hstep []).2 (by rw [List.append_nil]; exact hself), by simp⟩
      · rintro ⟨e, h, hx⟩
        cases x with
        | nil => exact absurd rfl hx
        | cons b x =>
          obtain ⟨rfl, rfl⟩ := List.cons.inj e
          have := ((hstep x).1 h).2 [] x (by simp)
          subst this
          rfl
    · rw [if_neg hp, Option.map_eq_some_iff]
      have hi' : position d i c < d.length := by omega
      constructor
      · rintro ⟨⟨x', r'⟩, h, e⟩
        simp at e
        obtain ⟨rfl, rfl⟩ := e
        obtain ⟨rfl, h, -⟩ := (ih _ x' r' hi').1 h
        exact ⟨rfl, (hstep x').2 h, by simp⟩
      · rintro ⟨e, h, hx⟩
        cases x with
        | nil => exact absurd rfl hx
        | cons b x =>
          obtain ⟨rfl, rfl⟩ := List.cons.inj e
          have h' := (hstep x).1 h
          refine ⟨(x, r), (ih _ x r hi').2 ⟨rfl, h', ?_⟩, rfl⟩
          rintro rfl
          rw [List.append_nil] at h'
          exact hnf _ hi' h'

/-! ## Prefixes -/

theorem prefixed_char {id : Str} (h : id ≠ []) : (prefixed '\'' id).1 = id.length ↔ id ∈ prefixes := by
  unfold prefixed prefixes
  rcases id with _ | ⟨a, _ | ⟨b, id⟩⟩
  · exact absurd rfl h
  · simp
    by_cases h1 : a = 'u' <;> by_cases h2 : a = 'L' <;> by_cases h3 : a = 'U' <;> by_cases h4 : a = 'R' <;>
      simp_all
  · by_cases h1 : a = 'u' <;> by_cases h2 : a = 'L' <;> by_cases h3 : a = 'U' <;> by_cases h4 : a = 'R' <;>
      by_cases h5 : b = '8' <;> simp_all <;> omega

theorem prefixed_string {id : Str} (h : id ≠ []) :
    (((prefixed '"' id).1 = id.length ∧ (prefixed '"' id).2 = false) ↔ id ∈ prefixes) ∧
    (((prefixed '"' id).1 = id.length ∧ (prefixed '"' id).2 = true) ↔ id ∈ rawPrefixes) := by
  unfold prefixed prefixes rawPrefixes
  rcases id with _ | ⟨a, _ | ⟨b, _ | ⟨c, id⟩⟩⟩
  · exact absurd rfl h
  · simp
    by_cases h1 : a = 'u' <;> by_cases h2 : a = 'L' <;> by_cases h3 : a = 'U' <;> by_cases h4 : a = 'R' <;>
      simp_all
  · by_cases h1 : a = 'u' <;> by_cases h2 : a = 'L' <;> by_cases h3 : a = 'U' <;> by_cases h4 : a = 'R' <;>
      by_cases h5 : b = '8' <;> by_cases h6 : b = 'R' <;> simp_all
  · by_cases h1 : a = 'u' <;> by_cases h2 : a = 'L' <;> by_cases h3 : a = 'U' <;> by_cases h4 : a = 'R' <;>
      by_cases h5 : b = '8' <;> by_cases h6 : b = 'R' <;> by_cases h7 : c = 'R' <;> simp_all

end Verif.CcLex
