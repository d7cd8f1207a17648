import Verif.CcLex.Punct

/-!
# C and C++ tokens: tokens
-/

namespace Verif.CcLex

theorem quoted_iff {q : Char} (hq : q ≠ '\\') (hn : q ≠ '\n') {k k' : Kind} {p r t r' : Str} :
    quoted q k p r = .ok ⟨k', t, r'⟩ ↔
      k' = k ∧ ∃ b u, t = p ++ b ++ q :: u ∧ r = b ++ q :: (u ++ r') ∧ Body q b ∧ Suffix u r' := by
  unfold quoted
  constructor
  · intro h
    split at h
    · cases h
    · rename_i x r1 e
      injection h with h
      simp only [Lexed.mk.injEq] at h
      obtain ⟨rfl, rfl, rfl⟩ := h
      obtain ⟨b, rfl, rfl, -, hb⟩ := ((literal_iff hq _ _ _ _).1 hq).1 e
      obtain ⟨e1, e2⟩ := suffix_iff.1 (show suffix r1 = ((suffix r1).1, (suffix r1).2) from rfl)
      refine ⟨rfl, b, (suffix r1).1, by simp, ?_, hb, e2⟩
      rw [← e1]
  · rintro ⟨rfl, b, u, rfl, rfl, hb, hu⟩
    rw [((literal_iff hq _ _ (b ++ [q]) (u ++ r')).1 hq).2 ⟨b, rfl, rfl, hn, hb⟩]
    simp only [suffix_iff.2 ⟨rfl, hu⟩]
    simp

theorem first_iff {d b : Str} : First d (b ++ d) ↔ ∀ a x, b ++ d = a ++ d ++ x → x = [] :=
  ⟨fun h => h.2, fun h => ⟨List.suffix_append b d, h⟩⟩

theorem rawString_iff {p r t r' : Str} {k : Kind} :
    rawString p r = .ok ⟨k, t, r'⟩ ↔
      k = .string ∧ ∃ d b u, t = p ++ d ++ '(' :: (b ++ (')' :: d ++ ['"']) ++ u) ∧
        r = d ++ '(' :: (b ++ (')' :: d ++ ['"']) ++ u ++ r') ∧
        (∀ c ∈ d, c ≠ '(' ∧ c ≠ ')' ∧ c ≠ '\\' ∧ c ≠ ' ') ∧
        (∀ a x, b ++ (')' :: d ++ ['"']) = a ++ (')' :: d ++ ['"']) ++ x → x = []) ∧ Suffix u r' := by
  have hne : ∀ d : Str, (∀ c ∈ d, c ≠ '(' ∧ c ≠ ')' ∧ c ≠ '\\' ∧ c ≠ ' ') → ')' ∉ d ++ ['"'] := by
    intro d hd h
    rcases List.mem_append.1 h with h | h
    · exact (hd _ h).2.1 rfl
    · simp at h
  unfold rawString
  constructor
  · intro h
    split at h
    · cases h
    · rename_i d r1 e1
      split at h
      · cases h
      · rename_i x r2 e2
        injection h with h
        simp only [Lexed.mk.injEq] at h
        obtain ⟨rfl, rfl, rfl⟩ := h
        obtain ⟨rfl, hd⟩ := delimiter_iff.1 e1
        obtain ⟨rfl, hf, hx⟩ := (rawBody_iff (hne d hd) r1 0 x r2 (by simp)).1 e2
        rw [List.take_zero, List.nil_append] at hf
        obtain ⟨b, rfl⟩ := hf.1
        obtain ⟨e3, e4⟩ := suffix_iff.1 (show suffix r2 = ((suffix r2).1, (suffix r2).2) from rfl)
        refine ⟨rfl, d, b, (suffix r2).1, by simp, ?_, hd, hf.2, e4⟩
        rw [List.append_assoc _ _ (suffix r2).2, ← e3]
        rfl
  · rintro ⟨rfl, d, b, u, rfl, rfl, hd, hf, hu⟩
    rw [delimiter_iff.2 ⟨rfl, hd⟩]
    have := (rawBody_iff (hne d hd) (b ++ (')' :: d ++ ['"']) ++ u ++ r') 0 (b ++ (')' :: d ++ ['"'])) (u ++ r')
      (by simp)).2 ⟨by simp, by rw [List.take_zero, List.nil_append]; exact first_iff.2 hf, by simp⟩
    rw [← List.cons_append] at this
    simp only [this]
    simp only [suffix_iff.2 ⟨rfl, hu⟩]
    simp

theorem starts_not_word {c : Char} (h : c ∈ starts) : isWord c = false ∧ c.isDigit = false ∧ c ≠ '\'' ∧ c ≠ '"' := by
  have h' : (starts.all fun c => !isWord c && !c.isDigit && c != '\'' && c != '"') = true := by decide
  have := List.all_eq_true.1 h' c h
  simpa [and_assoc] using this

theorem digit_word {c : Char} (h : c.isDigit = true) : isWord c = true := by
  unfold isWord
  simp [Char.isAlphanum, h]

/-- How a literal starts. -/
theorem prefix_head {p x : Str} {q c : Char} {r : Str} (hp : p ∈ prefixes ++ rawPrefixes)
    (e : c :: r = p ++ q :: x) :
    (p = [] ∧ c = q ∧ r = x) ∨
      (∃ p', p = c :: p' ∧ r = p' ++ q :: x ∧ isWord c = true ∧ c.isDigit = false ∧ ∀ d ∈ p', isWord d = true) := by
  cases p with
  | nil => obtain ⟨rfl, rfl⟩ := List.cons.inj e; exact .inl ⟨rfl, rfl, rfl⟩
  | cons d p =>
    obtain ⟨rfl, rfl⟩ := List.cons.inj e
    have h' : ((prefixes ++ rawPrefixes).all fun p => p == [] ||
      ((p.head?.map fun c => isWord c && !c.isDigit).getD false && p.tail.all isWord)) = true := by decide
    have := List.all_eq_true.1 h' _ hp
    simp at this
    exact .inr ⟨p, rfl, rfl, this.1.1, this.1.2, this.2⟩

theorem with_mem {c : Char} {p : Str} {k : Kind} (h : (p, k) ∈ puncts) (hp : p.head? = some c) : p ∈ with_ c :=
  List.mem_map.2 ⟨(p, k), List.mem_filter.2 ⟨h, by simp [hp]⟩, rfl⟩

/-- The places where tokens that are not punctuation start. -/
theorem lexeme_other {c : Char} {r : Str} (hc : c ∉ starts) :
    lexeme c r =
      if c.isDigit then .ok ⟨.number, c :: (number false r).1, (number false r).2⟩
      else if isWord c then identifier c r
      else if c = '\'' ∨ c = '"' then literalToken false [c] c r
      else .ok ⟨.other, [c], r⟩ := by
  have hc' := hc
  unfold starts at hc
  simp only [List.mem_cons, List.not_mem_nil, or_false, not_or] at hc
  unfold lexeme
  rw [if_neg hc.1, if_neg hc.2.1, if_neg hc.2.2.1, if_neg (by simp; simp [hc]), if_neg (by simp [hc]),
    if_neg (by simp; simp [hc]), if_neg (by simp [hc]), if_neg (by simp [hc]), if_neg (by simp [hc]),
    if_neg (by simp [hc])]

/-- The kinds of tokens that start with punctuation characters. -/
theorem Lexeme.of_start {c : Char} {r t r' : Str} {k : Kind} (hc : c ∈ starts)
    (hd : ¬ (c = '.' ∧ ∃ d, r.head? = some d ∧ d.isDigit = true)) (h : Lexeme (c :: r) k t r') :
    (t, k) ∈ puncts ∧ c :: r = t ++ r' ∧ ∀ q k', (q, k') ∈ puncts → q <+: c :: r → q.length ≤ t.length := by
  obtain ⟨n1, n2, n3, n4⟩ := starts_not_word hc
  have hlit : ∀ {p x : Str} {q : Char}, p ∈ prefixes ++ rawPrefixes → q = '\'' ∨ q = '"' →
      c :: r = p ++ q :: x → False := by
    intro p x q hp hq e
    rcases prefix_head hp e with ⟨-, rfl, -⟩ | ⟨p', -, -, h, -⟩
    · rcases hq with h | h
      · exact n3 h
      · exact n4 h
    · rw [n1] at h; cases h
  generalize hs : c :: r = s at h
  cases h with
  | punct h1 h2 h3 => exact ⟨h1, rfl, h2⟩
  | number h1 _ => obtain ⟨rfl, -⟩ := List.cons.inj hs; rw [n2] at h1; cases h1
  | fraction h1 _ => obtain ⟨rfl, rfl⟩ := List.cons.inj hs; exact absurd ⟨rfl, _, rfl, h1⟩ hd
  | @word t r h1 h2 =>
    cases t with
    | nil => exact absurd rfl h1
    | cons d t =>
      obtain ⟨rfl, -⟩ := List.cons.inj hs
      have := h2 _ List.mem_cons_self
      rw [n1] at this; cases this
  | @character p b t r h1 =>
    exact (hlit (List.mem_append_left _ h1) (.inl rfl) (by rw [hs]; simp; rfl)).elim
  | string h1 => exact (hlit (List.mem_append_left _ h1) (.inr rfl) (by rw [hs]; simp; rfl)).elim
  | raw h1 => exact (hlit (List.mem_append_right _ h1) (.inr rfl) (by rw [hs]; simp; rfl)).elim
  | other _ _ _ h =>
    obtain ⟨rfl, rfl⟩ := List.cons.inj hs
    have hx : (starts.all fun c => puncts.any fun x => x.1.head? == some c) = true := by decide
    have := List.all_eq_true.1 hx _ hc
    obtain ⟨x, hx1, hx2⟩ := List.any_eq_true.1 this
    exact absurd (by simpa using hx2) (h x.1 x.2 hx1)

/-- The token that is read is the first token. -/
theorem lexeme_iff {c : Char} {r t r' : Str} {k : Kind} :
    lexeme c r = .ok ⟨k, t, r'⟩ ↔ Lexeme (c :: r) k t r' := by
  by_cases hs : c ∈ starts
  · by_cases hd : c = '.' ∧ ∃ d, r.head? = some d ∧ d.isDigit = true
    · -- A fraction.
      obtain ⟨rfl, d, hd1, hd2⟩ := hd
      cases r with
      | nil => cases hd1
      | cons e r =>
        simp at hd1
        subst hd1
        have hn : e ≠ '*' ∧ e ≠ '.' := by
          constructor <;> rintro rfl <;> exact absurd hd2 (by decide)
        have hl : lexeme '.' (e :: r) =
            .ok ⟨.number, '.' :: (number false (e :: r)).1, (number false (e :: r)).2⟩ := by
          have : lexeme '.' (e :: r) = if e = '*' then .ok ⟨.punctuation, ['.', e], r⟩
            else if e.isDigit then .ok ⟨.number, '.' :: (number false (e :: r)).1, (number false (e :: r)).2⟩
            else if e = '.' ∧ r.head? = some '.' then .ok ⟨.punctuation, ['.', e, '.'], r.tail⟩
            else .ok ⟨.dot, ['.'], e :: r⟩ := rfl
          rw [this, if_neg hn.1, if_pos hd2]
        rw [hl]
        obtain ⟨x, y, hxy⟩ : ∃ x y, number false (e :: r) = (x, y) := ⟨_, _, rfl⟩
        constructor
        · intro h
          rw [hxy] at h
          injection h with h
          simp only [Lexed.mk.injEq] at h
          obtain ⟨rfl, rfl, rfl⟩ := h
          obtain ⟨h1, h2⟩ := number_iff.1 hxy
          cases x with
          | nil =>
            rw [List.nil_append] at h1
            subst h1
            cases h2 with
            | nil h =>
              have := h e rfl
              unfold endsNumber at this
              exfalso
              have hne : ∀ c : Char, c.isDigit = false → e ≠ c := by
                intro c h1 h2
                rw [← h2, hd2] at h1
                cases h1
              have hall : (([' ', '\t', '\r', '\x0c', '\x0b', '\n'] ++
                "#;{}()[],?~=!*/%^><&|:+-\"\\@$`".toList).all fun c => !c.isDigit) = true := by decide
              rw [List.all_eq_true] at hall
              simp only [Bool.or_eq_true, beq_iff_eq, List.contains_iff_mem, isSpace] at this
              have hm : e ∈ [' ', '\t', '\r', '\x0c', '\x0b', '\n'] ++
                "#;{}()[],?~=!*/%^><&|:+-\"\\@$`".toList := by
                rcases this with (h | h) | h
                · apply List.mem_append_left
                  simp only [List.mem_cons, List.not_mem_nil, or_false] at h ⊢
                  rcases h with h | h | h | h | h <;> simp [h]
                · apply List.mem_append_left; simp [h]
                · exact List.mem_append_right _ h
              have := hall e hm
              rw [hd2] at this
              cases this
          | cons d x =>
            obtain ⟨rfl, rfl⟩ := List.cons.inj h1
            exact .fraction hd2 h2
        · intro h
          generalize hx : '.' :: e :: r = s at h
          have hlit : ∀ {p x : Str} {q : Char}, p ∈ prefixes ++ rawPrefixes → q = '\'' ∨ q = '"' →
              '.' :: e :: r = p ++ q :: x → False := by
            intro p x q hp hq e
            rcases prefix_head hp e with ⟨-, rfl, -⟩ | ⟨p', -, -, h, -⟩
            · rcases hq with h | h
              · exact absurd h (by decide)
              · exact absurd h (by decide)
            · exact absurd h (by decide)
          cases h with
          | @punct p _ _ h1 h2 h3 =>
            exfalso
            obtain ⟨a, ha, -⟩ := punct_start _ h1
            simp only at ha
            have hp := head_cons ha
            rw [hp] at hx
            obtain ⟨rfl, hx'⟩ := List.cons.inj hx
            have hm := with_mem h1 ha
            have hL : with_ '.' = [['.', '*'], ['.', '.', '.'], ['.']] := by decide
            rw [hL] at hm
            simp at hm
            rcases hm with rfl | rfl | rfl
            · exact hn.1 (List.cons.inj hx').1
            · exact hn.2 (List.cons.inj hx').1
            · simp at hx'
              subst hx'
              rw [h3 rfl e rfl] at hd2
              cases hd2
          | number h1 _ => obtain ⟨rfl, -⟩ := List.cons.inj hx; exact absurd h1 (by decide)
          | @fraction c t r'' _ h2 =>
            obtain ⟨-, hx⟩ := List.cons.inj hx
            have := number_complete h2
            rw [List.cons_append, ← hx] at this
            rw [this]
          | @word t r h1 h2 =>
            cases t with
            | nil => exact absurd rfl h1
            | cons d t =>
              obtain ⟨rfl, -⟩ := List.cons.inj hx
              exact absurd (h2 _ List.mem_cons_self) (by decide)
          | character h1 => exact (hlit (List.mem_append_left _ h1) (.inl rfl) (by rw [hx]; simp; rfl)).elim
          | string h1 => exact (hlit (List.mem_append_left _ h1) (.inr rfl) (by rw [hx]; simp; rfl)).elim
          | raw h1 => exact (hlit (List.mem_append_right _ h1) (.inr rfl) (by rw [hx]; simp; rfl)).elim
          | other _ _ _ h =>
            obtain ⟨rfl, rfl⟩ := List.cons.inj hx
            exact absurd rfl (h ['.'] .dot (by decide))
    · obtain ⟨p, k₁, r₁, h1, h2, h3, h4⟩ := lexeme_punct hs hd
      rw [h1]
      constructor
      · intro h
        injection h with h
        simp only [Lexed.mk.injEq] at h
        obtain ⟨rfl, rfl, rfl⟩ := h
        rw [h3] at h4 ⊢
        refine .punct h2 h4 ?_
        rintro rfl d hdd
        obtain ⟨rfl, rfl⟩ := List.cons.inj h3
        cases hx : d.isDigit with
        | false => rfl
        | true => exact absurd ⟨rfl, d, hdd, hx⟩ hd
      · intro h
        obtain ⟨g1, g2, g3⟩ := h.of_start hs hd
        have hlen : t.length = p.length := by
          refine Nat.le_antisymm ?_ ?_
          · exact h4 t k g1 ⟨r', g2.symm⟩
          · exact g3 p k₁ h2 ⟨r₁, h3.symm⟩
        obtain ⟨rfl, rfl⟩ := List.append_inj (g2.symm.trans h3) hlen
        rw [punct_unique g1 h2]
  · rw [lexeme_other hs]
    have hnp : ∀ {s p r'' : Str} {k : Kind}, c :: r = s → s = p ++ r'' → (p, k) ∈ puncts → False := by
      rintro s p r'' k rfl e h1
      obtain ⟨a, ha, hm⟩ := punct_start _ h1
      simp only at ha
      rw [head_cons ha] at e
      obtain ⟨rfl, -⟩ := List.cons.inj e
      exact hs hm
    have hdot : c ≠ '.' := by rintro rfl; exact hs (by decide)
    by_cases hd : c.isDigit = true
    · rw [if_pos hd]
      have hw := digit_word hd
      constructor
      · intro h
        injection h with h
        simp only [Lexed.mk.injEq] at h
        obtain ⟨rfl, rfl, rfl⟩ := h
        obtain ⟨h1, h2⟩ := number_iff.1 (show number false r = (_, _) from rfl)
        rw [show Lexeme (c :: r) = Lexeme (c :: ((number false r).1 ++ (number false r).2)) by rw [← h1]]
        exact .number hd h2
      · intro h
        have hlit : ∀ {p x : Str} {q : Char}, p ∈ prefixes ++ rawPrefixes → q = '\'' ∨ q = '"' →
            c :: r = p ++ q :: x → False := by
          intro p x q hp hq e
          rcases prefix_head hp e with ⟨-, rfl, -⟩ | ⟨p', -, -, -, h, -⟩
          · rcases hq with h | h
            · subst h; exact absurd hd (by decide)
            · subst h; exact absurd hd (by decide)
          · rw [hd] at h; cases h
        generalize hx : c :: r = s at h
        cases h with
        | punct h1 h2 h3 => exact (hnp hx rfl h1).elim
        | number h1 h2 =>
          obtain ⟨rfl, rfl⟩ := List.cons.inj hx
          have := number_complete h2
          rw [show number false _ = _ from this]
        | fraction => exact absurd (List.cons.inj hx).1 hdot
        | @word t r h1 h2 h3 =>
          cases t with
          | nil => exact absurd rfl h1
          | cons d t =>
            obtain ⟨rfl, -⟩ := List.cons.inj hx
            rw [h3 _ rfl] at hd
            cases hd
        | character h1 => exact (hlit (List.mem_append_left _ h1) (.inl rfl) (by rw [hx]; simp; rfl)).elim
        | string h1 => exact (hlit (List.mem_append_left _ h1) (.inr rfl) (by rw [hx]; simp; rfl)).elim
        | raw h1 => exact (hlit (List.mem_append_right _ h1) (.inr rfl) (by rw [hx]; simp; rfl)).elim
        | other h1 =>
          obtain ⟨rfl, -⟩ := List.cons.inj hx
          rw [hw] at h1; cases h1
    rw [if_neg hd]
    have hd' : c.isDigit = false := by simpa using hd
    by_cases hw : isWord c = true
    · rw [if_pos hw]
      -- How the word ends.
      have hspan := span_iff (p := isWord) (s := r) (t := r.takeWhile isWord) (r := r.dropWhile isWord)
      obtain ⟨e0, hin, hout⟩ := hspan.1 ⟨rfl, rfl⟩
      unfold identifier
      dsimp only
      generalize ht : r.takeWhile isWord = w at *
      generalize hr : r.dropWhile isWord = z at *
      have hall : ∀ d ∈ c :: w, isWord d = true := by
        intro d hd
        rcases List.mem_cons.1 hd with rfl | hd
        · exact hw
        · exact hin d hd
      have huniq : ∀ {w' z' : Str}, r = w' ++ z' → (∀ d ∈ w', isWord d = true) →
          (∀ d, z'.head? = some d → isWord d = false) → w' = w ∧ z' = z := by
        intro w' z' e h1 h2
        obtain ⟨a, b⟩ := span_iff.2 ⟨e, h1, h2⟩
        exact ⟨a.symm.trans ht, b.symm.trans hr⟩
      have hq1 : isWord '\'' = false := by decide
      have hq2 : isWord '"' = false := by decide
      -- A literal with this prefix.
      have hlit : ∀ {p x : Str} {q : Char}, p ∈ prefixes ++ rawPrefixes → q = '\'' ∨ q = '"' →
          c :: r = p ++ q :: x → p = c :: w ∧ z = q :: x := by
        intro p x q hp hq e
        have hqw : isWord q = false := by rcases hq with rfl | rfl <;> decide
        rcases prefix_head hp e with ⟨-, rfl, -⟩ | ⟨p', rfl, e', -, -, h⟩
        · rw [hw] at hqw; cases hqw
        · obtain ⟨rfl, rfl⟩ := huniq e' h (by intro d hd; simp at hd; subst hd; exact hqw)
          exact ⟨rfl, rfl⟩
      constructor
      · intro h
        split at h
        · injection h with h
          simp only [Lexed.mk.injEq] at h
          obtain ⟨rfl, rfl, rfl⟩ := h
          rw [e0]
          exact .word (by simp) hall (by intro d hd; simp at hd; subst hd; exact hd') (by simp) (by simp) (by simp)
        · rename_i q z'
          split at h
          · rename_i hc
            obtain ⟨hq, hlen⟩ := hc
            unfold literalToken at h
            by_cases hq' : q = '\''
            · rw [if_pos hq'] at h
              subst hq'
              obtain ⟨rfl, b, u, rfl, rfl, hb, hu⟩ := (quoted_iff (by decide) (by decide)).1 h
              have := Lexeme.character ((prefixed_char (by simp)).1 hlen) hb hu
              rw [e0]
              simpa using this
            · have hq'' : q = '"' := by rcases hq with h | h; exact absurd h hq'; exact h
              subst hq''
              rw [if_neg hq'] at h
              by_cases hraw : (prefixed '"' (c :: w)).2 = true
              · rw [if_pos hraw] at h
                obtain ⟨rfl, d, b, u, rfl, rfl, h1, h2, h3⟩ := rawString_iff.1 h
                have := Lexeme.raw ((prefixed_string (by simp)).2.1 ⟨hlen, hraw⟩) h1 h2 h3
                rw [e0]
                simpa using this
              · rw [if_neg hraw] at h
                obtain ⟨rfl, b, u, rfl, rfl, hb, hu⟩ := (quoted_iff (by decide) (by decide)).1 h
                have := Lexeme.string ((prefixed_string (by simp)).1.1 ⟨hlen, by simpa using hraw⟩) hb hu
                rw [e0]
                simpa using this
          · rename_i hc
            injection h with h
            simp only [Lexed.mk.injEq] at h
            obtain ⟨rfl, rfl, rfl⟩ := h
            rw [e0, ← List.cons_append]
            refine .word (by simp) hall (by intro d hd; simp at hd; subst hd; exact hd') hout ?_ ?_
            · intro hq hm
              simp at hq
              subst hq
              exact hc ⟨.inl rfl, (prefixed_char (by simp)).2 hm⟩
            · intro hq hm
              simp at hq
              subst hq
              refine hc ⟨.inr rfl, ?_⟩
              rcases List.mem_append.1 hm with hm | hm
              · exact ((prefixed_string (by simp)).1.2 hm).1
              · exact ((prefixed_string (by simp)).2.2 hm).1
      · intro h
        generalize hx : c :: r = s at h
        cases h with
        | punct h1 h2 h3 => exact (hnp hx rfl h1).elim
        | number h1 h2 =>
          obtain ⟨rfl, -⟩ := List.cons.inj hx
          exact absurd h1 hd
        | fraction => exact absurd (List.cons.inj hx).1 hdot
        | @word t r h1 h2 h3 h4 h5 h6 =>
          cases t with
          | nil => exact absurd rfl h1
          | cons d t =>
            obtain ⟨rfl, hx'⟩ := List.cons.inj hx
            obtain ⟨rfl, rfl⟩ := huniq hx' (fun d hd => h2 d (List.mem_cons_of_mem _ hd)) h4
            cases r' with
            | nil => rfl
            | cons q r =>
              simp only
              rw [if_neg]
              rintro ⟨hq, hlen⟩
              rcases hq with rfl | rfl
              · exact h5 rfl ((prefixed_char (by simp)).1 hlen)
              · refine h6 rfl (List.mem_append.2 ?_)
                cases hf : (prefixed '"' (c :: t)).2 with
                | false => exact .inl ((prefixed_string (by simp)).1.1 ⟨hlen, hf⟩)
                | true => exact .inr ((prefixed_string (by simp)).2.1 ⟨hlen, hf⟩)
        | @character p b t _ h1 hb hu =>
          obtain ⟨rfl, rfl⟩ := hlit (x := b ++ '\'' :: (t ++ r')) (List.mem_append_left _ h1) (.inl rfl)
            (by rw [hx]; simp)
          simp only
          rw [if_pos ⟨by simp, (prefixed_char (by simp)).2 h1⟩]
          unfold literalToken
          rw [if_pos rfl, quoted_iff (by decide) (by decide)]
          exact ⟨rfl, b, t, by simp, rfl, hb, hu⟩
        | @string p b t _ h1 hb hu =>
          obtain ⟨rfl, rfl⟩ := hlit (x := b ++ '"' :: (t ++ r')) (List.mem_append_left _ h1) (.inr rfl)
            (by rw [hx]; simp)
          simp only
          have hp := (prefixed_string (by simp)).1.2 h1
          rw [if_pos ⟨by simp, hp.1⟩]
          unfold literalToken
          rw [if_neg (by decide), hp.2, if_neg (by decide), quoted_iff (by decide) (by decide)]
          exact ⟨rfl, b, t, by simp, rfl, hb, hu⟩
        | @raw p d b t _ h1 h2 h3 hu =>
          obtain ⟨rfl, rfl⟩ := hlit (x := d ++ '(' :: (b ++ (')' :: d ++ ['"']) ++ t ++ r'))
            (List.mem_append_right _ h1) (.inr rfl) (by rw [hx]; simp)
          simp only
          have hp := (prefixed_string (by simp)).2.2 h1
          rw [if_pos ⟨by simp, hp.1⟩]
          unfold literalToken
          rw [if_neg (by decide), hp.2, if_pos rfl, rawString_iff]
          exact ⟨rfl, d, b, t, by simp, rfl, h2, h3, hu⟩
        | other h1 =>
          obtain ⟨rfl, -⟩ := List.cons.inj hx
          rw [hw] at h1; cases h1
    · rw [if_neg hw]
      have hword : ∀ {t r'' : Str}, t ≠ [] → (∀ c ∈ t, isWord c = true) → c :: r = t ++ r'' → False := by
        intro t r'' h1 h2 e
        cases t with
        | nil => exact h1 rfl
        | cons d t =>
          obtain ⟨rfl, -⟩ := List.cons.inj e
          exact hw (h2 _ List.mem_cons_self)
      have hlit : ∀ {p x : Str} {q : Char}, p ∈ prefixes ++ rawPrefixes →
          c :: r = p ++ q :: x → p = [] ∧ c = q ∧ r = x := by
        intro p x q hp e
        rcases prefix_head hp e with h | ⟨p', -, -, h, -⟩
        · exact h
        · exact absurd h hw
      by_cases hq : c = '\'' ∨ c = '"'
      · rw [if_pos hq]
        unfold literalToken
        constructor
        · intro h
          by_cases hq' : c = '\''
          · rw [if_pos hq'] at h
            subst hq'
            obtain ⟨rfl, b, u, rfl, rfl, hb, hu⟩ := (quoted_iff (by decide) (by decide)).1 h
            have := Lexeme.character (p := []) (by decide) hb hu
            simpa using this
          · have hq'' : c = '"' := by rcases hq with h | h; exact absurd h hq'; exact h
            subst hq''
            rw [if_neg hq', if_neg (by decide)] at h
            obtain ⟨rfl, b, u, rfl, rfl, hb, hu⟩ := (quoted_iff (by decide) (by decide)).1 h
            have := Lexeme.string (p := []) (by decide) hb hu
            simpa using this
        · intro h
          generalize hx : c :: r = s at h
          cases h with
          | punct h1 h2 h3 => exact (hnp hx rfl h1).elim
          | number h1 h2 =>
            obtain ⟨rfl, -⟩ := List.cons.inj hx
            exact absurd h1 hd
          | fraction => exact absurd (List.cons.inj hx).1 hdot
          | word h1 h2 => exact (hword h1 h2 hx).elim
          | @character p b t _ h1 hb hu =>
            obtain ⟨rfl, rfl, rfl⟩ := hlit (q := '\'') (x := b ++ '\'' :: (t ++ r')) (List.mem_append_left _ h1)
              (by rw [hx]; simp)
            rw [if_pos rfl, quoted_iff (by decide) (by decide)]
            exact ⟨rfl, b, t, by simp, rfl, hb, hu⟩
          | @string p b t _ h1 hb hu =>
            obtain ⟨rfl, rfl, rfl⟩ := hlit (q := '"') (x := b ++ '"' :: (t ++ r')) (List.mem_append_left _ h1)
              (by rw [hx]; simp)
            rw [if_neg (by decide), if_neg (by decide), quoted_iff (by decide) (by decide)]
            exact ⟨rfl, b, t, by simp, rfl, hb, hu⟩
          | @raw p d b t _ h1 h2 h3 hu =>
            obtain ⟨rfl, -⟩ := hlit (q := '"') (x := d ++ '(' :: (b ++ (')' :: d ++ ['"']) ++ t ++ r'))
              (List.mem_append_right _ h1) (by rw [hx]; simp)
            exact absurd h1 (by decide)
          | other h1 h2 h3 =>
            obtain ⟨rfl, -⟩ := List.cons.inj hx
            rcases hq with h | h
            · exact absurd h h2
            · exact absurd h h3
      · rw [if_neg hq]
        constructor
        · intro h
          injection h with h
          simp only [Lexed.mk.injEq] at h
          obtain ⟨rfl, rfl, rfl⟩ := h
          refine .other (by simpa using hw) (fun h => hq (.inl h)) (fun h => hq (.inr h)) ?_
          intro q k h1 h2
          obtain ⟨a, ha, hm⟩ := punct_start _ h1
          simp only at ha
          rw [h2] at ha
          exact hs ((Option.some.inj ha) ▸ hm)
        · intro h
          generalize hx : c :: r = s at h
          cases h with
          | punct h1 h2 h3 => exact (hnp hx rfl h1).elim
          | number h1 h2 =>
            obtain ⟨rfl, -⟩ := List.cons.inj hx
            exact absurd h1 hd
          | fraction => exact absurd (List.cons.inj hx).1 hdot
          | word h1 h2 => exact (hword h1 h2 hx).elim
          | character h1 =>
            obtain ⟨-, h, -⟩ := hlit (q := '\'') (List.mem_append_left _ h1) (by rw [hx]; simp; rfl)
            exact absurd (.inl h) hq
          | string h1 =>
            obtain ⟨-, h, -⟩ := hlit (q := '"') (List.mem_append_left _ h1) (by rw [hx]; simp; rfl)
            exact absurd (.inr h) hq
          | raw h1 =>
            obtain ⟨-, h, -⟩ := hlit (q := '"') (List.mem_append_right _ h1) (by rw [hx]; simp; rfl)
            exact absurd (.inr h) hq
          | other =>
            obtain ⟨rfl, rfl⟩ := List.cons.inj hx
            rfl

theorem Lexeme.split {s t r : Str} {k : Kind} (h : Lexeme s k t r) : s = t ++ r ∧ t ≠ [] := by
  cases h with
  | punct h =>
    refine ⟨rfl, ?_⟩
    rintro rfl
    obtain ⟨c, h, -⟩ := punct_start _ h
    cases h
  | number => exact ⟨rfl, by simp⟩
  | fraction => exact ⟨rfl, by simp⟩
  | word h => exact ⟨rfl, h⟩
  | character => exact ⟨rfl, by simp⟩
  | string => exact ⟨rfl, by simp⟩
  | raw => exact ⟨rfl, by simp⟩
  | other => exact ⟨rfl, by simp⟩

end Verif.CcLex
