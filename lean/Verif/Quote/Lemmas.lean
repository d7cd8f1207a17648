import Verif.Quote.Model

namespace Verif.Quote

theorem sub_nsc {c : Char} (h : c ∈ seps) : c ∈ nsc := by
  revert h; unfold seps nsc; simp; intro h; rcases h with h|h|h|h|h|h|h|h|h <;> simp [h]

/-- Characters that are themselves outside of quotes. -/
def Plain (pair c : Char) : Prop := c ∉ nsc ∧ c ≠ pair ∧ c ≠ '\''

theorem step_value (pair : Char) {c : Char} (h : c ≠ '\\') (a : List Char) (q : Q) (p : Char)
    (l : List Char) : wordLoop pair .value a q p (c :: l) =
    if c = pair ∨ c ∈ seps then some (.value, a, q, ⟨p, c :: l⟩)
    else if c = '\'' then wordLoop pair .single a (openSingle a q) c l
    else if c = '"' then wordLoop pair .double a (openDouble a q) c l
    else wordLoop pair .value (a ++ [c]) (appendQ .value false a q) c l := by
  rw [wordLoop.eq_def]; simp only [if_neg h]

theorem step_double (pair : Char) {c : Char} (h : c ≠ '\\') (a : List Char) (q : Q) (p : Char)
    (l : List Char) : wordLoop pair .double a q p (c :: l) =
    if c = '$' ∨ c = '(' then some (.double, a, { q with comp := false }, ⟨p, c :: l⟩)
    else if c = '"' then wordLoop pair .value a q c l
    else wordLoop pair .double (a ++ [c]) (appendQ .double false a q) c l := by
  rw [wordLoop.eq_def]; simp only [if_neg h]

theorem loop_plain (pair : Char) (v : List Char) (hv : ∀ c ∈ v, Plain pair c) (acc : List Char)
    (q : Q) (prev : Char) (rest : List Char) :
    ∃ q' prev', wordLoop pair .value acc q prev (v ++ rest) =
      wordLoop pair .value (acc ++ v) q' prev' rest ∧ q'.qt = q.qt ∧ q'.first = q.first ∧
      (prev' = '\n' → prev = '\n') := by
  induction v generalizing acc q prev with
  | nil => exact ⟨q, prev, by simp, rfl, rfl, id⟩
  | cons c v ih =>
    obtain ⟨h1, h2, h3⟩ := hv c (by simp)
    have e1 : c ≠ '\\' := by rintro rfl; exact h1 (by decide)
    have e2 : ¬ (c = pair ∨ c ∈ seps) := by
      rintro (h | h)
      · exact h2 h
      · exact h1 (sub_nsc h)
    have e3 : c ≠ '"' := by rintro rfl; exact h1 (by decide)
    have e4 : c ≠ '\n' := by rintro rfl; exact h1 (by decide)
    obtain ⟨q', prev', g1, g2, g3, g4⟩ := ih (fun d hd => hv d (by simp [hd])) (acc ++ [c])
      (appendQ .value false acc q) c
    refine ⟨q', prev', ?_, ?_, ?_, fun h => absurd (g4 h) e4⟩
    · rw [List.cons_append, step_value pair e1, if_neg e2, if_neg h3, if_neg e3, g1]
      simp
    · rw [g2]; simp only [appendQ]; split <;> simp <;> (try split) <;> rfl
    · rw [g3]; simp only [appendQ]; split <;> simp <;> (try split) <;> simp_all

theorem loop_single (pair : Char) (v : List Char) (hv : '\'' ∉ v) (acc : List Char)
    (q : Q) (prev : Char) (rest : List Char) :
    wordLoop pair .single acc q prev (v ++ '\'' :: rest) =
      wordLoop pair .value (acc ++ v) q '\'' rest := by
  induction v generalizing acc prev with
  | nil => simp [wordLoop]
  | cons c v ih =>
    have h1 : c ≠ '\'' := by rintro rfl; simp at hv
    rw [List.cons_append, wordLoop, if_neg h1, ih (by simp at hv; exact hv.2)]
    simp

theorem loop_double (pair : Char) (v : List Char) (acc : List Char)
    (q : Q) (prev : Char) (rest : List Char) :
    ∃ q', wordLoop pair .double acc q prev (escapeDq v ++ '"' :: rest) =
      wordLoop pair .value (acc ++ v) q' '"' rest ∧ q'.qt = q.qt ∧ (q.first = true → q'.first = true) ∧
      (acc ≠ [] → q'.first = q.first) := by
  induction v generalizing acc q prev with
  | nil =>
    refine ⟨q, ?_, rfl, id, fun _ => rfl⟩
    rw [escapeDq, List.nil_append, step_double pair (by decide)]; simp
  | cons c v ih =>
    have hap : ∀ b, (appendQ .double b acc q).qt = q.qt ∧
        (q.first = true → (appendQ .double b acc q).first = true) ∧
        (acc ≠ [] → (appendQ .double b acc q).first = q.first) := by
      intro b; simp only [appendQ]
      by_cases hacc : acc = [] <;> simp [hacc]
    by_cases hc : c ∈ ['\\', '$', '(', '"']
    · obtain ⟨q', g1, g2, g3, g4⟩ := ih (acc ++ [c]) (appendQ .double true acc q) c
      refine ⟨q', ?_, ?_, ?_, ?_⟩
      · rw [escapeDq, if_pos hc, List.cons_append, List.cons_append, wordLoop, if_pos rfl]
        have h1 : c ∈ dqEscapes := by revert hc; simp [dqEscapes]; rintro (h|h|h|h) <;> simp [h]
        have h2 : c ≠ '\n' := by rintro rfl; revert hc; decide
        simp only [if_pos h1, if_pos h2, ne_eq]
        rw [g1]; simp
      · rw [g2, (hap true).1]
      · exact fun h => g3 ((hap true).2.1 h)
      · intro h; rw [g4 (by simp), (hap true).2.2 h]
    · obtain ⟨q', g1, g2, g3, g4⟩ := ih (acc ++ [c]) (appendQ .double false acc q) c
      simp at hc
      refine ⟨q', ?_, ?_, ?_, ?_⟩
      · rw [escapeDq, if_neg (by simp [hc]), List.cons_append,
          step_double pair hc.1, if_neg (by simp [hc]), if_neg hc.2.2.2, g1]
        simp
      · rw [g2, (hap false).1]
      · exact fun h => g3 ((hap false).2.1 h)
      · intro h; rw [g4 (by simp), (hap false).2.2 h]

/-- What reading a written string does to the flags. -/
structure Flags (pair : Char) (v : List Char) (pat : Option Pat) (curly : Bool) (acc : List Char)
    (q q' : Q) : Prop where
  wild : q'.qt = .unquoted → pat = none → '*' ∉ v ∧ '?' ∉ v ∧ '[' ∉ v
  lead : acc = [] → pat = none → (regexLike v = true ∨ (v.head? = some '+' ∧ curly = true)) →
    q'.first = true
  keep : (∀ c ∈ v, Plain pair c) → pat = some .path → q'.qt = q.qt
  leadPath : (∀ c ∈ v, Plain pair c) → acc = [] → pat = some .path →
    (regexLike v = true ∨ (v.head? = some '+' ∧ curly = true)) → q'.first = true
  intro : (pat = some .regex ∨ pat = some .subst) → q.first = false → q'.first = false

theorem openSingle_qt (l : List Char) (q : Q) : (openSingle l q).qt ≠ .unquoted ∧
    (l = [] → (openSingle l q).first = true) ∧ (l ≠ [] → (openSingle l q).first = q.first) := by
  refine ⟨?_, ?_, ?_⟩ <;> (rcases q with ⟨qt, c, f⟩; cases qt <;> by_cases h : l = [] <;>
    simp [openSingle, h])

theorem openDouble_qt (l : List Char) (q : Q) : (openDouble l q).qt ≠ .unquoted ∧
    (l = [] → (openDouble l q).first = true) ∧ (l ≠ [] → (openDouble l q).first = q.first) := by
  refine ⟨?_, ?_, ?_⟩ <;> (rcases q with ⟨qt, c, f⟩; cases qt <;> by_cases h : l = [] <;>
    simp [openDouble, h])

theorem appendQ_first (l : List Char) (b : Bool) (q : Q) :
    (appendQ .value b l q).qt = q.qt ∧ (l = [] → b = true → (appendQ .value b l q).first = true) ∧
    ((l ≠ [] ∨ b = false) → (appendQ .value b l q).first = q.first) := by
  refine ⟨?_, ?_, ?_⟩ <;>
    (rcases q with ⟨qt, c, f⟩; cases b <;> by_cases h : l = [] <;> cases c <;>
      simp [appendQ, h])

theorem head_of_lead {v : List Char} {curly : Bool}
    (h : (v.head? = some '+' ∧ curly = true) ∨ regexLike v = true) :
    ∃ c l, v = c :: l ∧ c ≠ '\n' := by
  cases v with
  | nil => rcases h with h | h <;> simp [regexLike] at h
  | cons c l =>
    refine ⟨c, l, rfl, ?_⟩
    rintro rfl
    rcases h with h | h
    · simp at h
    · cases l <;> simp [regexLike] at h

theorem plain_iff {pair : Char} {v : List Char} (h1 : '\'' ∉ v)
    (h2 : v.any (fun c => c ∈ nsc || c = pair) = false) : ∀ c ∈ v, Plain pair c := by
  intro c hc
  rw [List.any_eq_false] at h2
  have := h2 c hc
  simp at this
  exact ⟨this.1, this.2, by rintro rfl; exact h1 hc⟩

/-- Reading one written string, without the introducer of a regular expression. -/
theorem read_body (pair : Char) (v : List Char) (pat : Option Pat) (curly : Bool)
    (hpair : PairOk pair) (acc : List Char) (q : Q) (prev : Char) (rest : List Char)
    (hacc : pat = some .regex ∨ pat = some .subst → acc ≠ []) :
    ∃ q' prev', wordLoop pair .value acc q prev
        ((if '\'' ∈ v then '"' :: escapeDq v ++ ['"']
          else if v.any (fun c => c ∈ nsc || c = pair) || (pat = none && v.any (· ∈ ['*', '?'])) then
            '\'' :: v ++ ['\'']
          else if (pat = none ∨ pat = some .path) ∧
            ((v.head? = some '+' ∧ curly = true) ∨ regexLike v) then '\\' :: v
          else v) ++ rest) =
      wordLoop pair .value (acc ++ v) q' prev' rest ∧ (prev' = '\n' → prev = '\n') ∧
      Flags pair v pat curly acc q q' := by
  have hp1 : ¬ ('"' = pair ∨ '"' ∈ seps) := by
    rintro (h | h)
    · exact hpair (by rw [← h]; decide)
    · revert h; decide
  have hp2 : ¬ ('\'' = pair ∨ '\'' ∈ seps) := by
    rintro (h | h)
    · exact hpair (by rw [← h]; decide)
    · revert h; decide
  by_cases hq : '\'' ∈ v
  · rw [if_pos hq]
    obtain ⟨q', g1, g2, g3, g4⟩ := loop_double pair v acc (openDouble acc q) '"' rest
    obtain ⟨o1, o2, o3⟩ := openDouble_qt acc q
    refine ⟨q', '"', ?_, fun h => absurd h (by decide), ?_⟩
    · rw [← g1, List.cons_append, List.cons_append, step_value pair (by decide), if_neg hp1,
        if_neg (by decide), if_pos rfl]
      simp
    · refine ⟨?_, ?_, ?_, ?_, ?_⟩
      · intro h; rw [g2] at h; exact absurd h o1
      · intro h _ _; exact g3 (o2 h)
      · intro h; exact absurd rfl (h _ hq).2.2
      · intro h; exact absurd rfl (h _ hq).2.2
      · intro h hf; rw [g4 (hacc h), o3 (hacc h)]; exact hf
  · rw [if_neg hq]
    by_cases hs : (v.any (fun c => c ∈ nsc || c = pair) ||
        (pat = none && v.any (· ∈ ['*', '?']))) = true
    · rw [if_pos hs]
      obtain ⟨o1, o2, o3⟩ := openSingle_qt acc q
      refine ⟨openSingle acc q, '\'', ?_, fun h => absurd h (by decide), ?_⟩
      · rw [List.cons_append, List.cons_append, step_value pair (by decide), if_neg hp2, if_pos rfl]
        have := loop_single pair v hq acc (openSingle acc q) '\'' rest
        rw [← this]; simp
      · have nopl : (∀ c ∈ v, Plain pair c) → pat = none := by
          intro h
          simp only [Bool.or_eq_true, Bool.and_eq_true] at hs
          rcases hs with hs | hs
          · rw [List.any_eq_true] at hs
            obtain ⟨c, hc, h'⟩ := hs
            have := h c hc
            simp at h'
            rcases h' with h' | h'
            · exact absurd h' this.1
            · exact absurd h' this.2.1
          · simpa using hs.1
        refine ⟨?_, ?_, ?_, ?_, ?_⟩
        · intro h; exact absurd h o1
        · intro h _ _; exact o2 h
        · intro h h'; rw [nopl h] at h'; cases h'
        · intro h _ h'; rw [nopl h] at h'; cases h'
        · intro h hf; rw [o3 (hacc h)]; exact hf
    · rw [if_neg hs]
      simp only [Bool.not_eq_true, Bool.or_eq_false_iff] at hs
      have hpl := plain_iff hq hs.1
      have hwild : pat = none → '*' ∉ v ∧ '?' ∉ v ∧ '[' ∉ v := by
        intro h
        have h2 := hs.2
        simp [h] at h2
        refine ⟨fun h => (h2 _ h).1 rfl, fun h => (h2 _ h).2 rfl, fun h => (hpl _ h).1 (by decide)⟩
      by_cases hl : (pat = none ∨ pat = some .path) ∧
            ((v.head? = some '+' ∧ curly = true) ∨ regexLike v = true)
      · rw [if_pos hl]
        obtain ⟨c, l, rfl, hc⟩ := head_of_lead hl.2
        obtain ⟨q', prev', g1, g2, g3, g4⟩ := loop_plain pair l (fun d hd => hpl d (by simp [hd]))
          (acc ++ [c]) (appendQ .value true acc q) c rest
        obtain ⟨a1, a2, a3⟩ := appendQ_first acc true q
        refine ⟨q', prev', ?_, fun h => absurd (g4 h) hc, ?_⟩
        · rw [List.cons_append, List.cons_append, wordLoop, if_pos rfl]
          simp only [if_pos hc, ne_eq]
          rw [g1]; simp
        · refine ⟨fun _ h => hwild h, ?_, ?_, ?_, ?_⟩
          · intro h _ _; rw [g3]; exact a2 h rfl
          · intro _ _; rw [g2, a1]
          · intro _ h _ _; rw [g3]; exact a2 h rfl
          · intro h; rcases hl.1 with h' | h' <;> rw [h'] at h <;> simp at h
      · rw [if_neg hl]
        obtain ⟨q', prev', g1, g2, g3, g4⟩ := loop_plain pair v hpl acc q prev rest
        refine ⟨q', prev', g1, g4, fun _ h => hwild h, ?_, fun _ _ => g2, ?_, ?_⟩
        · intro _ h h'; exact absurd ⟨Or.inl h, h'.symm⟩ hl
        · intro _ _ h h'; exact absurd ⟨Or.inr h, h'.symm⟩ hl
        · intro _ h; rw [g3]; exact h

/-- Reading one written string. -/
theorem read_string (pair : Char) (v : List Char) (pat : Option Pat) (curly : Bool)
    (hpair : PairOk pair) (acc : List Char) (q : Q) (prev : Char) (rest : List Char) :
    ∃ q' prev', wordLoop pair .value acc q prev (writeString pair v pat curly ++ rest) =
      wordLoop pair .value (acc ++ intro pat ++ v) q' prev' rest ∧ (prev' = '\n' → prev = '\n') ∧
      Flags pair v pat curly acc q q' := by
  have plain : ∀ p : Option Pat, (p = none ∨ p = some .path) → pat = p →
      ∃ q' prev', wordLoop pair .value acc q prev (writeString pair v pat curly ++ rest) =
      wordLoop pair .value (acc ++ intro pat ++ v) q' prev' rest ∧ (prev' = '\n' → prev = '\n') ∧
      Flags pair v pat curly acc q q' := by
    intro p hp he
    subst he
    have := read_body pair v pat curly hpair acc q prev rest (by
      intro h; rcases hp with h' | h' <;> rw [h'] at h <;> simp at h)
    rcases hp with h' | h' <;> subst h' <;> simpa [writeString, intro] using this
  have special : ∀ (p : Pat) (i : Char), pat = some p → p = .regex ∨ p = .subst →
      intro pat = [i] → i ∉ nsc → i ≠ pair → i ≠ '\'' →
      writeString pair v pat curly = i :: (if '\'' ∈ v then '"' :: escapeDq v ++ ['"']
          else if v.any (fun c => c ∈ nsc || c = pair) || (pat = none && v.any (· ∈ ['*', '?'])) then
            '\'' :: v ++ ['\'']
          else if (pat = none ∨ pat = some .path) ∧
            ((v.head? = some '+' ∧ curly = true) ∨ regexLike v) then '\\' :: v
          else v) →
      ∃ q' prev', wordLoop pair .value acc q prev (writeString pair v pat curly ++ rest) =
      wordLoop pair .value (acc ++ intro pat ++ v) q' prev' rest ∧ (prev' = '\n' → prev = '\n') ∧
      Flags pair v pat curly acc q q' := by
    intro p i he hp hi h1 h2 h3 hw
    obtain ⟨q1, p1, a1, a2, a3, a4⟩ := loop_plain pair [i]
      (by intro c hc; simp at hc; subst hc; exact ⟨h1, h2, h3⟩) acc q prev
      ((if '\'' ∈ v then '"' :: escapeDq v ++ ['"']
          else if v.any (fun c => c ∈ nsc || c = pair) || (pat = none && v.any (· ∈ ['*', '?'])) then
            '\'' :: v ++ ['\'']
          else if (pat = none ∨ pat = some .path) ∧
            ((v.head? = some '+' ∧ curly = true) ∨ regexLike v) then '\\' :: v
          else v) ++ rest)
    obtain ⟨q', p', b1, b2, b3⟩ := read_body pair v pat curly hpair (acc ++ [i]) q1 p1 rest
      (fun _ => by simp)
    refine ⟨q', p', ?_, fun h => a4 (b2 h), ?_⟩
    · rw [hw, hi, ← b1, ← a1]; rfl
    · refine ⟨?_, ?_, ?_, ?_, ?_⟩
      · intro _ h; rw [he] at h; cases h
      · intro _ h; rw [he] at h; cases h
      · intro _ h; rw [he] at h; rcases hp with h' | h' <;> rw [h'] at h <;> cases h
      · intro _ _ h; rw [he] at h; rcases hp with h' | h' <;> rw [h'] at h <;> cases h
      · intro h hf; exact b3.intro h (by rw [a3]; exact hf)
  have hne : ∀ i, i ∈ ['~', '^'] → i ≠ pair := by
    rintro i hi rfl
    exact hpair (by revert hi; simp; rintro (h | h) <;> simp [h])
  rcases pat with _ | _ | _ | _
  · exact plain none (Or.inl rfl) rfl
  · exact plain _ (Or.inr rfl) rfl
  · exact special .regex '~' rfl (Or.inl rfl) rfl (by decide) (hne _ (by simp)) (by decide)
      (by simp [writeString])
  · exact special .subst '^' rfl (Or.inr rfl) rfl (by decide) (hne _ (by simp)) (by decide)
      (by simp [writeString])

/-- The first character of what is written. -/
def Start (pair : Char) (l : List Char) : Prop :=
  ∃ c l', l = c :: l' ∧ c ∉ seps ∧ c ≠ pair ∧ c ≠ '[' ∧ (c = '\\' → ∃ d l'', l' = d :: l'' ∧ d ≠ '\n')

theorem start_append {pair : Char} {l : List Char} (h : Start pair l) (r : List Char) :
    Start pair (l ++ r) := by
  obtain ⟨c, l', rfl, h1, h2, h3, h4⟩ := h
  refine ⟨c, l' ++ r, rfl, h1, h2, h3, ?_⟩
  intro h
  obtain ⟨d, l'', rfl, h5⟩ := h4 h
  exact ⟨d, l'' ++ r, rfl, h5⟩

theorem start_string (pair : Char) (hpair : PairOk pair) (v : List Char) (pat : Option Pat)
    (curly : Bool) (hv : v ≠ []) : Start pair (writeString pair v pat curly) := by
  have hne : ∀ i, i ∈ ['~', '^', '"', '\'', '\\'] → i ≠ pair := by
    rintro i hi rfl
    exact hpair (by revert hi; simp; rintro (h | h | h | h | h) <;> simp [h])
  have body : (pat = none ∨ pat = some .path) → Start pair (writeString pair v pat curly) := by
    intro hp
    have he : writeString pair v pat curly =
        (if '\'' ∈ v then '"' :: escapeDq v ++ ['"']
          else if v.any (fun c => c ∈ nsc || c = pair) || (pat = none && v.any (· ∈ ['*', '?'])) then
            '\'' :: v ++ ['\'']
          else if (pat = none ∨ pat = some .path) ∧
            ((v.head? = some '+' ∧ curly = true) ∨ regexLike v) then '\\' :: v
          else v) := by
      rcases hp with h | h <;> subst h <;> simp [writeString]
    rw [he]
    by_cases hq : '\'' ∈ v
    · rw [if_pos hq]
      exact ⟨'"', _, rfl, by decide, hne _ (by simp), by decide, fun h => absurd h (by decide)⟩
    · rw [if_neg hq]
      by_cases hs : (v.any (fun c => c ∈ nsc || c = pair) ||
        (pat = none && v.any (· ∈ ['*', '?']))) = true
      · rw [if_pos hs]
        exact ⟨'\'', _, rfl, by decide, hne _ (by simp), by decide, fun h => absurd h (by decide)⟩
      · rw [if_neg hs]
        simp only [Bool.not_eq_true, Bool.or_eq_false_iff] at hs
        have hpl := plain_iff hq hs.1
        by_cases hl : (pat = none ∨ pat = some .path) ∧
            ((v.head? = some '+' ∧ curly = true) ∨ regexLike v = true)
        · rw [if_pos hl]
          obtain ⟨c, l, rfl, hc⟩ := head_of_lead hl.2
          exact ⟨'\\', _, rfl, by decide, hne _ (by simp), by decide, fun _ => ⟨c, l, rfl, hc⟩⟩
        · rw [if_neg hl]
          cases v with
          | nil => exact absurd rfl hv
          | cons c l =>
            obtain ⟨h1, h2, h3⟩ := hpl c (by simp)
            refine ⟨c, l, rfl, fun h => h1 (sub_nsc h), h2, ?_, ?_⟩
            · rintro rfl; exact h1 (by decide)
            · rintro rfl; exact absurd (by decide) h1
  rcases pat with _ | _ | _ | _
  · exact body (Or.inl rfl)
  · exact body (Or.inr rfl)
  · exact ⟨'~', _, rfl, by decide, hne _ (by simp), by decide, fun h => absurd h (by decide)⟩
  · exact ⟨'^', _, rfl, by decide, hne _ (by simp), by decide, fun h => absurd h (by decide)⟩

/-- The next character ends a word. -/
def Stop (pair : Char) (l : List Char) : Prop := ∃ c l', l = c :: l' ∧ (c = pair ∨ c ∈ seps)

theorem loop_stop {pair : Char} (hpair : PairOk pair) {l : List Char} (h : Stop pair l)
    (acc : List Char) (q : Q) (prev : Char) :
    wordLoop pair .value acc q prev l = some (.value, acc, q, ⟨prev, l⟩) := by
  obtain ⟨c, l', rfl, h⟩ := h
  rw [step_value pair, if_pos h]
  rintro rfl
  rcases h with h | h
  · exact hpair (by rw [← h]; decide)
  · revert h; decide

theorem skip_start {pair : Char} {l : List Char} (h : Start pair l) (b r : Bool) (prev : Char) :
    skipSpaces b r prev (l) = (r, ⟨prev, l⟩) := by
  obtain ⟨c, l', rfl, h1, h2, h3, h4⟩ := h
  have e1 : ¬ (c = ' ' ∨ c = '\t') := by rintro (rfl | rfl) <;> exact absurd (by decide) h1
  have e2 : c ≠ '\n' := by rintro rfl; exact absurd (by decide) h1
  rw [skipSpaces.eq_def]; simp only [if_neg e1, if_neg e2]
  by_cases hc : c = '\\'
  · rw [if_pos hc]
    obtain ⟨d, l'', rfl, h5⟩ := h4 hc
    simp only [if_neg h5]
  · rw [if_neg hc]

/-- The separator written before a name. -/
def sepText (sep : Bool) : List Char := if sep then [' '] else []

theorem skip_sep {pair : Char} {l : List Char} (h : Start pair l) (sep b : Bool) (prev : Char) :
    ∃ prev', skipSpaces b false prev (sepText sep ++ l) = (sep, ⟨prev', l⟩) ∧
      (prev' = '\n' → prev = '\n') := by
  cases sep with
  | false => exact ⟨prev, skip_start h b false prev, id⟩
  | true =>
    refine ⟨' ', ?_, fun h => absurd h (by decide)⟩
    show skipSpaces b false prev (' ' :: l) = _
    rw [skipSpaces.eq_def]; simp only [if_pos, true_or]
    exact skip_start h b true ' '

/-- A word is read if the loop goes over all of it. -/
theorem next_word {P : Q → Prop} {pair : Char} (hpair : PairOk pair) {W t rest : List Char}
    (hs : Start pair W) (hr : Stop pair rest) (lsb sep : Bool) (prev : Char)
    (hw : ∀ prev, ∃ q' prev', wordLoop pair .value [] ⟨.unquoted, false, false⟩ prev (W ++ rest) =
      wordLoop pair .value t q' prev' rest ∧ (prev' = '\n' → prev = '\n') ∧ P q') (hprev : prev ≠ '\n') :
    ∃ q' prev', nextValue pair lsb ⟨prev, sepText sep ++ (W ++ rest)⟩ =
      some (.word t q', sep, .value, ⟨prev', rest⟩) ∧ prev' ≠ '\n' ∧ P q' := by
  have hs' := start_append hs rest
  obtain ⟨p1, h1, h2⟩ := skip_sep hs' sep (decide (prev = '\n')) prev
  obtain ⟨q', p2, g1, g2, g3⟩ := hw p1
  refine ⟨q', p2, ?_, fun h => hprev (h2 (g2 h)), g3⟩
  obtain ⟨c, l', he, e1, e2, e3, e4⟩ := hs'
  have hn : ∀ d ∈ seps, c ≠ d := fun d hd h => e1 (h ▸ hd)
  simp only [nextValue]
  rw [h1]
  simp only [he]
  rw [if_neg (fun h => e3 h.2), if_neg (hn _ (by decide)), if_neg e2, if_neg (hn _ (by decide)),
    if_neg (hn _ (by decide)), if_neg (hn _ (by decide)), if_neg (hn _ (by decide)),
    if_neg (hn _ (by decide)), if_neg (hn _ (by decide)), ← he, g1, loop_stop hpair hr]

end Verif.Quote
