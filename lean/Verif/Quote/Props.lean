import Verif.Quote.Lemmas

/-! C28: printed names read back as themselves. -/

namespace Verif.Quote

theorem skip_char {c : Char} {l : List Char} (h : c ∉ [' ', '\t', '\n', '\\']) (b r : Bool)
    (prev : Char) : skipSpaces b r prev (c :: l) = (r, ⟨prev, c :: l⟩) := by
  simp at h
  rw [skipSpaces.eq_def]
  simp [h]

theorem next_lc {pair : Char} (hpair : PairOk pair) (l : List Char) (lsb : Bool) (prev : Char) :
    nextValue pair lsb ⟨prev, '{' :: l⟩ = some (.lcbrace, false, .value, ⟨'{', l⟩) := by
  have : '{' ≠ pair := by rintro rfl; exact absurd (by decide) hpair
  simp only [nextValue, skip_char (c := '{') (by decide)]
  simp [this]

theorem next_rc {pair : Char} (hpair : PairOk pair) (l : List Char) (lsb : Bool) (prev : Char) :
    nextValue pair lsb ⟨prev, '}' :: l⟩ = some (.rcbrace, false, .value, ⟨'}', l⟩) := by
  have : '}' ≠ pair := by rintro rfl; exact absurd (by decide) hpair
  simp only [nextValue, skip_char (c := '}') (by decide)]
  simp [this]

theorem next_pair {pair : Char} (hpair : PairOk pair) (l : List Char) (prev : Char) :
    nextValue pair false ⟨prev, pair :: l⟩ = some (.pairSep, false, .value, ⟨pair, l⟩) := by
  have h1 : pair ∉ [' ', '\t', '\n', '\\'] := by
    intro h; apply hpair; revert h; simp; rintro (h | h | h | h) <;> simp [h]
  have h2 : pair ≠ '#' := by rintro rfl; exact absurd (by decide) hpair
  simp only [nextValue, skip_char h1]
  simp [h2]

theorem next_newline {pair : Char} (hpair : PairOk pair) (l : List Char) (lsb : Bool) (prev : Char)
    (hp : prev ≠ '\n') :
    nextValue pair lsb ⟨prev, '\n' :: l⟩ = some (.newline, true, .value, ⟨'\n', l⟩) := by
  have : '\n' ≠ pair := by rintro rfl; exact absurd (by decide) hpair
  have hs : skipSpaces (decide (prev = '\n')) false prev ('\n' :: l) = (false, ⟨prev, '\n' :: l⟩) := by
    rw [skipSpaces.eq_def]; simp [hp]
  simp only [nextValue, hs]
  simp [this]

/-- What is claimed about a string printed in one piece. -/
def claimOf (pair : Char) (pat : Option Pat) (v : List Char) : Option (Option Pat) :=
  match pat with
  | none => some none
  | some p =>
    if p = .path then
      if v.all (fun c => c ∉ special && c ≠ pair && c ≠ '\'') && v.any (· ∈ ['*', '?'])
      then some (some p) else none
    else if regexLike (intro pat ++ v) then some (some p)
    else none

theorem claim_ok {pair : Char} {v : List Char} {pat : Option Pat} {curly : Bool} {q' : Q}
    (hf : Flags pair v pat curly [] ⟨.unquoted, false, false⟩ q') (p : Option Pat)
    (hc : claimOf pair pat v = some p) :
    recognise (intro pat ++ v) q' = p ∧ (curly = true → leadingPlus (intro pat ++ v) q' = false) := by
  cases pat with
  | none =>
    simp [claimOf] at hc
    subst hc
    have hl := hf.lead rfl rfl
    have hw := fun h => hf.wild h rfl
    constructor
    · show recognise v q' = none
      unfold recognise
      rw [if_neg, if_neg]
      · simp
        intro hq c hc
        obtain ⟨h1, h2, h3⟩ := hw hq
        refine ⟨?_, ?_, ?_⟩ <;> (rintro rfl; contradiction)
      · simp
        intro h
        cases hr : regexLike v with
        | false => rfl
        | true => rw [hl (Or.inl hr)] at h; cases h
    · intro hcu
      show leadingPlus v q' = false
      unfold leadingPlus
      cases hfi : q'.first with
      | true => rfl
      | false =>
        simp
        intro h
        rw [hl (Or.inr ⟨h, hcu⟩)] at hfi
        cases hfi
  | some pt =>
    by_cases hp : pt = .path
    · subst hp
      simp only [claimOf, if_pos] at hc
      split at hc
      · next hcond =>
        injection hc with hc
        subst hc
        rw [Bool.and_eq_true] at hcond
        have hpl : ∀ c ∈ v, Plain pair c := by
          intro c hcv
          have := List.all_eq_true.1 hcond.1 c hcv
          simp at this
          exact ⟨this.1.1, this.1.2, this.2⟩
        have hq := hf.keep hpl rfl
        have hl := hf.leadPath hpl rfl rfl
        constructor
        · show recognise v q' = some .path
          unfold recognise
          rw [if_neg, if_pos]
          · simp only [hq]
            obtain ⟨c, hc, h⟩ := List.any_eq_true.1 hcond.2
            simp at h
            simp
            exact ⟨c, hc, by rcases h with h | h <;> simp [h]⟩
          · simp
            intro h
            cases hr : regexLike v with
            | false => rfl
            | true => rw [hl (Or.inl hr)] at h; cases h
        · intro hcu
          show leadingPlus v q' = false
          unfold leadingPlus
          cases hfi : q'.first with
          | true => rfl
          | false =>
            simp
            intro h
            rw [hl (Or.inr ⟨h, hcu⟩)] at hfi
            cases hfi
      · cases hc
    · simp only [claimOf, if_neg hp] at hc
      split at hc
      · next hcond =>
        injection hc with hc
        subst hc
        have hfi := hf.intro (by cases pt <;> simp_all) rfl
        constructor
        · unfold recognise
          rw [if_pos (by rw [hfi, hcond]; rfl)]
          cases pt <;> simp_all [intro]
        · intro _
          unfold leadingPlus
          cases pt <;> simp_all [intro]
      · cases hc

/-- Tokens read before the rest is reached. -/
def Reads (pair : Char) (lsb : Bool) (prev : Char) (text rest : List Char) (vs : List (View × Bool)) :
    Prop :=
  ∃ prev' ts, prev' ≠ '\n' ∧ AllAgree ts vs ∧
    ∀ ts', Line pair false ⟨prev', rest⟩ ts' → Line pair lsb ⟨prev, text ++ rest⟩ (ts ++ ts')

theorem one_piece {pair : Char} (hpair : PairOk pair) (v : List Char) (hv : v ≠ []) (pat : Option Pat)
    (curly lsb sep : Bool) (prev : Char) (hprev : prev ≠ '\n') (rest : List Char)
    (hr : Stop pair rest) (cl : Option (Option Pat))
    (hcl : ∀ p, cl = some p → claimOf pair pat v = some p) :
    Reads pair lsb prev (sepText sep ++ writeString pair v pat curly) rest
      [(.word (intro pat ++ v) cl curly, sep)] := by
  obtain ⟨q', prev', h1, h2, h3⟩ := next_word (t := intro pat ++ v)
    (P := Flags pair v pat curly [] ⟨.unquoted, false, false⟩) hpair
    (start_string pair hpair v pat curly hv) hr lsb sep prev
    (fun prev => by
      obtain ⟨q', p', g1, g2, g3⟩ := read_string pair v pat curly hpair []
        ⟨.unquoted, false, false⟩ prev rest
      exact ⟨q', p', g1, g2, g3⟩) hprev
  refine ⟨prev', [(.word (intro pat ++ v) q', sep)], h2, .cons ⟨rfl, rfl, ?_⟩ .nil, ?_⟩
  · exact fun p hp => claim_ok h3 p (hcl p hp)
  · intro ts' ht
    rw [List.append_assoc]
    exact .tok h1 (by simp) (by simp) ht

theorem two_pieces {pair : Char} (hpair : PairOk pair) (u v : List Char) (hu : u ≠ [])
    (pat : Option Pat) (lsb sep : Bool) (prev : Char) (hprev : prev ≠ '\n') (rest : List Char)
    (hr : Stop pair rest) :
    Reads pair lsb prev (sepText sep ++ (writeString pair u none false ++ writeString pair v pat false))
      rest [(.word (u ++ (intro pat ++ v)) none false, sep)] := by
  obtain ⟨q', prev', h1, h2, -⟩ := next_word (t := u ++ (intro pat ++ v)) (P := fun _ => True) hpair
    (start_append (start_string pair hpair u none false hu) (writeString pair v pat false)) hr
    lsb sep prev
    (fun prev => by
      obtain ⟨q1, p1, a1, a2, -⟩ := read_string pair u none false hpair []
        ⟨.unquoted, false, false⟩ prev (writeString pair v pat false ++ rest)
      obtain ⟨q2, p2, b1, b2, -⟩ := read_string pair v pat false hpair u q1 p1 rest
      refine ⟨q2, p2, ?_, fun h => a2 (b2 h), trivial⟩
      rw [List.append_assoc, a1]
      simp only [List.nil_append, List.append_assoc] at b1 ⊢
      exact b1) hprev
  refine ⟨prev', [(.word (u ++ (intro pat ++ v)) q', sep)], h2, .cons ⟨rfl, rfl, ?_⟩ .nil, ?_⟩
  · intro p hp; cases hp
  · intro ts' ht
    rw [List.append_assoc]
    exact .tok h1 (by simp) (by simp) ht

theorem empty_piece {pair : Char} (hpair : PairOk pair) (cl : Option (Option Pat))
    (hcl : ∀ p, cl = some p → p = none) (lsb sep : Bool)
    (prev : Char) (hprev : prev ≠ '\n') (rest : List Char) (hr : Stop pair rest) :
    Reads pair lsb prev (sepText sep ++ ['\'', '\'']) rest [(.word [] cl false, sep)] := by
  have hq : '\'' ≠ pair := by rintro rfl; exact absurd (by decide) hpair
  obtain ⟨q', prev', h1, h2, -⟩ := next_word (t := []) (W := ['\'', '\'']) (P := fun _ => True) hpair
    ⟨'\'', _, rfl, by decide, hq, by decide, fun h => absurd h (by decide)⟩ hr lsb sep prev
    (fun prev => by
      refine ⟨openSingle [] ⟨.unquoted, false, false⟩, '\'', ?_, fun h => absurd h (by decide), trivial⟩
      show wordLoop pair .value [] _ prev ('\'' :: '\'' :: rest) = _
      rw [step_value pair (by decide), if_neg, if_pos rfl]
      · simp [wordLoop]
      · rintro (h | h)
        · exact hq h
        · revert h; decide) hprev
  refine ⟨prev', [(.word [] q', sep)], h2, .cons ⟨rfl, rfl, ?_⟩ .nil, ?_⟩
  · intro p hp
    rw [hcl p hp]
    simp [recognise, leadingPlus, regexLike]
  · intro ts' ht
    rw [List.append_assoc]
    exact .tok h1 (by simp) (by simp) ht

theorem allAgree_append {a a' : List (Tok × Bool)} {b b' : List (View × Bool)}
    (h : AllAgree a b) (h' : AllAgree a' b') : AllAgree (a ++ a') (b ++ b') := by
  induction h with
  | nil => exact h'
  | cons h _ ih => exact .cons h ih

theorem Reads.trans {pair : Char} {lsb : Bool} {prev : Char} {t1 t2 rest : List Char}
    {v1 v2 : List (View × Bool)} (h1 : Reads pair lsb prev t1 (t2 ++ rest) v1)
    (h2 : ∀ prev, prev ≠ '\n' → Reads pair false prev t2 rest v2) :
    Reads pair lsb prev (t1 ++ t2) rest (v1 ++ v2) := by
  obtain ⟨p1, ts1, a1, a2, a3⟩ := h1
  obtain ⟨p2, ts2, b1, b2, b3⟩ := h2 p1 a1
  refine ⟨p2, ts1 ++ ts2, b1, allAgree_append a2 b2, ?_⟩
  intro ts' ht
  rw [List.append_assoc, List.append_assoc]
  exact a3 _ (b3 _ ht)

theorem stop_lc {pair : Char} (l : List Char) : Stop pair ('{' :: l) := ⟨_, _, rfl, Or.inr (by decide)⟩
theorem stop_rc {pair : Char} (l : List Char) : Stop pair ('}' :: l) := ⟨_, _, rfl, Or.inr (by decide)⟩

theorem reads_lc {pair : Char} (hpair : PairOk pair) (lsb : Bool) (prev : Char) (rest : List Char) :
    Reads pair lsb prev ['{'] rest [(.lcbrace, false)] :=
  ⟨'{', [(.lcbrace, false)], by decide, .cons rfl .nil,
    fun _ ht => .tok (next_lc hpair rest lsb prev) (by simp) (by simp) ht⟩

theorem reads_rc {pair : Char} (hpair : PairOk pair) (lsb : Bool) (prev : Char) (rest : List Char) :
    Reads pair lsb prev ['}'] rest [(.rcbrace, false)] :=
  ⟨'}', [(.rcbrace, false)], by decide, .cons rfl .nil,
    fun _ ht => .tok (next_rc hpair rest lsb prev) (by simp) (by simp) ht⟩

/-- Reading one name. -/
theorem read_name {pair : Char} (hpair : PairOk pair) (n : Nm) (hn : n.Valid) (lsb sep : Bool)
    (prev : Char) (hprev : prev ≠ '\n') (rest : List Char) (hr : Stop pair rest) :
    Reads pair lsb prev (sepText sep ++ printName pair n) rest (withSep sep (n.views pair)) := by
  obtain ⟨hn1, hn2⟩ := hn
  by_cases ht : n.type = []
  · have hviews : withSep sep (n.views pair) =
        [(.word (n.dir ++ intro n.pat ++ n.value) (n.claim pair) false, sep)] := by
      simp [Nm.views, ht, withSep]
    rw [hviews]
    by_cases hd : n.dir = []
    · by_cases hv : n.value = []
      · have he : printName pair n = ['\'', '\''] := by simp [printName, ht, hd, hv]
        have hi : intro n.pat = [] := by
          rcases hn2 hv with h | h <;> rw [h] <;> rfl
        rw [he, hd, hv, hi]
        refine empty_piece hpair _ ?_ lsb sep prev hprev rest hr
        intro p hp
        rcases hn2 hv with h | h
        · simp [Nm.claim, h] at hp; exact hp.symm
        · have hl : n.last = [] := by
            have : n.leaf = [] := by
              unfold Nm.dir at hd; exact (List.append_eq_nil_iff.1 hd).2
            simp [Nm.last, hv, this]
          simp [Nm.claim, h, hl] at hp
      · have he : printName pair n = writeString pair n.value n.pat false := by
          simp [printName, ht, hd, hv]
        rw [he, hd, List.nil_append]
        refine one_piece hpair n.value hv n.pat false lsb sep prev hprev rest hr _ ?_
        intro p hp
        have hl : n.last = n.value := by simp [Nm.last, hv]
        rw [← hp]
        unfold Nm.claim claimOf
        cases h : n.pat with
        | none => rfl
        | some pt => simp [hd, hl]
    · by_cases hv : n.value = []
      · have he : printName pair n = writeString pair n.dir n.pat false := by
          simp [printName, ht, hd, hv]
        have hi : intro n.pat = [] := by
          rcases hn2 hv with h | h <;> rw [h] <;> rfl
        rw [he, hv, List.append_nil]
        have := one_piece hpair n.dir hd n.pat false lsb sep prev hprev rest hr (n.claim pair) ?_
        · rw [hi] at this ⊢; simpa using this
        · intro p hp
          cases h : n.pat with
          | none => rw [← hp]; simp [Nm.claim, h, claimOf]
          | some pt => simp [Nm.claim, h, ht, hd] at hp
      · cases hp : n.pat with
        | none =>
          have he : printName pair n = writeString pair (n.dir ++ n.value) none false := by
            simp [printName, ht, hd, hv, hp]
          rw [he]
          have := one_piece hpair (n.dir ++ n.value) (by simp [hd]) none false lsb sep prev hprev rest hr
            (n.claim pair) (by intro p h; rw [← h]; simp [Nm.claim, hp, claimOf])
          simpa [intro] using this
        | some pt =>
          have he : printName pair n =
              writeString pair n.dir none false ++ writeString pair n.value (some pt) false := by
            simp [printName, ht, hd, hv, hp]
          have hc : n.claim pair = none := by simp [Nm.claim, hp, ht, hd]
          rw [he, hc]
          have := two_pieces hpair n.dir n.value hd (some pt) lsb sep prev hprev rest hr
          simpa using this
  · have he : printName pair n =
        ((if n.before ≠ [] then writeString pair n.before none false else []) ++
          writeString pair n.type none false) ++ (['{'] ++
        ((if n.last ≠ [] then writeString pair n.last n.pat true else []) ++ ['}'])) := by
      by_cases hv : n.value = []
      · by_cases hd : n.dir = []
        · have h2 := List.append_eq_nil_iff.1 hd
          simp [printName, ht, hv, hd, Nm.before, Nm.last, h2]
        · have hl : n.leaf ≠ [] := by
            intro h
            apply hd
            unfold Nm.dir
            rw [h, hn1 h]; rfl
          by_cases hpd : n.pdir = []
          · have : n.dir = n.leaf := by unfold Nm.dir; rw [hpd]; rfl
            simp [printName, ht, hv, this, Nm.before, Nm.last, hl, hpd]
          · simp [printName, ht, hv, hd, Nm.before, Nm.last, hl, hpd]
      · by_cases hd : n.dir = []
        · simp [printName, ht, hv, hd, Nm.before, Nm.last]
        · simp [printName, ht, hv, hd, Nm.before, Nm.last]
    have hviews : withSep sep (n.views pair) =
        [(.word (n.before ++ n.type) none false, sep)] ++ ([(.lcbrace, false)] ++
        ((if n.last = [] then [] else [(.word (intro n.pat ++ n.last) (n.claim pair) true, false)]) ++
        [(.rcbrace, false)])) := by
      simp only [Nm.views, if_neg ht, withSep]
      by_cases hl : n.last = [] <;> simp [hl]
    rw [he, hviews, ← List.append_assoc (sepText sep)]
    refine Reads.trans ?_ ?_
    · have hst : Stop pair ((['{'] ++ ((if n.last ≠ [] then writeString pair n.last n.pat true else []) ++
          ['}'])) ++ rest) := stop_lc _
      by_cases hb : n.before = []
      · rw [hb, if_neg (by simp)]
        have := one_piece hpair n.type ht none false lsb sep prev hprev _ hst none
          (by intro p h; cases h)
        simpa [intro] using this
      · rw [if_pos hb]
        have := two_pieces hpair n.before n.type hb none lsb sep prev hprev _ hst
        simpa [intro] using this
    · intro p1 hp1
      refine Reads.trans (reads_lc hpair _ _ _) ?_
      intro p2 hp2
      refine Reads.trans ?_ (fun p3 _ => reads_rc hpair _ _ _)
      by_cases hl : n.last = []
      · rw [if_neg (by simp [hl]), if_pos hl]
        exact ⟨p2, [], hp2, .nil, fun _ h => h⟩
      · rw [if_pos hl, if_neg hl]
        have := one_piece hpair n.last hl n.pat true false false p2 hp2 (['}'] ++ rest) (stop_rc _)
          (n.claim pair) ?_
        · simpa [sepText] using this
        · intro p hp
          rw [← hp]
          unfold Nm.claim claimOf
          cases h : n.pat with
          | none => rfl
          | some pt => simp [ht]

/-- C28: what is printed for a list of names reads back as the tokens of these names: the same words,
braces and pair separators, with the same text, separated in the same places, and a name that is not
a pattern does not become one. -/
theorem printed_names_read_back (pair : Char) (hpair : PairOk pair) (ns : List Nm)
    (hv : ∀ n ∈ ns, n.Valid) (hc : Complete ns) (lsb : Bool) (prev : Char) (hprev : prev ≠ '\n') :
    ∃ ts, Line pair lsb ⟨prev, printNames pair ns ++ ['\n']⟩ (ts ++ [(.newline, true)]) ∧
      AllAgree ts (views pair false ns) := by
  suffices h : ∀ (ns : List Nm), (∀ n ∈ ns, n.Valid) → Complete ns → ∀ lsb sep prev, prev ≠ '\n' →
      ∃ ts, Line pair lsb ⟨prev, (if ns = [] then [] else sepText sep) ++ printNames pair ns ++ ['\n']⟩
        (ts ++ [(.newline, true)]) ∧ AllAgree ts (views pair sep ns) by
    obtain ⟨ts, h1, h2⟩ := h ns hv hc lsb false prev hprev
    refine ⟨ts, ?_, h2⟩
    have : (if ns = [] then [] else sepText false) = [] := by split <;> rfl
    rw [this] at h1
    exact h1
  intro ns
  induction ns with
  | nil =>
    intro _ _ lsb sep prev hprev
    exact ⟨[], .newline (next_newline hpair [] lsb prev hprev), .nil⟩
  | cons n ns ih =>
    intro hv hc lsb sep prev hprev
    have hvn := hv n (by simp)
    have hvs : ∀ m ∈ ns, m.Valid := fun m hm => hv m (by simp [hm])
    rw [if_neg (by simp)]
    cases hpr : n.pair with
    | true =>
      have hns : ns ≠ [] := by
        rintro rfl
        simp [Complete, hpr] at hc
      have hcs : Complete ns := by
        cases ns with
        | nil => exact absurd rfl hns
        | cons m ns => exact hc
      obtain ⟨p1, t1, a1, a2, a3⟩ := read_name hpair n hvn lsb sep prev hprev
        (pair :: (printNames pair ns ++ ['\n'])) ⟨_, _, rfl, Or.inl rfl⟩
      obtain ⟨t2, b1, b2⟩ := ih hvs hcs false false pair
        (by rintro rfl; exact absurd (by decide) hpair)
      rw [if_neg hns] at b1
      refine ⟨t1 ++ (.pairSep, false) :: t2, ?_, ?_⟩
      · have := a3 _ (.tok (next_pair hpair _ p1) (by simp) (by simp) b1)
        simpa [printNames, hpr] using this
      · simp only [views, hpr, if_true]
        exact allAgree_append a2 (.cons rfl b2)
    | false =>
      have hcs : Complete ns := by
        cases ns with
        | nil => trivial
        | cons m ns => exact hc
      have hstop : Stop pair ((if ns = [] then [] else sepText true) ++ printNames pair ns ++ ['\n']) := by
        by_cases hns : ns = []
        · subst hns
          exact ⟨'\n', [], rfl, Or.inr (by decide)⟩
        · rw [if_neg hns]
          exact ⟨' ', _, rfl, Or.inr (by decide)⟩
      obtain ⟨p1, t1, a1, a2, a3⟩ := read_name hpair n hvn lsb sep prev hprev _ hstop
      obtain ⟨t2, b1, b2⟩ := ih hvs hcs false true p1 a1
      refine ⟨t1 ++ t2, ?_, ?_⟩
      · have := a3 _ b1
        by_cases hns : ns = []
        · subst hns
          simpa [printNames, hpr] using this
        · simpa [printNames, hpr, hns, sepText] using this
      · simp only [views, hpr]
        exact allAgree_append a2 b2

/-- The tokens of a line are determined by the text, so that `printed_names_read_back` speaks about
what the lexer gives. -/
theorem line_unique {pair : Char} {lsb : Bool} {p : Pos} {a b : List (Tok × Bool)}
    (ha : Line pair lsb p a) (hb : Line pair lsb p b) : a = b := by
  induction ha generalizing b with
  | newline h =>
    cases hb with
    | newline h' => rw [h] at h'; injection h' with h'; simp at h'; simp [h'.1]
    | tok h' hn _ _ => rw [h] at h'; injection h' with h'; simp at h'; exact absurd h'.1.symm hn
  | tok h hn he _ ih =>
    cases hb with
    | newline h' => rw [h] at h'; injection h' with h'; simp at h'; exact absurd h'.1 hn
    | tok h' _ _ hl =>
      rw [h] at h'
      injection h' with h'
      simp at h'
      obtain ⟨rfl, rfl, rfl⟩ := h'
      rw [ih hl]

/-- A single string: the value `v` of a variable saved as a simple name reads back as one word with
the same text, which is not a pattern. -/
theorem printed_string_reads_back (pair : Char) (hpair : PairOk pair) (v : List Char) (lsb : Bool) :
    ∃ q, Line pair lsb ⟨' ', printNames pair [⟨[], [], [], v, none, false⟩] ++ ['\n']⟩
      [(.word v q, false), (.newline, true)] ∧ recognise v q = none := by
  obtain ⟨ts, h1, h2⟩ := printed_names_read_back pair hpair [⟨[], [], [], v, none, false⟩]
    (by intro n hn; simp at hn; subst hn; exact ⟨fun _ => rfl, fun _ => Or.inl rfl⟩) rfl lsb ' '
    (by decide)
  have hvw : views pair false [⟨[], [], [], v, none, false⟩] = [(.word v (some none) false, false)] := by
    simp [views, Nm.views, withSep, Nm.dir, intro, Nm.claim]
  rw [hvw] at h2
  cases h2 with
  | cons ha hrest =>
    cases hrest
    rename_i t
    obtain ⟨t, s⟩ := t
    cases t <;> simp [Agrees] at ha
    obtain ⟨rfl, rfl, hr⟩ := ha
    exact ⟨_, h1, hr⟩

/-- A path pattern with a character class is printed in quotes and so does not read back as a
pattern. -/
theorem class_pattern_lost :
    printNames '@' [⟨[], [], "file".toList, "[ab]*".toList, some .path, false⟩] =
      "file{'[ab]*'}".toList ∧
    ∃ q p, nextValue '@' false ⟨'{', "'[ab]*'}\n".toList⟩ =
        some (.word "[ab]*".toList q, false, .value, p) ∧
      recognise "[ab]*".toList q = none := by
  refine ⟨by decide, ⟨.single, true, true⟩, ⟨'\'', "}\n".toList⟩, ?_, by decide⟩
  simp [nextValue, skipSpaces, wordLoop, openSingle, seps]

/-- A regular expression without a type in a directory, `d/{~/x/}`, is printed without the braces and
reads back as a word that is not a regular expression. -/
theorem untyped_regex_lost :
    printNames '@' [⟨[], "d/".toList, [], "/x/".toList, some .regex, false⟩] = "d/~/x/".toList ∧
    ∃ q p, nextValue '@' false ⟨' ', "d/~/x/\n".toList⟩ =
        some (.word "d/~/x/".toList q, false, .value, p) ∧
      recognise "d/~/x/".toList q = none := by
  refine ⟨by decide, ⟨.unquoted, false, false⟩, ⟨'/', "\n".toList⟩, ?_, by decide⟩
  simp [nextValue, skipSpaces, step_value, appendQ, seps]

/-! Concrete cases. -/

/-- `exe{'fo'o'}` in a directory with a space, a pair, an escape and the empty name. -/
def sample : List Nm :=
  [⟨"a b/".toList, "c/".toList, "exe".toList, "fo'o$".toList, none, true⟩,
   ⟨[], "d/".toList, [], [], none, false⟩,
   ⟨[], [], [], "~/x/".toList, none, false⟩,
   ⟨[], [], [], "*".toList, none, false⟩,
   ⟨[], [], "cxx".toList, "*".toList, some .path, false⟩,
   ⟨[], [], "cxx".toList, "/(.*)/".toList, some .regex, false⟩,
   ⟨[], [], [], [], none, false⟩]

example : PairOk '@' := by unfold PairOk; decide

example : (∀ n ∈ sample, n.Valid) ∧ Complete sample := by
  refine ⟨?_, rfl⟩
  intro n hn
  simp only [sample, List.mem_cons, List.not_mem_nil, or_false] at hn
  rcases hn with rfl | rfl | rfl | rfl | rfl | rfl | rfl <;>
    exact ⟨by decide, by decide⟩

example : printNames '@' sample =
    "'a b/c/'exe{\"fo'o\\$\"}@d/ \\~/x/ '*' cxx{*} cxx{~'/(.*)/'} ''".toList := by rfl

example : views '@' false sample =
    [(.word "a b/c/exe".toList none false, false), (.lcbrace, false),
     (.word "fo'o$".toList (some none) true, false), (.rcbrace, false), (.pairSep, false),
     (.word "d/".toList (some none) false, false), (.word "~/x/".toList (some none) false, true),
     (.word "*".toList (some none) false, true),
     (.word "cxx".toList none false, true), (.lcbrace, false),
     (.word "*".toList (some (some .path)) true, false), (.rcbrace, false),
     (.word "cxx".toList none false, true), (.lcbrace, false),
     (.word "~/(.*)/".toList (some (some .regex)) true, false), (.rcbrace, false),
     (.word [] (some none) false, true)] := by rfl

end Verif.Quote
