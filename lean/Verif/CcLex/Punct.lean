import Verif.CcLex.Tokens

/-!
# C and C++ tokens: punctuation
-/

namespace Verif.CcLex

/-- The characters that punctuation starts with. -/
def starts : Str :=
  [';', '{', '}', '#', '(', ')', '[', ']', ',', '?', '~', '\\', '.', '=', '!', '*', '/', '%', '^', '<', '>',
   '+', '-', '&', '|', ':']

/-- The punctuation that starts with the character. -/
def with_ (c : Char) : List Str := (puncts.filter fun x => x.1.head? == some c).map Prod.fst

theorem punct_start : ∀ x ∈ puncts, ∃ c, x.1.head? = some c ∧ c ∈ starts := by
  have h : (puncts.all fun x => match x.1.head? with | some c => starts.contains c | none => false) = true := by
    decide
  intro x hx
  have := List.all_eq_true.1 h x hx
  split at this
  · rename_i c e
    exact ⟨c, e, by simpa using this⟩
  · cases this

theorem punct_unique : ∀ {q : Str} {k k' : Kind}, (q, k) ∈ puncts → (q, k') ∈ puncts → k = k' := by
  have h : (puncts.all fun x => puncts.all fun y => x.1 != y.1 || x.2 == y.2) = true := by decide
  intro q k k' h1 h2
  have := List.all_eq_true.1 (List.all_eq_true.1 h _ h1) _ h2
  simpa using this

theorem longest_of {c : Char} {r : Str} {n : Nat} (L : List Str) (hL : with_ c = L)
    (h : ∀ q ∈ L, q <+: c :: r → q.length ≤ n) :
    ∀ q k', (q, k') ∈ puncts → q <+: c :: r → q.length ≤ n := by
  intro q k' hq hp
  refine h q ?_ hp
  rw [← hL]
  refine List.mem_map.2 ⟨(q, k'), List.mem_filter.2 ⟨hq, ?_⟩, rfl⟩
  obtain ⟨d, hd, -⟩ := punct_start _ hq
  simp only at hd ⊢
  cases q with
  | nil => cases hd
  | cons e q => rw [(List.cons_prefix_cons.1 hp).1]; simp

/-- What is expected of the punctuation at the beginning of `s`. -/
def Best (s : Str) (x : Except Err Lexed) : Prop :=
  ∃ p k r', x = .ok ⟨k, p, r'⟩ ∧ (p, k) ∈ puncts ∧ s = p ++ r' ∧
    ∀ q k', (q, k') ∈ puncts → q <+: s → q.length ≤ p.length

theorem best_single {c : Char} {k : Kind} {r : Str} (hk : ([c], k) ∈ puncts) (hL : with_ c = [[c]]) :
    Best (c :: r) (.ok ⟨k, [c], r⟩) := by
  refine ⟨[c], k, r, rfl, hk, rfl, longest_of _ hL ?_⟩
  intro q hq _
  simp at hq
  subst hq
  exact Nat.le_refl _

theorem best_of {c : Char} {r p r' : Str} {k : Kind} (hk : (p, k) ∈ puncts) (he : c :: r = p ++ r') (L : List Str)
    (hL : with_ c = L) (h : ∀ q ∈ L, q <+: c :: r → q.length ≤ p.length) :
    Best (c :: r) (.ok ⟨k, p, r'⟩) :=
  ⟨p, k, r', rfl, hk, he, longest_of L hL h⟩

theorem head_cons {r : Str} {c : Char} (h : r.head? = some c) : r = c :: r.tail := by
  cases r with
  | nil => cases h
  | cons d r => simp at h; rw [h]; rfl

theorem prefix_two {a b : Char} {r : Str} : [a, b] <+: a :: r ↔ r.head? = some b := by
  rw [List.cons_prefix_cons]
  cases r with
  | nil => simp
  | cons c r => simp [List.cons_prefix_cons, eq_comm]

theorem prefix_three {a b c : Char} {r : Str} :
    [a, b, c] <+: a :: r ↔ r.head? = some b ∧ r.tail.head? = some c := by
  rw [List.cons_prefix_cons]
  cases r with
  | nil => simp
  | cons d r =>
    cases r with
    | nil => simp [List.cons_prefix_cons]
    | cons e r => simp [List.cons_prefix_cons, eq_comm]

/-- Punctuation is recognized and it is the longest one. -/
theorem lexeme_punct {c : Char} {r : Str} (hc : c ∈ starts)
    (hd : ¬ (c = '.' ∧ ∃ d, r.head? = some d ∧ d.isDigit = true)) : Best (c :: r) (lexeme c r) := by
  unfold starts at hc
  simp only [List.mem_cons, List.not_mem_nil, or_false] at hc
  -- `c` or `c=`
  have hassign : ∀ {c : Char}, ([c], Kind.punctuation) ∈ puncts → ([c, '='], Kind.punctuation) ∈ puncts →
      with_ c = [[c], [c, '=']] →
      Best (c :: r) (if r.head? = some '=' then .ok ⟨.punctuation, [c, '='], r.tail⟩
        else .ok ⟨.punctuation, [c], r⟩) := by
    intro c h1 h2 hL
    by_cases h : r.head? = some '='
    · rw [if_pos h]
      refine best_of h2 (by rw [head_cons h]; rfl) _ hL ?_
      intro q hq _
      simp at hq
      rcases hq with rfl | rfl <;> simp
    · rw [if_neg h]
      refine best_of h1 rfl _ hL ?_
      intro q hq hp
      simp at hq
      rcases hq with rfl | rfl
      · simp
      · exact absurd (prefix_two.1 hp) h
  -- `c`, `c=`, `cc` or `cc=`
  have hshift : ∀ {c : Char} {k : Kind}, ([c], k) ∈ puncts → ([c, '='], Kind.punctuation) ∈ puncts →
      ([c, c], Kind.punctuation) ∈ puncts → ([c, c, '='], Kind.punctuation) ∈ puncts →
      with_ c = [[c, '='], [c, c], [c, c, '='], [c]] → c ≠ '=' →
      Best (c :: r) (if r.head? = some c then
          if r.tail.head? = some '=' then .ok ⟨.punctuation, [c, c, '='], r.tail.tail⟩
          else .ok ⟨.punctuation, [c, c], r.tail⟩
        else if r.head? = some '=' then .ok ⟨.punctuation, [c, '='], r.tail⟩
        else .ok ⟨k, [c], r⟩) := by
    intro c k h1 h2 h3 h4 hL hne
    by_cases h : r.head? = some c
    · rw [if_pos h]
      by_cases h' : r.tail.head? = some '='
      · rw [if_pos h']
        refine best_of h4 (by rw [head_cons h]; simp only [List.tail_cons]; rw [head_cons h']; rfl) _ hL ?_
        intro q hq _
        simp at hq
        rcases hq with rfl | rfl | rfl | rfl <;> simp
      · rw [if_neg h']
        refine best_of h3 (by rw [head_cons h]; rfl) _ hL ?_
        intro q hq hp
        simp at hq
        rcases hq with rfl | rfl | rfl | rfl
        · simp
        · simp
        · exact absurd (prefix_three.1 hp).2 h'
        · simp
    · rw [if_neg h]
      by_cases h' : r.head? = some '='
      · rw [if_pos h']
        refine best_of h2 (by rw [head_cons h']; rfl) _ hL ?_
        intro q hq hp
        simp at hq
        rcases hq with rfl | rfl | rfl | rfl
        · simp
        · simp
        · exact absurd (prefix_three.1 hp).1 h
        · simp
      · rw [if_neg h']
        refine best_of h1 rfl _ hL ?_
        intro q hq hp
        simp at hq
        rcases hq with rfl | rfl | rfl | rfl
        · exact absurd (prefix_two.1 hp) h'
        · exact absurd (prefix_two.1 hp) h
        · exact absurd (prefix_three.1 hp).1 h
        · simp
  -- `c`, `cc` or `c=`
  have hdouble : ∀ {c : Char}, ([c], Kind.punctuation) ∈ puncts → ([c, '='], Kind.punctuation) ∈ puncts →
      ([c, c], Kind.punctuation) ∈ puncts → with_ c = [[c], [c, c], [c, '=']] →
      Best (c :: r) (if r.head? = some c ∨ r.head? = some '=' then .ok ⟨.punctuation, c :: r.take 1, r.tail⟩
        else .ok ⟨.punctuation, [c], r⟩) := by
    intro c h1 h2 h3 hL
    by_cases h : r.head? = some c ∨ r.head? = some '='
    · rw [if_pos h]
      have hlen : ∀ q ∈ [[c], [c, c], [c, '=']], q.length ≤ 2 := by
        intro q hq
        simp at hq
        rcases hq with rfl | rfl | rfl <;> simp
      rcases h with h | h
      · rw [head_cons h]
        exact best_of h3 rfl _ hL (fun q hq _ => hlen q hq)
      · rw [head_cons h]
        exact best_of h2 rfl _ hL (fun q hq _ => hlen q hq)
    · rw [if_neg h]
      refine best_of h1 rfl _ hL ?_
      intro q hq hp
      simp at hq
      rcases hq with rfl | rfl | rfl
      · simp
      · exact absurd (.inl (prefix_two.1 hp)) h
      · exact absurd (.inr (prefix_two.1 hp)) h
  rcases hc with rfl | rfl | rfl | rfl | rfl | rfl | rfl | rfl | rfl | rfl | rfl | rfl | rfl | rfl | rfl | rfl |
    rfl | rfl | rfl | rfl | rfl | rfl | rfl | rfl | rfl | rfl
  · exact best_single (by decide) (by decide)
  · exact best_single (by decide) (by decide)
  · exact best_single (by decide) (by decide)
  · exact best_single (by decide) (by decide)
  · exact best_single (by decide) (by decide)
  · exact best_single (by decide) (by decide)
  · exact best_single (by decide) (by decide)
  · exact best_single (by decide) (by decide)
  · exact best_single (by decide) (by decide)
  · exact best_single (by decide) (by decide)
  · exact best_single (by decide) (by decide)
  · exact best_single (by decide) (by decide)
  · -- `.`
    have hL : with_ '.' = [['.', '*'], ['.', '.', '.'], ['.']] := by decide
    cases r with
    | nil =>
      refine best_of (k := .dot) (p := ['.']) (by decide) rfl _ hL ?_
      intro q hq hp
      simp at hq
      rcases hq with rfl | rfl | rfl
      · exact absurd (prefix_two.1 hp) (by simp)
      · exact absurd (prefix_three.1 hp).1 (by simp)
      · simp
    | cons p r =>
      have hl : lexeme '.' (p :: r) = if p = '*' then .ok ⟨.punctuation, ['.', p], r⟩
          else if p.isDigit then .ok ⟨.number, '.' :: (number false (p :: r)).1, (number false (p :: r)).2⟩
          else if p = '.' ∧ r.head? = some '.' then .ok ⟨.punctuation, ['.', p, '.'], r.tail⟩
          else .ok ⟨.dot, ['.'], p :: r⟩ := rfl
      rw [hl]
      by_cases h1 : p = '*'
      · rw [if_pos h1]
        subst h1
        refine best_of (by decide) rfl _ hL ?_
        intro q hq hp
        simp at hq
        rcases hq with rfl | rfl | rfl
        · simp
        · exact absurd (prefix_three.1 hp).1 (by simp)
        · simp
      rw [if_neg h1]
      rw [if_neg (fun h => hd ⟨rfl, p, rfl, h⟩)]
      by_cases h2 : p = '.' ∧ r.head? = some '.'
      · rw [if_pos h2]
        obtain ⟨rfl, h2⟩ := h2
        refine best_of (by decide) (by rw [head_cons h2]; rfl) _ hL ?_
        intro q hq hp
        simp at hq
        rcases hq with rfl | rfl | rfl <;> simp
      · rw [if_neg h2]
        refine best_of (by decide) rfl _ hL ?_
        intro q hq hp
        simp at hq
        rcases hq with rfl | rfl | rfl
        · have := prefix_two.1 hp; simp at this; exact absurd this h1
        · have := prefix_three.1 hp; simp at this; exact absurd this h2
        · simp
  · exact hassign (by decide) (by decide) (by decide)
  · exact hassign (by decide) (by decide) (by decide)
  · exact hassign (by decide) (by decide) (by decide)
  · exact hassign (by decide) (by decide) (by decide)
  · exact hassign (by decide) (by decide) (by decide)
  · exact hassign (by decide) (by decide) (by decide)
  · exact hshift (by decide) (by decide) (by decide) (by decide) (by decide) (by decide)
  · exact hshift (by decide) (by decide) (by decide) (by decide) (by decide) (by decide)
  · -- `+`
    have hl : lexeme '+' r = if r.head? = some '+' ∨ r.head? = some '=' then
        .ok ⟨.punctuation, '+' :: r.take 1, r.tail⟩ else .ok ⟨.punctuation, ['+'], r⟩ := rfl
    rw [hl]
    exact hdouble (by decide) (by decide) (by decide) (by decide)
  · -- `-`
    have hl : lexeme '-' r = if r.head? = some '-' ∨ r.head? = some '=' then
        .ok ⟨.punctuation, '-' :: r.take 1, r.tail⟩
        else if r.head? = some '>' then
          if r.tail.head? = some '*' then .ok ⟨.punctuation, ['-', '>', '*'], r.tail.tail⟩
          else .ok ⟨.punctuation, ['-', '>'], r.tail⟩
        else .ok ⟨.punctuation, ['-'], r⟩ := by
      simp [lexeme]
    rw [hl]
    have hL : with_ '-' = [['-'], ['-', '-'], ['-', '='], ['-', '>'], ['-', '>', '*']] := by decide
    by_cases h : r.head? = some '-' ∨ r.head? = some '='
    · rw [if_pos h]
      have hlen : r.head? ≠ some '>' →
          ∀ q ∈ [['-'], ['-', '-'], ['-', '='], ['-', '>'], ['-', '>', '*']], q <+: '-' :: r → q.length ≤ 2 := by
        intro hn q hq hp
        simp at hq
        rcases hq with rfl | rfl | rfl | rfl | rfl
        · simp
        · simp
        · simp
        · simp
        · exact absurd (prefix_three.1 hp).1 hn
      rcases h with h | h
      · have hlen := hlen (by rw [h]; simp)
        rw [head_cons h] at hlen ⊢
        exact best_of (p := ['-', '-']) (by decide) rfl _ hL hlen
      · have hlen := hlen (by rw [h]; simp)
        rw [head_cons h] at hlen ⊢
        exact best_of (p := ['-', '=']) (by decide) rfl _ hL hlen
    · rw [if_neg h]
      by_cases h1 : r.head? = some '>'
      · rw [if_pos h1]
        by_cases h2 : r.tail.head? = some '*'
        · rw [if_pos h2]
          refine best_of (by decide) (by rw [head_cons h1]; simp only [List.tail_cons]; rw [head_cons h2]; rfl) _ hL ?_
          intro q hq _
          simp at hq
          rcases hq with rfl | rfl | rfl | rfl | rfl <;> simp
        · rw [if_neg h2]
          refine best_of (by decide) (by rw [head_cons h1]; rfl) _ hL ?_
          intro q hq hp
          simp at hq
          rcases hq with rfl | rfl | rfl | rfl | rfl
          · simp
          · simp
          · simp
          · simp
          · exact absurd (prefix_three.1 hp).2 h2
      · rw [if_neg h1]
        refine best_of (by decide) rfl _ hL ?_
        intro q hq hp
        simp at hq
        rcases hq with rfl | rfl | rfl | rfl | rfl
        · simp
        · exact absurd (.inl (prefix_two.1 hp)) h
        · exact absurd (.inr (prefix_two.1 hp)) h
        · exact absurd (prefix_two.1 hp) h1
        · exact absurd (prefix_three.1 hp).1 h1
  · exact hdouble (by decide) (by decide) (by decide) (by decide)
  · exact hdouble (by decide) (by decide) (by decide) (by decide)
  · -- `:`
    have hl : lexeme ':' r = if r.head? = some ':' then .ok ⟨.scope, [':', ':'], r.tail⟩
      else .ok ⟨.colon, [':'], r⟩ := rfl
    rw [hl]
    have hL : with_ ':' = [[':'], [':', ':']] := by decide
    by_cases h : r.head? = some ':'
    · rw [if_pos h]
      refine best_of (by decide) (by rw [head_cons h]; rfl) _ hL ?_
      intro q hq _
      simp at hq
      rcases hq with rfl | rfl <;> simp
    · rw [if_neg h]
      refine best_of (by decide) rfl _ hL ?_
      intro q hq hp
      simp at hq
      rcases hq with rfl | rfl
      · simp
      · exact absurd (prefix_two.1 hp) h

end Verif.CcLex
