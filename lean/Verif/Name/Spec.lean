/-! Specification of target names with dots (C26, C27), following the comment in
libbuild2/target.cxx:301-327 but in terms of the sequences of dots in the name. -/

namespace Verif.Name

/-- `v` is the directory `dir` (empty or ending with a separator) followed by the leaf. -/
def IsLeaf (v dir leaf : List Char) : Prop :=
  v = dir ++ leaf ∧ '/' ∉ leaf ∧ (dir = [] ∨ dir.getLast? = some '/')

/-- Between `a` and `b` there is a sequence of exactly `k` dots. -/
def Run (l : List Char) (k : Nat) (a b : List Char) : Prop :=
  l = a ++ List.replicate k '.' ++ b ∧ k ≥ 1 ∧ a.getLast? ≠ some '.' ∧ b.head? ≠ some '.'

/-- What a text stands for: a single dot is a dot, a sequence of `2 k` dots is a sequence of `k` dots,
and other characters are themselves. -/
inductive Means : List Char → List Char → Prop
  | nil : Means [] []
  | char {c w l} : c ≠ '.' → Means w l → Means (c :: w) (c :: l)
  | dot {w l} : w.head? ≠ some '.' → Means w l → Means ('.' :: w) ('.' :: l)
  | dots {k w l} : k ≥ 1 → w.head? ≠ some '.' → Means w l →
      Means (List.replicate (2 * k) '.' ++ w) (List.replicate k '.' ++ l)

/-- The names that are errors: nothing but dots, an odd sequence of more than three dots, triple dots
more than once, leading triple dots. -/
def Bad (leaf : List Char) : Prop :=
  (∀ c ∈ leaf, c = '.') ∨
  (∃ k a b, Run leaf k a b ∧ k % 2 = 1 ∧ k > 3) ∨
  (∃ a b a' b', Run leaf 3 a b ∧ Run leaf 3 a' b' ∧ a ≠ a') ∨
  (∃ b, Run leaf 3 [] b)

/-- How a leaf that is not bad is understood: name and extension. -/
inductive Reads (leaf : List Char) : List Char → Option (List Char) → Prop
  /-- triple dots separate the name and the extension -/
  | triple {a b n x} : Run leaf 3 a b → b ≠ [] → Means a n → Means b x → Reads leaf n (some x)
  /-- trailing triple dots: the extension is not specified -/
  | unspecified {a n} : Run leaf 3 a [] → Means a n → Reads leaf n none
  /-- otherwise the last single dot separates them, unless it is the first character -/
  | single {a b n x} : (∀ a b, ¬ Run leaf 3 a b) → Run leaf 1 a b → a ≠ [] →
      (∀ a' b', ¬ Run b 1 a' b') → Means a n → Means b x →
      Reads leaf n (some x)
  /-- otherwise, a trailing (escaped) dot: no extension -/
  | noExt {n} : (∀ a b, ¬ Run leaf 3 a b) → (∀ a b, Run leaf 1 a b → a = []) → Means leaf n →
      leaf.getLast? = some '.' → Reads leaf n (some [])
  /-- otherwise the extension is not specified -/
  | none {n} : (∀ a b, ¬ Run leaf 3 a b) → (∀ a b, Run leaf 1 a b → a = []) → Means leaf n →
      leaf.getLast? ≠ some '.' → Reads leaf n none

/-- The pairs of a leaf and an extension that can be written down. -/
def Representable (leaf : List Char) (e : Option (List Char)) : Prop :=
  '/' ∉ leaf ∧ (∃ c ∈ leaf, c ≠ '.') ∧
  (∀ x, e = some x → '/' ∉ x ∧ x.head? ≠ some '.') ∧
  (leaf.getLast? = some '.' → e = some [])

end Verif.Name
