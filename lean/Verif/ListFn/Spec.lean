/-!
# Sequences and sorting: specification
-/

namespace Verif.ListFn

/-- The numbers from `b` in steps of `s` that are less than `e`, each once and in ascending order. -/
def Sequence (b e s : Nat) (r : List Nat) : Prop :=
  r.Pairwise (· < ·) ∧ ∀ n, n ∈ r ↔ n < e ∧ ∃ k, n = b + k * s

/-- What is known of `std::sort`: the elements in another order, such that none comes before a smaller one. -/
def Sorts {α} (le : α → α → Bool) (srt : List α → List α) : Prop :=
  ∀ l, (srt l).Perm l ∧ (srt l).Pairwise fun x y => le x y = true

/-- A comparison that is total and transitive; different elements may be equivalent, as strings are that differ
in case only. -/
structure Ordering {α} (le : α → α → Bool) : Prop where
  total : ∀ x y, le x y = true ∨ le y x = true
  trans : ∀ x y z, le x y = true → le y z = true → le x z = true

end Verif.ListFn
