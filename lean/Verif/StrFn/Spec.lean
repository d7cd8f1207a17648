/-!
# String functions: specification

A string is the list of its characters. `lower` is the character in lower case, in whatever locale.
-/

namespace Verif.StrFn

abbrev Str := List Char

/-- The same, up to case if `ic`. -/
def Same (lower : Char → Char) (ic : Bool) (x y : Str) : Prop :=
  if ic then x.map lower = y.map lower else x = y

/-- There is an occurrence of `y` in `x` at this position. -/
def Occurs (lower : Char → Char) (ic : Bool) (x y : Str) (p : Nat) : Prop :=
  ∃ pre mid post, x = pre ++ mid ++ post ∧ pre.length = p ∧ Same lower ic mid y

/-- `r` is `x` with the leftmost occurrence of `y` replaced by `t`, then the leftmost one in what follows it,
and so on while there is one. -/
inductive Replaced (lower : Char → Char) (ic : Bool) (y t : Str) : Str → Str → Prop
  | none {x} : (∀ p, ¬ Occurs lower ic x y p) → Replaced lower ic y t x x
  | one {pre mid post r} : Same lower ic mid y →
      (∀ p, p < pre.length → ¬ Occurs lower ic (pre ++ mid ++ post) y p) →
      Replaced lower ic y t post r → Replaced lower ic y t (pre ++ mid ++ post) (pre ++ t ++ r)

/-- `r` is `x` with the occurrence of `y` at this position replaced by `t`. -/
def ReplacedAt (lower : Char → Char) (ic : Bool) (x y t : Str) (p : Nat) (r : Str) : Prop :=
  ∃ pre mid post, x = pre ++ mid ++ post ∧ pre.length = p ∧ Same lower ic mid y ∧ r = pre ++ t ++ post

/-- What `$compare()` and the functions based on it look for: all that the flags say, or equality. -/
def Matches (lower : Char → Char) (x y : Str) (fs : List String) : Prop :=
  ("contains" ∈ fs → ∃ p, Occurs lower (fs.contains "icase") x y p) ∧
  ("contains_once" ∈ fs → (∃ p, Occurs lower (fs.contains "icase") x y p) ∧
    ∀ p q, Occurs lower (fs.contains "icase") x y p → Occurs lower (fs.contains "icase") x y q → p = q) ∧
  ("starts_with" ∈ fs → ∃ mid post, x = mid ++ post ∧ Same lower (fs.contains "icase") mid y) ∧
  ("ends_with" ∈ fs → ∃ pre mid, x = pre ++ mid ∧ Same lower (fs.contains "icase") mid y) ∧
  ("contains" ∉ fs → "contains_once" ∉ fs → "starts_with" ∉ fs → "ends_with" ∉ fs →
    Same lower (fs.contains "icase") x y)

end Verif.StrFn
