/-!
# Variable patterns: specification

What the documentation of `variable_patterns` (libbuild2/variable.hxx:1698-1725)
says, without reference to how patterns are stored or searched.
-/

namespace Verif.VarPattern

/-- libbuild2/variable.hxx:142 `enum class variable_visibility`. -/
inductive Vis | global | project | scope | target | prereq
  deriving DecidableEq, Repr

/-- Position in the enumeration: a greater one is more restrictive. -/
def Vis.rank : Vis → Nat
  | .global => 0 | .project => 1 | .scope => 2 | .target => 3 | .prereq => 4

/-- libbuild2/variable.hxx:1773 `variable_patterns::pattern`. Value types are
numbers; `some none` is an explicit "no type". -/
structure Pattern where
  pre   : List Char
  suf   : List Char
  multi : Bool
  must  : Bool                  -- Called match in the code.
  type  : Option (Option Nat)
  vis   : Option Vis
  ovr   : Option Bool
  deriving DecidableEq, Repr

/-- A variable name is an instance of the pattern: it is the prefix, a stem and
the suffix, the stem is not empty and, unless the pattern is `**`, is a single
component. -/
def Matches (p : Pattern) (n : List Char) : Prop :=
  ∃ stem, n = p.pre ++ stem ++ p.suf ∧ stem ≠ [] ∧ (p.multi = false → '.' ∉ stem)

/-- "The pattern is considered more specific if it has a greater sum of its
prefix and suffix lengths. If the prefix and suffix are equal, then the `*`
pattern is considered more specific than `**`." -/
def MoreSpecific (p q : Pattern) : Prop :=
  q.pre.length + q.suf.length < p.pre.length + p.suf.length ∨
  (p.pre = q.pre ∧ p.suf = q.suf ∧ p.multi = false ∧ q.multi = true)

/-- "If neither is more specific, then they are matched in the reverse order of
insertion": `p` is to be used for `n` after the patterns in `h` have been
inserted (in this order), that is, every other matching pattern is either less
specific or neither is more specific and it has been inserted earlier. -/
def Best (h : List Pattern) (n : List Char) (p : Pattern) : Prop :=
  ∃ a b, h = a ++ p :: b ∧ Matches p n ∧
    (∀ q ∈ a, Matches q n → ¬ MoreSpecific q p) ∧
    (∀ q ∈ b, Matches q n → MoreSpecific p q)

/-- The type and visibility the pattern gives to a variable for which nothing
else is said (visibility is project by default). -/
def Pattern.attrs (p : Pattern) : Option Nat × Vis :=
  (p.type.join, p.vis.getD .project)

/-- A pattern in the documented form: `[<prefix>.](*|**)[.<suffix>]` that is not
just `*` or `**`. -/
def Qualified (p : Pattern) : Prop :=
  (p.pre ≠ [] ∨ p.suf ≠ []) ∧
  (p.pre ≠ [] → ∃ l, p.pre = l ++ ['.']) ∧ (p.suf ≠ [] → ∃ l, p.suf = '.' :: l)

/-- There is no `*`/`**` pair with the same prefix and suffix next to a different
pattern of the same length. -/
def Separated (h : List Pattern) : Prop :=
  ∀ p ∈ h, ∀ q ∈ h, MoreSpecific p q → p.pre = q.pre →  p.suf = q.suf →
    ∀ r ∈ h, r.pre.length + r.suf.length = p.pre.length + p.suf.length →
      r.pre = p.pre ∧ r.suf = p.suf

end Verif.VarPattern
