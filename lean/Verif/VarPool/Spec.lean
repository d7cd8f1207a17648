/-!
# Variable patterns: specification

Patterns assign types, visibility and overridability to variables by their names.  A pattern
is `[<prefix>.](*|**)[.<suffix>]`.  Visibility is a number: 0 global, 1 project, 2 scope,
3 target, 4 prerequisite; greater is more restricted.
-/

namespace Verif.VarPool

abbrev Name := List Char

/-- Types of values by number. -/
abbrev Ty := Nat

/-- A pattern; the prefix and suffix are with their dots. -/
structure Pat where
  pfx : Name
  sfx : Name
  /-- `**` rather than `*`. -/
  multi : Bool
  /-- Individual insertions must match. -/
  strict : Bool
  /-- `some none` is explicitly untyped. -/
  type : Option (Option Ty)
  vis : Option Nat
  ovr : Option Bool
  deriving DecidableEq, Repr

/-- Only names with several components are subject to patterns. -/
def Qualified (n : Name) : Prop := '.' ∈ n

/-- The name is the prefix, a stem, and the suffix, where the stem is not empty and, for `*`,
consists of a single component. -/
def Matches (p : Pat) (n : Name) : Prop :=
  ∃ s, s ≠ [] ∧ n = p.pfx ++ s ++ p.sfx ∧ (p.multi = true ∨ '.' ∉ s)

/-- The sum of the lengths. -/
def Pat.size (p : Pat) : Nat := p.pfx.length + p.sfx.length

/-- The prefix and the suffix are equal. -/
def Same (p q : Pat) : Prop := p.pfx = q.pfx ∧ p.sfx = q.sfx

/-- More specific: a greater sum of lengths or, with the same prefix and suffix, `*`. -/
def MoreSpecific (p q : Pat) : Prop :=
  q.size < p.size ∨ (Same p q ∧ p.multi = false ∧ q.multi = true)

/-- The pattern for a name, of those that have been inserted in this order: none of the
earlier that match is more specific and all the later that match are less specific. -/
def Preferred (ps : List Pat) (n : Name) (p : Pat) : Prop :=
  ∃ a b, ps = a ++ p :: b ∧ Matches p n ∧
    (∀ q ∈ a, Matches q n → ¬ MoreSpecific q p) ∧
    (∀ q ∈ b, Matches q n → MoreSpecific p q)

/-- There are no `*` and `**` with the same prefix and suffix and another pattern with the
same sum of lengths. -/
def Regular (ps : List Pat) : Prop :=
  ∀ x ∈ ps, ∀ y ∈ ps, ∀ z ∈ ps, Same x y → x.multi ≠ y.multi → z.size = x.size → Same z x

/-- A variable. -/
structure Var where
  type : Option Ty
  vis : Nat
  deriving DecidableEq, Repr

/-- What can be done. -/
inductive Op
  /-- A variable is entered (or found) with what is specified for it. -/
  | insert (n : Name) (t : Option Ty) (v : Option Nat) (o : Option Bool)
  /-- Attributes of a variable in a buildfile. -/
  | attrs (n : Name) (t : Option Ty) (v : Option Nat) (o : Option Bool)
  /-- A pattern is inserted, to be applied to existing variables or not. -/
  | pattern (p : Pat) (retro : Bool)
  deriving DecidableEq, Repr

/-- The patterns, in the order in which they are inserted. -/
def patterns : List Op → List Pat
  | [] => []
  | .pattern p _ :: os => p :: patterns os
  | _ :: os => patterns os

/-- The pattern is in effect for the name: it matches and no other one that matches is more
specific. -/
def InEffect (os : List Op) (n : Name) (p : Pat) : Prop :=
  (∃ r, .pattern p r ∈ os) ∧ Matches p n ∧
    ∀ q r, .pattern q r ∈ os → Matches q n → ¬ MoreSpecific q p

/-- The visibility is specified for the name. -/
def GivenVis (os : List Op) (n : Name) (v : Nat) : Prop :=
  (∃ t o, .insert n t (some v) o ∈ os) ∨ (∃ t o, .attrs n t (some v) o ∈ os) ∨
    ∃ p, InEffect os n p ∧ p.vis = some v

/-- The type is specified for the name. -/
def GivenType (os : List Op) (n : Name) (t : Ty) : Prop :=
  (∃ v o, .insert n (some t) v o ∈ os) ∨ (∃ v o, .attrs n (some t) v o ∈ os) ∨
    ∃ p, InEffect os n p ∧ p.type = some (some t)

end Verif.VarPool
