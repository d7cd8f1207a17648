/-! Specification of scope nesting (C30). A directory is the list of its components, the empty list
being the directory of the global scope, which encloses everything. -/

namespace Verif.ScopeMap

abbrev Dir := List Nat

/-- `r` is the innermost directory satisfying `P` that encloses `d` (possibly `d` itself); `none` if
there is none. -/
def Innermost (P : Dir → Prop) (d : Dir) : Option Dir → Prop
  | some a => P a ∧ a <+: d ∧ ∀ b, P b → b <+: d → b <+: a
  | none => ∀ b, P b → ¬ b <+: d

/-- What is asked of the scope map. -/
inductive Op where
  /-- Create the scope for the out directory, as a project root or not. -/
  | out (d : Dir) (root : Bool)
  /-- Associate the src directory `d` with the scope of the out directory `s`. -/
  | src (s d : Dir)
  deriving DecidableEq, Repr

/-- A scope was created for the directory. -/
def Created (ops : List Op) (d : Dir) : Prop := ∃ r, .out d r ∈ ops

/-- The directory was made a project root. -/
def Root (ops : List Op) (d : Dir) : Prop := .out d true ∈ ops

end Verif.ScopeMap
