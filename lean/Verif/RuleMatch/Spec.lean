/-!
# Rule matching: specification

Rules are registered in a scope for a meta-operation, an operation (or any operation) and a
target type under a dot-separated name. A rule hint is such a name, possibly partial.

For a target and an action a registration is described by three positions: of the target
type in the list of the target's type and its bases, of the scope in the list of the scopes
to look in, and whether it is for the operation itself (0) or for any operation (1).
-/

namespace Verif.RuleMatch

/-- Components of a dot-separated name. -/
abbrev Name := List Nat

/-- A rule under the name it is known by. -/
structure Cand where
  name : Name
  obj : Nat
  /-- It is an ad hoc rule or recipe. -/
  adhoc : Bool
deriving DecidableEq

/-- What a match results in. -/
inductive Outcome
  | none
  | matched (c : Cand)
  | ambiguous
deriving DecidableEq

/-- Where a rule was found: type, scope and operation. -/
structure Pos where
  type : Nat
  scope : Nat
  wild : Nat

/-- Preferred or the same: the type is more derived or, if the same, the scope is closer
or, if the same, it is for the specific operation. -/
def Pos.le (p q : Pos) : Prop :=
  p.type < q.type ∨
  (p.type = q.type ∧ (p.scope < q.scope ∨ (p.scope = q.scope ∧ p.wild ≤ q.wild)))

end Verif.RuleMatch
