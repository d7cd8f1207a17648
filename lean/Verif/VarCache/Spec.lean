import Verif.Override.Spec

/-!
# Cached variable values: specification

Values that have to be computed (target type/pattern-specific prepend/append and
command line overrides) are cached. This is supposed to be invisible: whatever has
been assigned and looked up before, a lookup yields what it would yield if nothing
had been cached; and once everything has been loaded, a value that has been looked
up stays as it is (in many places, a reference to it is stored).

Here is what the lookups and assignments are about; one variable is considered.
-/

namespace Verif.VarCache

open Verif.Lookup (Val Kind)
open Verif.Override (Ov OVis OKind)

/-- A set of variables (`variable_map`): of a target (or group, or rule), of a
scope, or of a target type/pattern in a scope. -/
inductive Vars | target (t : Nat) | plain (s : Nat) | pattern (s n : Nat)
  deriving DecidableEq, Repr

/-- The scopes and the command line. -/
structure World (α : Type) where
  /-- A scope and its parents, outwards. -/
  chain : Nat → List Nat
  /-- The target types/patterns of a scope, in the order in which they are tried. -/
  pats  : Nat → List Nat
  /-- Whether a target of this type and name matches the pattern. -/
  pm    : Nat → Nat → Nat → Bool
  /-- The overrides, in the command line order. -/
  ovs   : List Ov
  /-- What an override, by its number, is set to in a scope. -/
  ovr   : Nat → Nat → Option (Val α)
  /-- The project that a scope belongs to. -/
  proj  : Nat → Option Nat
  /-- Whether the second is a (direct or indirect) subproject of the first. -/
  sub   : Nat → Nat → Bool

/-- Scopes form a tree. -/
def World.Tree {α : Type} (w : World α) : Prop :=
  ∀ s, w.chain s = [s] ∨ ∃ p, w.chain s = s :: w.chain p

/-- From where the variable is looked up: the variables of the rule, the target and
its group, if any, the type and name of the target and of its group, and the base
scope. -/
structure Origin where
  own  : List Nat
  keys : List Nat
  base : Nat
  rule : Bool := false
  deriving DecidableEq, Repr

/-- Looking up from a scope. -/
def Origin.scope (s : Nat) : Origin := ⟨[], [], s, false⟩

/-- What happens to a variable. The values are those after the assignment, that is,
`+=` to a variable that is already set results in the combined value here. A
target type/pattern-specific value may also be one that prepends/appends. -/
inductive Op (α : Type) where
  | set (m : Vars) (k : Kind) (v : Val α)
  | look (o : Origin)

/-- If two targets are of the same type and name (in different directories), then so
are their groups. -/
def SameGroups (os : Origin → Prop) : Prop :=
  ∀ a b k r r', os a → os b → (k :: r) <:+ a.keys → (k :: r') <:+ b.keys → r = r'

/-- The variables of a target (or group) are looked up from one base scope. -/
def OneBase (os : Origin → Prop) : Prop :=
  ∀ a b t, os a → os b → t ∈ a.own → t ∈ b.own → a.base = b.base

/-- Only targets have variables. -/
def Proper (os : Origin → Prop) : Prop := ∀ o, os o → o.keys = [] → o.own = []

/-- All the lookups are from these. -/
def LooksFrom {α : Type} (os : Origin → Prop) (ops : List (Op α)) : Prop :=
  ∀ o, .look o ∈ ops → os o

/-- A value that prepends/appends is not changed to an assigned one. -/
def KindFixed {α : Type} (ops : List (Op α)) : Prop :=
  ∃ kind : Vars → Kind, ∀ m k v, .set m k v ∈ ops → k = kind m

/-- There are no target type/pattern-specific prepend/append values. -/
def NoPatternAdd {α : Type} (ops : List (Op α)) : Prop :=
  ∀ s n k v, .set (.pattern s n) k v ∈ ops → k = .assign

/-- There are no target type/pattern-specific values. -/
def NoPattern {α : Type} (ops : List (Op α)) : Prop :=
  ∀ s n k v, .set (.pattern s n) k v ∉ ops

end Verif.VarCache
