import Verif.Lookup.Spec

/-!
# Command line overrides: specification

A variable can be overridden on the command line any number of times. An override
is `x=v` (replace), `x=+v` (prefix) or `x+=v` (suffix), its visibility says what it
applies to: everything in the scope it is set in and its subscopes (`x`), the same
but not in subprojects (`%x`), or only values set in this very scope (`/x`). Every
override sits in one or more scopes (depending on `!`, the directory, etc.) and we
look from some scope outwards.

* The *stem* is the value that prefixes and suffixes are added to: the innermost
  applicable replacement, the last one on the command line if there are several in
  a scope, or else the original value. A replacement inside of the original's scope
  needs not apply to it: it is what is visible.
* Then the prefixes and suffixes that apply are added, from the inner scope outwards
  and in the command line order in each scope, except for those that are followed,
  in the same scope, by the replacement that is the stem.
* Whether one applies is decided with respect to the innermost of the values that
  have contributed so far.
-/

namespace Verif.Override

open Verif.Lookup (Val)

/-- Which values an override applies to. -/
inductive OVis | scope | project | global
  deriving DecidableEq, Repr

/-- `x=v`, `x=+v`, `x+=v`. -/
inductive OKind | replace | prefix | suffix
  deriving DecidableEq, Repr

/-- An override; the list of overrides is in the command line order. -/
structure Ov where
  vis  : OVis
  kind : OKind
  deriving DecidableEq, Repr

/-- A scope: the values of the overrides (by their number on the command line) that
have been entered into it and the project it belongs to, if any. -/
structure Sc (α : Type) where
  ovr  : Nat → Option (Val α)
  proj : Option Nat

/-- Where a value is: in the target, in the target type/pattern-specific variables
of a scope, or in its plain variables. -/
inductive Loc | target | pattern (i : Nat) | plain (i : Nat)
  deriving DecidableEq, Repr

/-- The number of the scope (counting outwards) of a location. -/
def Loc.pos : Loc → Nat
  | .target => 0
  | .pattern i => i
  | .plain i => i

/-- The original value: as assigned by buildfiles. -/
structure Orig (α : Type) where
  val   : Val α
  loc   : Loc
  depth : Nat
  deriving DecidableEq, Repr

variable {α : Type}

/-- The project of scope number `i`. -/
def projAt (chain : List (Sc α)) (i : Nat) : Option Nat :=
  match chain[i]? with
  | none   => none
  | some s => s.proj

/-- What override number `j` is set to in scope number `i`. -/
def ovrAt (chain : List (Sc α)) (i j : Nat) : Option (Val α) :=
  match chain[i]? with
  | none   => none
  | some s => s.ovr j

/-- Whether an override in scope number `i` applies to a value at `loc` that belongs
to project `proj`; `sub p q` means that `q` is a (direct or indirect) subproject
of `p`. -/
def reaches (sub : Nat → Nat → Bool) (chain : List (Sc α)) (o : Ov) (i : Nat)
    (loc : Loc) (proj : Option Nat) : Bool :=
  match o.vis with
  | .global  => true
  | .scope   => loc == .plain i
  | .project =>
    match projAt chain i, proj with
    | some p, some q => !sub p q
    | _,      _      => true

/-- All the scope/override combinations with scopes counted outwards and, for each,
overrides in the given order. -/
def pairs (n : Nat) (ovs : List (Ov × Nat)) : List (Nat × Ov × Nat) :=
  (List.range n).flatMap (fun i => ovs.map (fun o => (i, o)))

/-- The replacement that is the stem, if any: its scope and number. -/
def replacement (sub : Nat → Nat → Bool) (chain : List (Sc α)) (ovs : List Ov)
    (orig : Option (Orig α)) : Option (Nat × Ov × Nat) :=
  (pairs chain.length ovs.zipIdx.reverse).find? fun (i, o, j) =>
    o.kind == .replace && (ovrAt chain i j).isSome &&
    (match orig with
     | none   => true
     | some g => decide (i < g.loc.pos) ||
        reaches sub chain o i g.loc (projAt chain g.loc.pos))

/-- The value so far: undefined or a value, and where it is from. -/
structure Acc (α : Type) where
  val  : Option (Val α)
  loc  : Option Loc
  proj : Option Nat
  deriving DecidableEq

/-- The stem. -/
def stem (sub : Nat → Nat → Bool) (chain : List (Sc α)) (ovs : List Ov)
    (orig : Option (Orig α)) : Acc α :=
  match replacement sub chain ovs orig with
  | some (i, _, j) => ⟨ovrAt chain i j, some (.plain i), projAt chain i⟩
  | none =>
    match orig with
    | some g => ⟨some g.val, some g.loc, projAt chain g.loc.pos⟩
    | none   => ⟨none, none, none⟩

/-- Add a prefix or suffix. NULL adds nothing. -/
def extend (k : OKind) (x : Option (Val α)) (v : Val α) : Option (Val α) :=
  match k, v with
  | .prefix, some l => some (some (l ++ x.join.getD []))
  | .suffix, some l => some (some (x.join.getD [] ++ l))
  | _, _ => some x.join

/-- Add prefix/suffix `o`, number `j`, of scope `i`, if it is set and applies. -/
def contribute (sub : Nat → Nat → Bool) (chain : List (Sc α)) (a : Acc α)
    (e : Nat × Ov × Nat) : Acc α :=
  match ovrAt chain e.1 e.2.2 with
  | none => a
  | some v =>
    if e.2.1.kind == .replace then a
    else
      match a.loc with
      | none => ⟨extend e.2.1.kind a.val v, some (.plain e.1), projAt chain e.1⟩
      | some l =>
        if reaches sub chain e.2.1 e.1 l a.proj
        then ⟨extend e.2.1.kind a.val v, some (if e.1 < l.pos then .plain e.1 else l), a.proj⟩
        else a

/-- Whether a prefix/suffix is followed by the replacement (in its scope). -/
def superseded (r : Option (Nat × Ov × Nat)) (e : Nat × Ov × Nat) : Bool :=
  match r with
  | none => false
  | some (i, _, j) => e.1 == i && decide (e.2.2 ≤ j)

/-- The value with the overrides applied. -/
def overridden (sub : Nat → Nat → Bool) (chain : List (Sc α)) (ovs : List Ov)
    (orig : Option (Orig α)) : Acc α :=
  ((pairs chain.length ovs.zipIdx).filter
      (fun e => !superseded (replacement sub chain ovs orig) e)).foldl
    (contribute sub chain) (stem sub chain ovs orig)

end Verif.Override
