/-!
# Test selection: specification

What to test is requested with a list of targets and test ids. A request has a target,
an id or both. A target is a directory, meaning everything in and under it, or a specific
target. A test id is a path: that of the test or of a group enclosing it.

Paths are sequences of components and are relative: directories to the project root and
ids to the test target.
-/

namespace Verif.TestSel

/-- A path. -/
abbrev Path (C : Type) := List C

/-- One is the other or encloses it. -/
def Related {C : Type} (p q : Path C) : Prop := p <+: q ∨ q <+: p

/-- A target: its directory, type, name (which may be empty) and the object. -/
structure Target (C : Type) where
  dir : Path C
  type : C
  name : Path C
  obj : Nat
deriving DecidableEq

/-- The target part of a request. -/
inductive What (C : Type)
  /-- Anything in or under the directory. -/
  | under (dir : Path C)
  /-- The target with this directory, type and name which, if it exists, is `obj`. -/
  | exact (dir : Path C) (type : C) (name : Path C) (obj : Option Nat)

structure Request (C : Type) where
  what : Option (What C)
  id : Option (Path C)

/-- The target is requested. -/
def What.covers {C : Type} : What C → Target C → Prop
  | .under d, t => d <+: t.dir
  | .exact d ty n o, t => t.dir = d ∧ t.type = ty ∧ t.name = n ∧ o = some t.obj

/-- There could be a requested target in this directory. -/
def What.coversDir {C : Type} : What C → Path C → Prop
  | .under d, x => d <+: x
  | .exact d _ _ _, x => x = d

/-- The target is to be tested: it is requested or there are no targets among the
requests. -/
def TargetSelected {C : Type} (rs : List (Request C)) (t : Target C) : Prop :=
  (∀ r ∈ rs, r.what = none) ∨ ∃ r ∈ rs, ∃ w, r.what = some w ∧ w.covers t

/-- The request is for certain tests of this target: the one requested or any. -/
def Concerns {C : Type} (r : Request C) (t : Target C) : Prop :=
  ∀ w, r.what = some w → w.covers t

/-- The test (or group) of this target is to be run: it, its group or one of its members
is requested or there are no ids among the requests for this target. -/
def TestSelected {C : Type} (rs : List (Request C)) (t : Target C) (id : Path C) : Prop :=
  (∀ r ∈ rs, Concerns r t → r.id = none) ∨
  ∃ r ∈ rs, Concerns r t ∧ ∃ p, r.id = some p ∧ Related p id

end Verif.TestSel
