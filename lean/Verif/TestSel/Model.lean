import Verif.TestSel.Spec

/-!
# Test selection: model

Models common::pass() and test() in libbuild2/test/common.cxx, which decide what is tested
according to the config.test value, and the traversals that consult them.

Simplifications. A path is the list of its components and path::sub(), which is in libbutl
and not part of the repository, is the prefix relation on them. The target's directory is
already relative to the root (`t.out_dir ().leaf (root_->out_path ())`). The
search_existing() function, which is called with the name and the root scope, is given
as a function from names to objects.
-/

namespace Verif.TestSel

variable {C : Type} [DecidableEq C]

/-- name.hxx: the parts of the name that are used. -/
structure Nm (C : Type) where
  qualified : Bool
  dir : Path C
  /-- Empty (none) if untyped. -/
  type : Option C
  /-- The value as a path, possibly empty. -/
  value : Path C
  pair : Bool
deriving DecidableEq

/-- name.hxx:88-92. -/
def Nm.typed (n : Nm C) : Bool := n.type.isSome

/-- name.hxx:75-86: unqualified, untyped and without a directory. -/
def Nm.simple (n : Nm C) : Bool := !n.qualified && !n.typed && n.dir.isEmpty

/-- name.hxx:68-71: no directory and no value. -/
def Nm.empty (n : Nm C) : Bool := n.dir.isEmpty && n.value.isEmpty

/-- A failed assertion or undefined behavior is `undef`. Used by `sense` (common.cxx:20-56). -/
inductive Res (α : Type)
  | ok (a : α)
  | fail
  | undef
deriving DecidableEq

/-- path::sub(): the first is the second or is inside. Used by `passBody` (common.cxx:80-95). -/
def sub (p q : Path C) : Bool := q.isPrefixOf p

/-- common.cxx:39-53: validate. -/
def validate (tn pn : Option (Nm C)) : Bool :=
  (match tn with | some n => !n.qualified | none => true) &&
  (match pn with | some n => !(!n.simple || n.empty) | none => true)

/-- common.cxx:20-56 sense(). The iterator is the list starting with the element; the
result includes what is left after the element or the pair. -/
def sense : List (Nm C) → Res (Option (Nm C) × Option (Nm C) × List (Nm C))
  | [] => .undef
  | n :: ns =>
    if n.pair then
      match ns with
      | [] => .undef
      | m :: ms => if validate (some n) (some m) then .ok (some n, some m, ms) else .fail
    else if n.typed || !n.dir.isEmpty then
      if validate (some n) none then .ok (some n, none, ns) else .fail
    else
      if validate none (some n) then .ok (none, some n, ns) else .fail

/-- The loops over the names: the body is given the target and the id path and returns the
new result and whether to break. The `k` is the number of names left at most.
Used by `pass` (common.cxx:60-99). -/
def loop (body : Option (Nm C) → Option (Nm C) → Bool → Bool × Bool) :
    Nat → List (Nm C) → Bool → Res Bool
  | 0, _, r => .ok r
  | _ + 1, [], r => .ok r
  | k + 1, n :: ns, r =>
    match sense (n :: ns) with
    | .undef => .undef
    | .fail => .fail
    | .ok (tn, pn, ms) =>
      match body tn pn r with
      | (r', true) => .ok r'
      | (r', false) => loop body k ms r'

/-- common.cxx:80-95. -/
def passBody (d : Path C) (tn _pn : Option (Nm C)) (r : Bool) : Bool × Bool :=
  match tn with
  | none => (r, false)
  | some n =>
    let r := sub n.dir d
    let r := if !r && !n.typed then sub d n.dir else r
    (r, r)

/-- common.cxx:60-99 pass(). -/
def pass (test : Option (List (Nm C))) (d : Path C) : Res Bool :=
  match test with
  | none => .ok true
  | some ns => loop (passBody d) ns.length ns true

/-- common.cxx:131-149, 188-196: the name matches the target. -/
def matchTarget (search : Nm C → Option Nat) (t : Target C) (n : Nm C) : Bool :=
  if !n.typed then sub t.dir n.dir
  else
    decide (t.name = n.value) && decide (some t.type = n.type) && decide (t.dir = n.dir) &&
    decide (search n = some t.obj)

/-- common.cxx:115-153. -/
def testBody (search : Nm C → Option Nat) (t : Target C) (tn _pn : Option (Nm C)) (r : Bool) :
    Bool × Bool :=
  match tn with
  | none => (r, false)
  | some n => (matchTarget search t n, matchTarget search t n)

/-- common.cxx:101-157 test(). -/
def test (search : Nm C → Option Nat) (cfg : Option (List (Nm C))) (t : Target C) : Res Bool :=
  match cfg with
  | none => .ok true
  | some ns => loop (testBody search t) ns.length ns true

/-- common.cxx:175-213. -/
def testIdBody (search : Nm C → Option Nat) (t : Target C) (id : Path C)
    (tn pn : Option (Nm C)) (r : Bool) : Bool × Bool :=
  match pn with
  | none => (r, false)
  | some n =>
    match tn with
    | some m =>
      if !matchTarget search t m then (r, false)
      else
        (sub n.value id || sub id n.value, sub n.value id || sub id n.value)
    | none =>
      (sub n.value id || sub id n.value, sub n.value id || sub id n.value)

/-- common.cxx:159-217 test(). -/
def testId (search : Nm C → Option Nat) (cfg : Option (List (Nm C))) (t : Target C)
    (id : Path C) : Res Bool :=
  match cfg with
  | none => .ok true
  | some ns => loop (testIdBody search t id) ns.length ns true

/-- A scope of a testscript: a test or a group. In an if-else chain all the scopes have
the same id (test/script/parser.cxx:1196-1203), so that the one chosen is what is in the tree. -/
inductive Script (C : Type)
  | test (id : C)
  | group (id : C) (scopes : List (Script C))

/-- test/script/parser.cxx:2743-2760: which tests of the inner scopes of the group with
this id path are executed. -/
def runScopes (sel : Path C → Bool) (p : Path C) : List (Script C) → List (Path C)
  | [] => []
  | .test i :: ss => (if sel (p ++ [i]) then [p ++ [i]] else []) ++ runScopes sel p ss
  | .group i ts :: ss =>
    (if sel (p ++ [i]) then runScopes sel (p ++ [i]) ts else []) ++ runScopes sel p ss

/-- test/rule.cxx:554-563, test/script/script.cxx:237-239: the testscript file. If it is
called `testscript`, then it is always executed and its id path is empty. -/
def runFile (sel : Path C → Bool) (name : Option C) (ss : List (Script C)) : List (Path C) :=
  match name with
  | none => runScopes sel [] ss
  | some n => if sel [n] then runScopes sel [n] ss else []

/-- A target as found by the test operation: an alias has prerequisites which are
considered if it passes. Used by `runTrees` (test/rule.cxx:97-124). -/
inductive Tree (C : Type)
  | target (t : Target C)
  | alias (t : Target C) (prereqs : List (Tree C))

/-- test/rule.cxx:97-124: which targets are to be tested. -/
def runTrees (pass : Path C → Bool) (test : Target C → Bool) : List (Tree C) → List (Target C)
  | [] => []
  | .target t :: ts => (if test t then [t] else []) ++ runTrees pass test ts
  | .alias t ps :: ts =>
    (if pass t.dir then runTrees pass test ps else []) ++ (if test t then [t] else []) ++
      runTrees pass test ts

end Verif.TestSel
