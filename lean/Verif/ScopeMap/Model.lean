/-! Model of the scope map, libbuild2/scope.cxx:1100-1235 and libbuild2/scope.hxx:859-970.

The map is represented by its keys, in the order of the container, and a function from keys to
entries. Directories are lists of components and components are numbers: the container
(`dir_path_map` of libbutl, not part of this repository) orders directories lexicographically by
components, so that the subdirectories of a directory follow it. Scopes are never deleted and are
identified by their out directories, pointers to scopes are these directories. Only the parent and the
root of a scope are modelled. -/

namespace Verif.ScopeMap

/-- Used by `Scope` (libbuild2/scope.hxx:730). -/
abbrev Key := List Nat

/-- `scope` (libbuild2/scope.hxx:730): `parent_` and `root_`. -/
structure Scope where
  parent : Option Key := none
  root : Option Key := none
  deriving DecidableEq, Repr

/-- `scopes` (libbuild2/scope.hxx:867): the first element, and the rest. -/
structure Entry where
  out : Option Scope := none
  srcs : List Key := []
  deriving DecidableEq, Repr

/-- Used by `Map.emplace` (libbuild2/scope.cxx:1106-1109). -/
structure Map where
  keys : List Key
  ent : Key → Entry

/-- Failures: the assertions that an enclosing scope exists, that the range found is not empty, and a
null pointer dereference. Used by `Map.findOut` (libbuild2/scope.cxx:1198-1213). -/
inductive Bad where
  | assertFailed | nullDeref
  deriving DecidableEq, Repr

def Map.empty : Map := ⟨[], fun _ => {}⟩

/-- The order of keys. Used by `Map.emplace` (libbuild2/scope.cxx:1106-1109). -/
def before : Key → Key → Bool
  | [], _ :: _ => true
  | _, [] => false
  | a :: k, b :: l => a < b || (a == b && before k l)

/-- Insert into the sorted keys (`emplace`, nothing if already there).
Used by `Map.emplace` (libbuild2/scope.cxx:1106-1109). -/
def insertKey (k : Key) : List Key → List Key
  | [] => [k]
  | a :: l => if k = a then a :: l else if before k a then k :: a :: l else a :: insertKey k l

/-- Used by `adopt` (libbuild2/scope.cxx:1134-1150). -/
def Map.set (m : Map) (k : Key) (e : Entry) : Map :=
  ⟨m.keys, fun x => if x = k then e else m.ent x⟩

/-- `emplace` with an empty vector followed by `push_back (nullptr)` (libbuild2/scope.cxx:1106-1109). -/
def Map.emplace (m : Map) (k : Key) : Map :=
  if k ∈ m.keys then m else ⟨insertKey k m.keys, fun x => if x = k then {} else m.ent x⟩

/-- `find_sub`: the entries for the directory and its subdirectories.
Used by `Map.findParent` (libbuild2/scope.cxx:1129-1156). -/
def Map.sub (m : Map) (k : Key) : List Key := m.keys.filter (k.isPrefixOf ·)

/-- `find_sup_if`: try the directory, then its parent, and so on.
Used by `Map.findOut` (libbuild2/scope.cxx:1198-1213). -/
def Map.supIf (m : Map) (q : Key → Bool) (k : Key) : Nat → Option Key
  | 0 => if [] ∈ m.keys ∧ q [] then some [] else none
  | i + 1 => if k.take (i + 1) ∈ m.keys ∧ q (k.take (i + 1)) then some (k.take (i + 1)) else m.supIf q k i

/-- `find_out` (libbuild2/scope.cxx:1198-1213). -/
def Map.findOut (m : Map) (k : Key) : Except Bad Key :=
  match m.supIf (fun x => (m.ent x).out.isSome) k k.length with
  | some a => .ok a
  | none => .error .assertFailed

/-- `root_` of the scope. Used by `adopt` (libbuild2/scope.cxx:1134-1150). -/
def Map.rootOf (m : Map) (k : Key) : Option Key := (m.ent k).out.bind (·.root)

/-- An iteration of the loop that updates the scopes of which the scope `k` is a new parent or root
(libbuild2/scope.cxx:1134-1150). -/
def adopt (k : Key) (root : Bool) (pm : Option Key × Map) (x : Key) : Except Bad (Option Key × Map) :=
  match (pm.2.ent x).out with
  | none => .ok pm
  | some c =>
    let p := if pm.1 = none then c.parent else pm.1
    if root ∧ p = none then .error .nullDeref
    else
      let c1 : Scope := if root ∧ c.root = p.bind pm.2.rootOf then { c with root := some k } else c
      let c2 : Scope := if p = c.parent then { c1 with parent := some k } else c1
      .ok (p, pm.2.set x { pm.2.ent x with out := some c2 })

/-- The loop. Used by `Map.findParent` (libbuild2/scope.cxx:1129-1156). -/
def adoptAll (k : Key) (root : Bool) : Option Key × Map → List Key → Except Bad (Option Key × Map)
  | pm, [] => .ok pm
  | pm, x :: l =>
    match adopt k root pm x with
    | .error b => .error b
    | .ok pm => adoptAll k root pm l

/-- Update the scopes inside and find the parent (libbuild2/scope.cxx:1129-1156). -/
def Map.findParent (m : Map) (k : Key) (root : Bool) : Except Bad (Option Key × Map) :=
  match adoptAll k root (none, m) (m.sub k).tail with
  | .error b => .error b
  | .ok (some p, m) => .ok (some p, m)
  | .ok (none, m) =>
    match m.findOut k.dropLast with
    | .error b => .error b
    | .ok p => .ok (some p, m)

/-- An iteration of the loop that upgrades the scope `k` to root (libbuild2/scope.cxx:1167-1173). -/
def upgrade (k : Key) (old : Option Key) (m : Map) (x : Key) : Map :=
  match (m.ent x).out with
  | none => m
  | some c => if c.root = old then m.set x { m.ent x with out := some { c with root := some k } } else m

/-- `insert_out` (libbuild2/scope.cxx:1103-1180). -/
def Map.insertOut (m0 : Map) (k : Key) (root : Bool) : Except Bad Map :=
  let m := m0.emplace k
  match (m.ent k).out with
  | none =>
    let m := m.set k { m.ent k with out := some {} }
    match (if m.keys.length > 1 then m.findParent k root else .ok (none, m)) with
    | .error b => .error b
    | .ok (p, m) =>
      .ok (m.set k { m.ent k with out := some ⟨p, if root then some k else p.bind m.rootOf⟩ })
  | some s =>
    if root ∧ s.root ≠ some k then
      let m := (m.sub k).tail.foldl (upgrade k s.root) m
      .ok (m.set k { m.ent k with out := some { s with root := some k } })
    else .ok m

/-- `insert_src` (libbuild2/scope.cxx:1182-1196). -/
def Map.insertSrc (m0 : Map) (s k : Key) : Map :=
  let m := m0.emplace k
  m.set k { m.ent k with srcs := (m.ent k).srcs ++ [s] }

/-- `find` (libbuild2/scope.cxx:1215-1234): null or the scopes. -/
def Map.find (m : Map) (k : Key) (sno : Bool) : Except Bad (List (Option Key)) :=
  match m.supIf (fun _ => true) k k.length with
  | none => .error .assertFailed
  | some a =>
    let e := m.ent a
    let l := (if e.out.isSome then some a else none) :: e.srcs.map some
    let l := if sno ∧ l.head? = some none then l.tail else l
    if l = [] then .error .assertFailed else .ok l

end Verif.ScopeMap
