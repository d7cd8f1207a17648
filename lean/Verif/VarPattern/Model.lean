import Verif.VarPattern.Spec

/-!
# Variable patterns: model of the code

libbuild2/variable.cxx `match_pattern`, `merge_pattern`, `variable_pool::insert`,
`variable_pool::update` and `variable_patterns::insert`, for the public pool (the
one that has patterns).

Simplifications:
* variables do not have aliases;
* the load phase assertions are not modelled;
* `std::multiset` is a binary search tree where insertion descends to the left if
  the new element is less than the node's and to the right otherwise, then
  rearranges the tree in any way that keeps the order of the elements (in
  practice, the rotations of a red-black tree).
-/

namespace Verif.VarPattern

/-- libbuild2/variable.hxx:1783-1794 `operator< (pattern, pattern)`. -/
def lt (x y : Pattern) : Bool :=
  if x.pre.length + x.suf.length < y.pre.length + y.suf.length then true
  else if x.pre == y.pre && x.suf == y.suf then x.multi && !y.multi
  else false

/-- libbuild2/variable.cxx:2741-2766 `match_pattern`. -/
def matchPattern (n p s : List Char) (multi : Bool) : Bool :=
  let nn := n.length
  let pn := p.length
  let sn := s.length
  if nn < pn + sn + 1 then false
  else if pn != 0 && n.take pn != p then false
  else if sn != 0 && n.drop (nn - sn) != s then false
  else multi || !((n.drop pn).take (nn - pn - sn)).contains '.'

/-- `match_pattern` with the members of a pattern, as it is always called
(variable.cxx:2882, 3012, 3021). -/
def Pattern.matches (p : Pattern) (n : List Char) : Bool :=
  matchPattern n p.pre p.suf p.multi

/-- The tree of a `multiset<pattern>` (variable.hxx:1802). -/
inductive Tree
  | leaf
  | node (l : Tree) (p : Pattern) (r : Tree)

/-- Elements in the order of iteration. Used by `Tree.insertAt` (variable.cxx:2999). -/
def Tree.toList : Tree → List Pattern
  | .leaf => []
  | .node l p r => l.toList ++ p :: r.toList

/-- `multiset::insert`, before rebalancing (variable.cxx:2999). The result is the
elements before the new one, and the elements after it. -/
def Tree.insertAt (x : Pattern) : Tree → List Pattern × List Pattern
  | .leaf => ([], [])
  | .node l p r =>
    if lt x p then
      let (a, b) := l.insertAt x
      (a, b ++ p :: r.toList)
    else
      let (a, b) := r.insertAt x
      (l.toList ++ p :: a, b)

/-- An outcome that is not normal: a failed assertion or a diagnosed error.
Used by `update` (variable.cxx:2671-2738). -/
inductive Err | assert | notOverridable
  deriving DecidableEq, Repr

/-- The part of `variable` of interest (variable.hxx:196): its name, type,
visibility and whether it has overrides. -/
structure Var where
  name : List Char
  type : Option Nat
  vis  : Vis
  overridden : Bool
  deriving DecidableEq, Repr

/-- variable.cxx:2671-2738 `variable_pool::update`. -/
def update (var : Var) (t : Option Nat) (v : Option Vis) (o : Option Bool) :
    Except Err Var :=
  if o == some false && var.overridden then .error .notOverridable
  else
    let ut := t.isSome && var.type != t
    if ut && var.type.isSome then .error .assert
    else
      let var := if ut then {var with type := t} else var
      match v with
      | none => .ok var
      | some x =>
        if var.vis != x then
          if x.rank > var.vis.rank then .ok {var with vis := x} else .error .assert
        else .ok var

/-- The part of `merge_pattern` about types (variable.cxx:2774-2780). -/
def mergeType (p : Pattern) (t : Option Nat) : Except Err (Option Nat) :=
  match p.type with
  | none => .ok t
  | some pt =>
    if t == none then .ok pt
    else if p.must then (if t == pt then .ok t else .error .assert)
    else .ok t

/-- The part of `merge_pattern` about visibility (variable.cxx:2782-2796). -/
def mergeVis (p : Pattern) (v : Option Vis) : Except Err (Option Vis) :=
  match p.vis, v with
  | none, v => .ok v
  | some pv, none => .ok (some pv)
  | some pv, some v =>
    if p.must then
      if pv.rank > v.rank then .ok (some pv)
      else if v == pv then .ok (some v) else .error .assert
    else .ok (some v)

/-- The part of `merge_pattern` about overridability (variable.cxx:2798-2812). -/
def mergeOvr (p : Pattern) (o : Option Bool) : Except Err (Option Bool) :=
  match p.ovr, o with
  | none, o => .ok o
  | some po, none => .ok (some po)
  | some po, some o =>
    if p.must then
      if o then .ok (some po)
      else if o == po then .ok (some o) else .error .assert
    else .ok (some o)

/-- variable.cxx:2768-2813 `merge_pattern`. -/
def merge (p : Pattern) (t : Option Nat) (v : Option Vis) (o : Option Bool) :
    Except Err (Option Nat × Option Vis × Option Bool) :=
  match mergeType p t, mergeVis p v, mergeOvr p o with
  | .ok t, .ok v, .ok o => .ok (t, v, o)
  | _, _, _ => .error .assert

/-- variable.cxx:2874-2892: the pattern applied to a variable being inserted. -/
def find (ps : List Pattern) (n : List Char) : Option Pattern :=
  if n.contains '.' then ps.reverse.find? (·.matches n) else none

/-- `merge_pattern` if there is a pattern (variable.cxx:2870-2887). -/
def mergeOpt (pa : Option Pattern) (t : Option Nat) (v : Option Vis)
    (o : Option Bool) : Except Err (Option Nat × Option Vis × Option Bool) :=
  match pa with
  | none => .ok (t, v, o)
  | some p => merge p t v o

/-- The attributes with which an existing variable is updated
(variable.cxx:2911-2922): re-merged with the variable's own ones if the pattern
does not require a match. -/
def remerge (pa : Option Pattern) (var : Var) (t : Option Nat) (v : Option Vis)
    (o : Option Bool) (m : Option Nat × Option Vis × Option Bool) :
    Except Err (Option Nat × Option Vis × Option Bool) :=
  match pa with
  | none => .ok m
  | some p =>
    if p.must then .ok m
    else merge p (t.or var.type) (some (v.getD var.vis)) (some (o.getD true))

/-- Replace the variable with this name. Used by `insertVar` (variable.cxx:2815-2935). -/
def replace (vs : List Var) (x : Var) : List Var :=
  vs.map fun y => if y.name == x.name then x else y

/-- variable.cxx:2815-2935 `variable_pool::insert`: the variables after. `pat` is
whether to apply patterns. -/
def insertVar (ps : List Pattern) (vs : List Var) (n : List Char)
    (t : Option Nat) (v : Option Vis) (o : Option Bool) (pat : Bool) :
    Except Err (List Var) :=
  let pa := if pat then find ps n else none
  match mergeOpt pa t v o with
  | .error e => .error e
  | .ok m =>
    match vs.find? (·.name == n) with
    | none => .ok (vs ++ [⟨n, m.1, m.2.1.getD .project, false⟩])
    | some var =>
      match remerge pa var t v o m with
      | .error e => .error e
      | .ok m =>
        match update var m.1 m.2.1 (some (m.2.2.getD false)) with
        | .error e => .error e
        | .ok var => .ok (replace vs var)

/-- The retrospective application of the pattern `p` to one variable, where
`after` are the elements following it (variable.cxx:3009-3032). -/
def retroOne (p : Pattern) (after : List Pattern) (var : Var) : Except Err Var :=
  if p.matches var.name then
    if after.any (·.matches var.name) then .ok var
    else update var p.type.join p.vis p.ovr
  else .ok var

/-- The loop over all the variables (variable.cxx:3007). -/
def retroAll (p : Pattern) (after : List Pattern) : List Var → Except Err (List Var)
  | [] => .ok []
  | v :: vs =>
    match retroOne p after v, retroAll p after vs with
    | .ok v, .ok vs => .ok (v :: vs)
    | .error e, _ => .error e
    | _, .error e => .error e

/-- variable.cxx:2991: the number of stars. -/
def stars (multi : Bool) : Nat := if multi then 2 else 1

/-- variable.cxx:2970-2997: the pattern with this text. -/
def parse (s : List Char) (t : Option (Option Nat)) (o : Option Bool)
    (v : Option Vis) (must : Bool) : Except Err Pattern :=
  let w := s.findIdx (· == '*')
  if w == s.length then .error .assert
  else
    let multi := s[w + 1]? == some '*'
    let pfx := s.take w
    let sfx := s.drop (w + stars multi)
    if w != 0 && !(s[w - 1]? == some '.' && w != 1) then .error .assert
    else if sfx.length != 0 && !(sfx.head? == some '.' && sfx.length != 1) then
      .error .assert
    else .ok ⟨pfx, sfx, multi, must, t, v, o⟩

/-- One call to the pool or to the patterns. Used by `Step` (variable.cxx:2815, 2962). -/
inductive Op
  | var (n : List Char) (t : Option Nat) (v : Option Vis) (o : Option Bool) (pat : Bool)
  | pattern (p : Pattern) (retro : Bool)
  | override (n : List Char)

/-- The state: the patterns inserted so far in the order of insertion, their
tree and the variables. Used by `Step` (variable.cxx:2815, 2962). -/
structure State where
  hist : List Pattern
  tree : Tree
  vars : List Var

/-- One call (variable.cxx:2815, 2962). The tree after the insertion of a pattern
can have any shape. The last one is a command line override being entered for a
variable (context.cxx:255-280). -/
inductive Step : State → Op → State → Prop
  | var {s vs n t v o pat} :
      insertVar s.tree.toList s.vars n t v o pat = .ok vs →
      Step s (.var n t v o pat) {s with vars := vs}
  | pattern {s p retro tree vs} :
      tree.toList = (s.tree.insertAt p).1 ++ p :: (s.tree.insertAt p).2 →
      (if retro then retroAll p (s.tree.insertAt p).2 s.vars else .ok s.vars) = .ok vs →
      Step s (.pattern p retro) ⟨s.hist ++ [p], tree, vs⟩
  | override {s n} :
      Step s (.override n)
        {s with vars := s.vars.map fun v =>
                  if v.name == n then {v with overridden := true} else v}

/-- A sequence of calls that did not fail.
Puts together `Step` (variable.cxx:2815, 2962) and what goes with it; no function of its own in the code. -/
inductive Run : State → List Op → State → Prop
  | nil {s} : Run s [] s
  | snoc {s t u ops op} : Run s ops t → Step t op u → Run s (ops ++ [op]) u

/-- The initial state. -/
def init : State := ⟨[], .leaf, []⟩

end Verif.VarPattern
