import Verif.VarPool.Spec

/-!
# Variable patterns: model

`variable_pool` and `variable_patterns` of `libbuild2/variable.{hxx,cxx}` for the public pool.
Left out: aliases, pools of projects, phases.
-/

namespace Verif.VarPool

/-- How an operation can go wrong: a failed assertion or a diagnosed error,
`libbuild2/variable.cxx` 2687-2688 and `libbuild2/parser.cxx` 7055-7076. -/
inductive Err
  | assertion
  | overridden
  | changed
  deriving DecidableEq, Repr

/-- The position of the first `*`, `libbuild2/variable.cxx` 2977-2978, as what is before and
after it. -/
def findStar : Name → Option (Name × Name)
  | [] => none
  | c :: cs =>
    if c = '*' then some ([], cs)
    else match findStar cs with
      | none => none
      | some (a, b) => some (c :: a, b)

/-- The prefix, the suffix and whether it is `**`, `libbuild2/variable.cxx` 2974-3000 (`none`
stands for the failed assertions). -/
def parse (s : Name) : Option (Name × Name × Bool) :=
  match findStar s with
  | none => none
  | some (pfx, r) =>
    let multi := r.head? == some '*'
    let sfx := if multi then r.drop 1 else r
    if pfx ≠ [] ∧ (pfx.getLast? ≠ some '.' ∨ pfx.length = 1) then none
    else if sfx ≠ [] ∧ (sfx.head? ≠ some '.' ∨ sfx.length = 1) then none
    else some (pfx, sfx, multi)

/-- `match_pattern`, `libbuild2/variable.cxx` 2740-2765. -/
def matchPattern (p : Pat) (n : Name) : Bool :=
  if n.length < p.pfx.length + p.sfx.length + 1 then false
  else if p.pfx.length ≠ 0 && n.take p.pfx.length != p.pfx then false
  else if p.sfx.length ≠ 0 && n.drop (n.length - p.sfx.length) != p.sfx then false
  else p.multi ||
    !((n.drop p.pfx.length).take (n.length - p.pfx.length - p.sfx.length)).contains '.'

/-- `operator<` of patterns, `libbuild2/variable.hxx` 1783-1794. -/
def lt (x y : Pat) : Bool :=
  if x.pfx.length + x.sfx.length < y.pfx.length + y.sfx.length then true
  else if x.pfx = y.pfx ∧ x.sfx = y.sfx then x.multi && !y.multi
  else false

/-- `multiset<pattern>`, `libbuild2/variable.hxx` 1802, as a binary tree. -/
inductive Tree
  | nil
  | node (l : Tree) (x : Pat) (r : Tree)

/-- The order of iteration, `libbuild2/variable.cxx` 2880 (in reverse). -/
def Tree.list : Tree → List Pat
  | .nil => []
  | .node l x r => l.list ++ x :: r.list

/-- Insertion into the multiset, `libbuild2/variable.cxx` 3001-3003: the descent to where the
key is inserted (after equivalent ones); what is before and what is after it. -/
def Tree.split (k : Pat) : Tree → List Pat × List Pat
  | .nil => ([], [])
  | .node l x r =>
    if lt k x then
      ((l.split k).1, (l.split k).2 ++ x :: r.list)
    else
      (l.list ++ x :: (r.split k).1, (r.split k).2)

/-- `variable_pool::update`, `libbuild2/variable.cxx` 2670-2738; `ov` is whether there are
overrides. -/
def update (ov : Bool) (var : Var) (t : Option Ty) (v : Option Nat) (o : Option Bool) :
    Except Err Var :=
  if o = some false ∧ ov then .error .overridden
  else if t ≠ none ∧ var.type ≠ t ∧ var.type ≠ none then .error .assertion
  else if v ≠ none ∧ v ≠ some var.vis ∧ v.getD 0 ≤ var.vis then .error .assertion
  else .ok ⟨if t ≠ none then t else var.type, v.getD var.vis⟩

/-- The type in `merge_pattern`, `libbuild2/variable.cxx` 2773-2779. -/
def mergeType (p : Pat) (t : Option Ty) : Except Err (Option Ty) :=
  match p.type with
  | none => .ok t
  | some u =>
    match t with
    | none => .ok u
    | some t => if p.strict then if some t = u then .ok (some t) else .error .assertion
                else .ok (some t)

/-- The visibility in `merge_pattern`, `libbuild2/variable.cxx` 2781-2794. -/
def mergeVis (p : Pat) (v : Option Nat) : Except Err (Option Nat) :=
  match p.vis with
  | none => .ok v
  | some u =>
    match v with
    | none => .ok (some u)
    | some v =>
      if p.strict then
        if v < u then .ok (some u) else if v = u then .ok (some v) else .error .assertion
      else .ok (some v)

/-- The overridability in `merge_pattern`, `libbuild2/variable.cxx` 2796-2809. -/
def mergeOvr (p : Pat) (o : Option Bool) : Except Err (Option Bool) :=
  match p.ovr with
  | none => .ok o
  | some u =>
    match o with
    | none => .ok (some u)
    | some o =>
      if p.strict then
        if o then .ok (some u) else if o = u then .ok (some o) else .error .assertion
      else .ok (some o)

/-- What is specified for a variable: the arguments of `insert`, `libbuild2/variable.cxx`
2813-2817. -/
structure Attrs where
  type : Option Ty
  vis : Option Nat
  ovr : Option Bool
  deriving DecidableEq, Repr

/-- `merge_pattern`, `libbuild2/variable.cxx` 2767-2810. -/
def merge (p : Pat) (x : Attrs) : Except Err Attrs := do
  let t ← mergeType p x.type
  let v ← mergeVis p x.vis
  let o ← mergeOvr p x.ovr
  .ok ⟨t, v, o⟩

/-- The search for the pattern, `libbuild2/variable.cxx` 2872-2890. -/
def select (ps : List Pat) (n : Name) : Option Pat :=
  if n.contains '.' then ps.reverse.find? (fun p => matchPattern p n) else none

/-- The map of the pool: by name, in any order; `libbuild2/variable.hxx` 1679. -/
abbrev Pool := List (Name × Var)

/-- `find`, `libbuild2/variable.hxx`, `variable_pool::find`. -/
def lookup (m : Pool) (n : Name) : Option Var :=
  (m.find? (fun e => e.1 == n)).map (·.2)

/-- A variable is changed in place, `libbuild2/variable.cxx` 2927. -/
def assign (m : Pool) (n : Name) (x : Var) : Pool :=
  m.map (fun e => if e.1 == n then (e.1, x) else e)

/-- What to update an existing variable with, `libbuild2/variable.cxx` 2909-2927. -/
def remerge (pa : Option Pat) (var : Var) (x merged : Attrs) : Except Err Attrs :=
  match pa with
  | none => .ok merged
  | some p =>
    if p.strict then .ok merged
    else merge p ⟨if x.type ≠ none then x.type else var.type, some (x.vis.getD var.vis),
      some (x.ovr.getD true)⟩

/-- The first merging, `libbuild2/variable.cxx` 2871-2890. -/
def premerge (pa : Option Pat) (x : Attrs) : Except Err Attrs :=
  match pa with
  | none => .ok x
  | some p => merge p x

/-- `variable_pool::insert` of the public pool, `libbuild2/variable.cxx` 2812-2931. -/
def insert (ov : Name → Bool) (ps : List Pat) (m : Pool) (n : Name) (x : Attrs) :
    Except Err Pool := do
  let pa := select ps n
  let y ← premerge pa x
  match lookup m n with
  | none => .ok (m ++ [(n, ⟨y.type, y.vis.getD 1⟩)])
  | some var =>
    let z ← remerge pa var x y
    let var' ← update (ov n) var z.type z.vis (some (z.ovr.getD false))
    .ok (assign m n var')

/-- `apply_variable_attributes`, `libbuild2/parser.cxx` 7054-7098, for a variable that is in
the pool. -/
def attrs (ov : Name → Bool) (m : Pool) (n : Name) (x : Attrs) : Except Err Pool :=
  match lookup m n with
  | none => .error .assertion
  | some var =>
    if x.type ≠ none ∧ var.type ≠ none ∧ var.type ≠ x.type then .error .changed
    else if x.vis ≠ none ∧ x.vis.getD 0 < var.vis then .error .changed
    else do
      let var' ← update (ov n) var (if var.type = x.type then none else x.type)
        (if x.vis = some var.vis then none else x.vis) x.ovr
      .ok (assign m n var')

/-- Whether a new pattern is to be applied to an existing variable: it matches and none of
those after it does, `libbuild2/variable.cxx` 3013-3024. -/
def applies (p : Pat) (after : List Pat) (n : Name) : Bool :=
  matchPattern p n && !after.any (fun q => matchPattern q n)

/-- Application of a new pattern to an existing variable, `libbuild2/variable.cxx`
3013-3029. -/
def retroVar (ov : Name → Bool) (p : Pat) (after : List Pat) (n : Name) (var : Var) :
    Except Err Var :=
  if applies p after n then update (ov n) var (p.type.getD none) p.vis p.ovr else .ok var

/-- Application of a new pattern to the existing variables, `libbuild2/variable.cxx`
3005-3032. -/
def retro (ov : Name → Bool) (p : Pat) (after : List Pat) : Pool → Except Err Pool
  | [] => .ok []
  | (n, var) :: m => do
    let var' ← retroVar ov p after n var
    let m' ← retro ov p after m
    .ok ((n, var') :: m')

/-- The patterns in the order of the multiset, and the variables; `libbuild2/variable.hxx`
1679 and 1802. -/
structure St where
  pats : List Pat
  pool : Pool
  deriving DecidableEq, Repr

/-- Operations that succeed.  The tree is any one with these patterns: how it is balanced is
up to the implementation of the multiset.
Puts together `St` (libbuild2/variable.hxx) and what goes with it; no function of its own in the code. -/
inductive Step (ov : Name → Bool) : St → Op → St → Prop
  | insert {s n t v o m} (h : insert ov s.pats s.pool n ⟨t, v, o⟩ = .ok m) :
      Step ov s (.insert n t v o) ⟨s.pats, m⟩
  | attrs {s n t v o m} (h : attrs ov s.pool n ⟨t, v, o⟩ = .ok m) :
      Step ov s (.attrs n t v o) ⟨s.pats, m⟩
  | pattern {s p r m} (tr : Tree) (ht : tr.list = s.pats)
      (h : (if r then retro ov p (tr.split p).2 s.pool else .ok s.pool) = .ok m) :
      Step ov s (.pattern p r) ⟨(tr.split p).1 ++ p :: (tr.split p).2, m⟩

/-- Histories of operations that succeed, from the empty pool.
Puts together `St` (libbuild2/variable.hxx) and what goes with it; no function of its own in the code. -/
inductive Hist (ov : Name → Bool) : List Op → St → Prop
  | nil : Hist ov [] ⟨[], []⟩
  | step {os s op s'} (h : Hist ov os s) (t : Step ov s op s') : Hist ov (os ++ [op]) s'

end Verif.VarPool
