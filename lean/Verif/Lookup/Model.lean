import Verif.Lookup.Spec

/-!
# Variable lookup: model of the code

libbuild2/scope.cxx `scope::lookup_original`, libbuild2/target.cxx
`target::lookup_original` and `target::opstate::lookup_original`.

Simplifications, throughout:
* one variable and one target are fixed, so that a scope is described by the
  outcome of `target_vars.find()` for the target and group keys and by its plain
  value (`Scope` in Spec);
* values are untyped (a NULL or list of names), so that typification of the
  value does nothing and append/prepend is concatenation;
* the cache of combined values (`target_vars.cache`) is not modelled: the value
  is recomputed every time;
* a result carries the value, the place (which `variable_map` it came from) and
  the depth, but no pointers.
-/

namespace Verif.Lookup

variable {α : Type}

/-- libbuild2/variable.hxx:627 `enum class lookup_limit`. -/
inductive Limit | none | target | targetType
  deriving DecidableEq, Repr

/-- `size_t (~0)`: the depth of a failed lookup (scope.cxx:238). -/
inductive Depth | d (n : Nat) | max
  deriving DecidableEq, Repr

/-- A found value: `lookup` plus the place it came from (scope.cxx:46). -/
structure Res (α : Type) where
  val   : Val α
  place : Place
  deriving DecidableEq, Repr

/-- scope.cxx:113-125, the end of `pre_app`: copy the stem if it is defined (else
the value is NULL) and prepend (extra is 1) or append (extra is 2) the names
unless NULL. libbuild2/variable.cxx `value::append (names)` makes the value the
names if it is NULL. -/
def add (extra : Kind) (stem : Option (Val α)) (v : Val α) : Val α :=
  let cv : Val α := match stem with | some s => s | none => none
  match v with
  | none => cv
  | some ns =>
    match extra with
    | .prepend => some (match cv with | none => ns | some l => ns ++ l)
    | _        => some (match cv with | none => ns | some l => l ++ ns)

/-- scope.cxx:220-235: whether there is a next scope to try for this visibility. -/
def goesOn (v : Vis) (s : Scope α) : Bool :=
  match v with
  | .scope => false
  | .target | .project => !s.root
  | .global => true
  | .prereq => false

/-- scope.cxx:209-218: the plain value of the scope (without a limit). -/
def plainOf (v : Vis) (s : Scope α) : Option (Val α) :=
  if v != .target then s.plain else none

/-- The part of `scope::lookup_original (..., lookup_limit::none, start_d)` that
deals with one scope (scope.cxx:146-218). `cur` are the keys (`tk`, `g1k`, `g2k`)
and the last argument those of them that are still to be tried here: with
`start_d` 2 (scope.cxx:86) the first one is not. If it is found to be a
prepend/append then the lookup is repeated (`pre_app`) with this key being the
first (scope.cxx:162, 182, 193) and skipped in this scope. `out` continues the
loop with the outer scopes. Simplification: only the value is returned. -/
def stemIn (v : Vis) (s : Scope α) (out : List Who → Option (Val α)) (cur : List Who) :
    List Who → Option (Val α)
  | [] =>
    match plainOf v s with
    | some x => some x
    | none   => out cur
  | k :: ks =>
    match s.specific k with
    | some t =>
      if t.kind != .assign
      then some (add t.kind (stemIn v s out (k :: ks) ks) t.val)
      else some t.val
    | none => stemIn v s out cur ks

/-- The value of `scope::lookup_original (var, tk, g1k, g2k, lookup_limit::none)`
(scope.cxx:144-236): the loop over the scopes. -/
def value (v : Vis) : List (Scope α) → List Who → Option (Val α)
  | [],        _  => none
  | s :: rest, ks =>
    stemIn v s (fun cur => if goesOn v s then value v rest cur else none) ks ks

/-- scope.cxx:86-87: the stem for a prepend/append found in scope `s` for the key
`k`, `ks` being the group keys that follow it. -/
def stem (v : Vis) (s : Scope α) (rest : List (Scope α)) (k : Who) (ks : List Who) :
    Option (Val α) :=
  stemIn v s (fun cur => if goesOn v s then value v rest cur else none) (k :: ks) ks

/-- scope.cxx:150-203: try the target type/pattern-specific values of scope
number `i` for the keys. The depth is `d`, and then `d + 1` for the groups. -/
def specificIn (v : Vis) (i : Nat) (s : Scope α) (rest : List (Scope α)) (d : Nat) :
    List Who → Option (Res α × Depth)
  | [] => none
  | k :: ks =>
    match s.specific k with
    | some t =>
      some (⟨if t.kind != .assign then add t.kind (stem v s rest k ks) t.val else t.val,
             ⟨i, some k⟩⟩, .d d)
    | none =>
      match ks with
      | [] => none
      | g1 :: gs =>
        match s.specific g1 with
        | some t =>
          some (⟨if t.kind != .assign then add t.kind (stem v s rest g1 gs) t.val else t.val,
                 ⟨i, some g1⟩⟩, .d (d + 1))
        | none =>
          match gs with
          | [] => none
          | g2 :: _ =>
            match s.specific g2 with
            | some t =>
              some (⟨if t.kind != .assign then add t.kind (stem v s rest g2 []) t.val else t.val,
                     ⟨i, some g2⟩⟩, .d (d + 1))
            | none => none

/-- scope.cxx:144-238, the loop of `scope::lookup_original`; `i` is the number of
the scope and `d` the depth so far. -/
def loop (v : Vis) (limit : Limit) (ks : List Who) :
    Nat → Nat → List (Scope α) → Option (Res α) × Depth
  | _, _, []        => (none, .max)
  | i, d, s :: rest =>
    let d1 := if ks.isEmpty then d else d + 2
    match specificIn v i s rest (d + 1) ks with
    | some (r, dp) => (some r, dp)
    | none =>
      match (if limit != .targetType then plainOf v s else none) with
      | some x => (some ⟨x, ⟨i, none⟩⟩, .d (d1 + 1))
      | none   =>
        if goesOn v s then loop v limit ks (i + 1) (d1 + 1) rest else (none, .max)

/-- scope.cxx:46-239 `scope::lookup_original` with `start_d` 0 (the calls with 2
are modelled by `stem`). The list of scopes is this scope and its parents. -/
def lookupScope (v : Vis) (limit : Limit) (ks : List Who) (chain : List (Scope α)) :
    Option (Res α) × Depth :=
  if v == .prereq then (none, .d 0) else loop v limit ks 0 0 chain

/-- Where the value of a target lookup came from: rule-specific variables, the
target's own, its group's, or a scope (target.cxx:142-233, 272-295). -/
inductive TRes (α : Type) where
  | rule   (v : Val α)
  | target (v : Val α)
  | group  (v : Val α)
  | scope  (r : Res α)
  deriving DecidableEq, Repr

/-- The value that was found. (libbuild2/variable.hxx `lookup::value`.) -/
def TRes.val : TRes α → Val α
  | .rule v | .target v | .group v => v
  | .scope r => r.val

/-- libbuild2/variable.hxx `lookup::operator bool`: defined and not NULL. -/
def truthy (r : Option (Val α)) : Bool :=
  match r with
  | some (some _) => true
  | _ => false

/-- What a target contributes to the lookup: its own variables and, if it is a
member of a group, the variables of the group. In case the group is ad hoc, it is
the group of the group that is used (target.cxx:190-195); `group` is this resolved
group. (The two-group code is disabled, target.cxx:170-185.) -/
structure Tgt (α : Type) where
  own   : Option (Val α)
  group : Option (Option (Val α))

/-- target.cxx:209-222: the keys passed to the scope. -/
def Tgt.keys (t : Tgt α) : List Who :=
  match t.group with
  | none   => [.target]
  | some _ => [.target, .group]

/-- target.cxx:224-225: the depth, given the one in the target and in the scope.
Note that it is not offset if the value is NULL. -/
def offset (n : Nat) (r : Option (Val α)) (d : Depth) : Depth :=
  match r, d with
  | some (some _), .d m => .d (n + m)
  | _, d => d

/-- target.cxx:205-229: delegate to the scope. -/
def delegate (v : Vis) (limit : Limit) (t : Tgt α) (chain : List (Scope α)) :
    Option (TRes α) × Depth :=
  if limit != .target
  then
    let p := lookupScope v limit t.keys chain
    (p.1.map .scope, offset 2 (p.1.map (·.val)) p.2)
  else
    -- r.first is left as is (it is either undefined or NULL).
    match t.group with
    | some (some x) => (some (.group x), .max)
    | _ => (t.own.map .target, .max)

/-- target.cxx:142-233 `target::lookup_original`. -/
def lookupTarget (v : Vis) (limit : Limit) (t : Tgt α) (chain : List (Scope α)) :
    Option (TRes α) × Depth :=
  match t.own with
  | some (some x) => (some (.target (some x)), .d 1)
  | _ =>
    match t.group with
    | some (some (some x)) => (some (.group (some x)), .d 2)
    | _ => delegate v limit t chain

/-- target.cxx:271-295 `target::opstate::lookup_original`: rule-specific
variables `own`. -/
def lookupRule (v : Vis) (limit : Limit) (own : Option (Val α)) (t : Tgt α)
    (chain : List (Scope α)) : Option (TRes α) × Depth :=
  match own with
  | some (some x) => (some (.rule (some x)), .d 1)
  | _ =>
    let p := lookupTarget v limit t chain
    (p.1, offset 1 (p.1.map (·.val)) p.2)

end Verif.Lookup
