/-!
# Variable lookup: specification

What a user is told about variable lookup (the visibility comments in
libbuild2/variable.hxx:139-156 and the manual): a variable may be given a value
in a number of *places*.  Every scope offers, in this order, its target
type/pattern-specific values for the target, then those for its group(s), and
then its plain value.  The scopes are tried from the innermost outwards, as far
as the variable is visible.  The first place that has a value wins.  If that
value is to be prepended/appended, the value it is added to is what would be
found after this place, except that once a group's value has been used, the
target's own values no longer participate.

Nothing here mentions how the search is organised.
-/

namespace Verif.Lookup

/-- The value of an (untyped) variable: NULL or a list of names. -/
abbrev Val (α : Type) := Option (List α)

/-- What a target type/pattern-specific value does
(libbuild2/variable.hxx `value::extra`: 0, 1 and 2). -/
inductive Kind | assign | prepend | append
  deriving DecidableEq, Repr

/-- A target type/pattern-specific value. -/
structure Specific (α : Type) where
  kind : Kind
  val  : Val α
  deriving DecidableEq, Repr

/-- On whose behalf target type/pattern-specific values are looked up. -/
inductive Who | target | group | group2
  deriving DecidableEq, Repr

/-- The order in which they are considered. -/
def Who.rank : Who → Nat
  | .target => 0
  | .group  => 1
  | .group2 => 2

/-- A scope, as far as one variable and one target is concerned: which values
the target type/pattern-specific variables have for the target and its groups,
the plain value, and whether this is the root scope of a project. -/
structure Scope (α : Type) where
  specific : Who → Option (Specific α)
  plain    : Option (Val α)
  root     : Bool

/-- Variable visibility (libbuild2/variable.hxx:142-156). -/
inductive Vis | global | project | scope | target | prereq
  deriving DecidableEq, Repr

/-- The scopes in which a variable of this visibility can be found; the list is
ordered from the innermost scope outwards. -/
def visible {α : Type} : Vis → List (Scope α) → List (Scope α)
  | .prereq, _       => []
  | _,       []      => []
  | .scope,  s :: _  => [s]
  | .global, l       => l
  | v,       s :: l  => if s.root then [s] else s :: visible v l

/-- A place: the number of the scope (counting outwards) and either on whose
behalf a type/pattern-specific value is used, or `none` for the plain value. -/
structure Place where
  scope : Nat
  who   : Option Who
  deriving DecidableEq, Repr

/-- The places offered by scope number `i`. -/
def placesIn (plain : Bool) (ks : List Who) (i : Nat) : List Place :=
  ks.map (fun k => ⟨i, some k⟩) ++ (if plain then [⟨i, none⟩] else [])

/-- The places offered by `n` scopes starting with number `i`. -/
def placesFrom (plain : Bool) (ks : List Who) : Nat → Nat → List Place
  | _, 0     => []
  | i, n + 1 => placesIn plain ks i ++ placesFrom plain ks (i + 1) n

/-- All the places where a variable of visibility `v` may be found, best first.
Plain values are not used for variables of target visibility. -/
def places {α : Type} (v : Vis) (ks : List Who) (chain : List (Scope α)) : List Place :=
  placesFrom (v != .target) ks 0 (visible v chain).length

/-- What has been set in a place. -/
def setAt {α : Type} (chain : List (Scope α)) (p : Place) : Option (Specific α) :=
  match chain[p.scope]? with
  | none   => none
  | some s =>
    match p.who with
    | none   => s.plain.map (⟨.assign, ·⟩)
    | some w => s.specific w

/-- Having used `p`, may `q` still participate?  Plain values always may; a
target's values may not once a group's value has been used. -/
def mayFollow (p q : Place) : Bool :=
  match p.who, q.who with
  | some w, some w' => w.rank ≤ w'.rank
  | _,      _       => true

/-- Combine a prepended/appended value with what it is added to.  NULL adds
nothing; adding to NULL gives just what is added. -/
def combine {α : Type} (k : Kind) (stem : Option (Val α)) (v : Val α) : Val α :=
  match k with
  | .assign  => v
  | .prepend =>
    match v with
    | none   => stem.join
    | some l => some (l ++ stem.join.getD [])
  | .append  =>
    match v with
    | none   => stem.join
    | some l => some (stem.join.getD [] ++ l)

set_option wf.preprocess false in
/-- The value that a list of places (best first) yields. -/
def denote {α : Type} (chain : List (Scope α)) (ps : List Place) : Option (Val α) :=
  match ps with
  | []      => none
  | p :: ps =>
    match setAt chain p with
    | none   => denote chain ps
    | some t => some (combine t.kind (denote chain (ps.filter (mayFollow p))) t.val)
termination_by ps.length
decreasing_by
  · simp
  · simp only [List.length_cons]; exact Nat.lt_succ_of_le (List.length_filter_le _ _)

end Verif.Lookup
