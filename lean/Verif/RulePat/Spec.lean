/-!
# Ad hoc pattern rules: specification

A pattern rule such as `exe{~'/(.*)/'}: cxx{~'/\1/'}` is for the dependency declarations
that it looks like. Every regular expression in it is for one name, and what has been
captured in one can be used in those after it: groups are numbered through.

First, what it means for a regular expression to match a string, with what has been
captured before and after. There are no anchors and no assertions.
-/

namespace Verif.RulePat

/-- A string, as a list of characters. -/
abbrev Str := List Nat

/-- What the groups have captured. -/
abbrev Env := Nat → Option Str

/-- Group `i` captures `s`. -/
def Env.put (e : Env) (i : Nat) (s : Str) : Env := fun j => if j = i then some s else e j

/-- A regular expression. -/
inductive Re
  | eps
  /-- One of some characters. -/
  | chr (p : Nat → Bool)
  | seq (a b : Re)
  | alt (a b : Re)
  /-- Zero or more, as many as possible. -/
  | star (r : Re)
  /-- Group number `i`. -/
  | grp (i : Nat) (r : Re)
  /-- What the group has captured. -/
  | ref (i : Nat)

/-- The expression matches (all of) the string. `fold` is the identity, or makes
everything lower case. -/
inductive Sat (fold : Nat → Nat) : Re → Env → Str → Env → Prop
  | eps {e} : Sat fold .eps e [] e
  | chr {p : Nat → Bool} {c e} : p (fold c) = true → Sat fold (.chr p) e [c] e
  | seq {a b e s e1 t e2} : Sat fold a e s e1 → Sat fold b e1 t e2 →
      Sat fold (.seq a b) e (s ++ t) e2
  | left {a b e s e1} : Sat fold a e s e1 → Sat fold (.alt a b) e s e1
  | right {a b e s e1} : Sat fold b e s e1 → Sat fold (.alt a b) e s e1
  | done {r e} : Sat fold (.star r) e [] e
  | more {r e s e1 t e2} : Sat fold r e s e1 → s ≠ [] → Sat fold (.star r) e1 t e2 →
      Sat fold (.star r) e (s ++ t) e2
  | grp {i r e s e1} : Sat fold r e s e1 → Sat fold (.grp i r) e s (e1.put i s)
  | ref {i e s} : s.map fold = ((e i).getD []).map fold → Sat fold (.ref i) e s e

/-- Every expression matches its name, and sees what has been captured by those before. -/
inductive SatAll (fold : Nat → Nat) : List Re → Env → List Str → Env → Prop
  | nil {e} : SatAll fold [] e [] e
  | cons {r rs e n ns e1 e2} : Sat fold r e n e1 → SatAll fold rs e1 ns e2 →
      SatAll fold (r :: rs) e (n :: ns) e2

/-- How many groups there are. -/
def Re.groups : Re → Nat
  | .eps => 0
  | .chr _ => 0
  | .seq a b => a.groups + b.groups
  | .alt a b => a.groups + b.groups
  | .star r => r.groups
  | .grp _ r => r.groups + 1
  | .ref _ => 0

/-- With groups numbered from `k` on. -/
def Re.shift (k : Nat) : Re → Re
  | .eps => .eps
  | .chr p => .chr p
  | .seq a b => .seq (a.shift k) (b.shift k)
  | .alt a b => .alt (a.shift k) (b.shift k)
  | .star r => .star (r.shift k)
  | .grp i r => .grp (k + i) (r.shift k)
  | .ref i => .ref i

/-- Groups are numbered through. -/
def through (k : Nat) : List Re → List Re
  | [] => []
  | r :: rs => r.shift k :: through (k + r.groups) rs

/-- A target or a prerequisite: its type, and its name without and with the extension
being part of it. -/
structure Thing where
  type : Nat
  name : Bool → Str

/-- A dependency declaration: the target, the other members of its ad hoc group and its
prerequisites, with whether they are normal, that is, neither excluded nor ad hoc. -/
structure Decl where
  self    : Thing
  members : List Thing
  prqs    : List (Thing × Bool)

/-- An element of a pattern: its type and, if it is a regular expression (and not a
substitution or a plain name), what it is and whether the extension is a part of the name
(flag `e`). -/
structure Elem where
  type : Nat
  pat  : Option (Re × Bool)

/-- A rule: its target, the other members and prerequisites. -/
structure Pattern where
  self    : Elem
  members : List Elem
  prqs    : List Elem

/-- Whether one type is, or is derived from, another one. -/
abbrev IsA := Nat → Nat → Bool

/-- The first of this type. -/
def firstOf (isA : IsA) (ts : List Thing) (type : Nat) : Option Thing :=
  ts.find? fun t => isA t.type type

/-- What the elements that are regular expressions are for. -/
inductive Picks (isA : IsA) (ts : List Thing) : List Elem → List Re → List Str → Prop
  | nil : Picks isA ts [] [] []
  | skip {e es rs ns} : e.pat = none → Picks isA ts es rs ns → Picks isA ts (e :: es) rs ns
  | pick {e es rs ns r x t} : e.pat = some (r, x) → firstOf isA ts e.type = some t →
      Picks isA ts es rs ns → Picks isA ts (e :: es) (r :: rs) (t.name x :: ns)

/-- The rule is for this declaration, with this captured: the name of the target, and those
of the first member and prerequisite of the respective type all match. -/
def Applies (fold : Nat → Nat) (isA : IsA) (p : Pattern) (d : Decl) (e : Env) : Prop :=
  ∃ r x rs ns rs' ns', p.self.pat = some (r, x) ∧ Picks isA d.members p.members rs ns ∧
    Picks isA ((d.prqs.filter (·.2)).map (·.1)) p.prqs rs' ns' ∧
    SatAll fold (through 0 (r :: (rs ++ rs'))) (fun _ => none)
      (d.self.name x :: (ns ++ ns')) e

/-- Names do not have slashes in them. -/
def Decl.Slashless (d : Decl) : Prop :=
  (∀ b, 47 ∉ d.self.name b) ∧ (∀ t ∈ d.members, ∀ b, 47 ∉ t.name b) ∧
    ∀ t ∈ d.prqs, ∀ b, 47 ∉ t.1.name b

end Verif.RulePat
