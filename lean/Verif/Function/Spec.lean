/-!
# Function calls: specification

The ranking described at libbuild2/function.hxx:47-55 and the naming described at
libbuild2/function.hxx:293-296.
-/

namespace Verif.Function

/-- A value type: a built-in one or one derived from another
(`value_type::base_type`). Two types are the same if they are equal. -/
inductive VType
  | root (id : Nat)
  | derived (id : Nat) (base : VType)
  deriving DecidableEq, Repr

/-- `Derives a b`: `b` is a (direct or indirect) base of `a`. -/
inductive Derives : VType → VType → Prop
  | direct {id b} : Derives (.derived id b) b
  | indirect {id b c} : Derives b c → Derives (.derived id b) c

/-- A parameter: a value of any type (`none`), an untyped value (`some none`) or a
value of a certain type. -/
abbrev Param := Option (Option VType)

/-- An argument: its type, if any, and its data. -/
structure Arg (α : Type) where
  type : Option VType
  data : α

/-- The conversion from an argument's type to a parameter and its rank:

0 -- match exactly
1 -- match via the derived-to-base conversion
2 -- match via the reversal to untyped
-/
inductive Conv : Option VType → Param → Nat → Prop
  | any {a} : Conv a none 0
  | exact {a} : Conv a (some a) 0
  | base {a b} : Derives a b → Conv (some a) (some (some b)) 1
  | untype {a} : Conv (some a) (some none) 2

/-- An overload: the number of arguments it takes (`none` is no maximum), what is
known about the types of the leading ones and an identification of its
implementation. -/
structure Overload where
  min   : Nat
  max   : Option Nat
  types : List Param
  impl  : Nat
  deriving DecidableEq

/-- The ranks of the conversions of the arguments, for as long as there are both
arguments and typed parameters. -/
inductive Convs {α : Type} : List (Arg α) → List Param → List Nat → Prop
  | noParams {as} : Convs as [] []
  | noArgs {ps} : Convs [] ps []
  | cons {a as p ps r rs} : Conv a.type p r → Convs as ps rs →
      Convs (a :: as) (p :: ps) (r :: rs)

/-- The overload can be called with these arguments, with the rank of its worst
conversion. -/
def Viable {α : Type} (f : Overload) (args : List (Arg α)) (rank : Nat) : Prop :=
  f.min ≤ args.length ∧ (∀ m, f.max = some m → args.length ≤ m) ∧
  ∃ rs, Convs args f.types rs ∧ (∀ r ∈ rs, r ≤ rank) ∧ (rank = 0 ∨ rank ∈ rs)

/-- `f` is strictly better than all the others. -/
def BestOverload {α : Type} (fs : List Overload) (args : List (Arg α)) (f : Overload) : Prop :=
  ∃ before after r, fs = before ++ f :: after ∧ Viable f args r ∧
    ∀ g ∈ before ++ after, ∀ q, Viable g args q → r < q

/-- Two of the overloads are as good as each other and no worse than the others. -/
def Tie {α : Type} (fs : List Overload) (args : List (Arg α)) : Prop :=
  ∃ a f b g c r, fs = a ++ f :: b ++ g :: c ∧ Viable f args r ∧ Viable g args r ∧
    ∀ h ∈ fs, ∀ q, Viable h args q → r ≤ q

/-- What an argument is passed as: reversed to untyped if the parameter is untyped
and the argument is not, as is otherwise. -/
def pass {α : Type} (unt : VType → α → α) (p : Option Param) (a : Arg α) : Arg α :=
  match p, a.type with
  | some (some none), some t => ⟨none, unt t a.data⟩
  | _, _ => a

/-- The names under which a function registered as `n` in a family with the given
qualification can be called. -/
def names (qual n : List Char) : List (List Char) :=
  if '.' ∉ n then n :: (if qual = [] then [] else [qual ++ '.' :: n])
  else if n.head? = some '.' then [qual ++ n]
  else [n]

end Verif.Function
