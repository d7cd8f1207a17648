/-!
# Filtering of names by target type: specification
-/

namespace Verif.NameFilter

/-- A target type, told from others by its address, with the type it is derived from if any. -/
inductive Ty
  | root (id : Nat)
  | derived (id : Nat) (base : Ty)
  deriving DecidableEq, Repr

/-- The address. -/
def Ty.id : Ty → Nat
  | .root i => i
  | .derived i _ => i

/-- The first is the second or derived from it, directly or not. -/
inductive Derives : Ty → Ty → Prop
  | same {t u} : t.id = u.id → Derives t u
  | base {i b u} : Derives b u → Derives (.derived i b) u

/-- A name: empty strings stand for what isn't there; `proj` whether it is qualified with a project, `pair`
whether it is the first half of a pair. -/
structure Nm where
  proj : Bool := false
  dir : String := ""
  type : String := ""
  value : String := ""
  pair : Bool := false
  deriving DecidableEq, Repr

/-- A directory: nothing but a directory. -/
def Nm.IsDir (n : Nm) : Prop := n.proj = false ∧ n.type = "" ∧ n.value = "" ∧ n.dir ≠ ""

/-- What is known of target types in a scope: those with a name, the type of an untyped name (unless the name
is invalid), and whether a name is invalid for a type; the empty one isn't. -/
structure Env where
  find : String → Option Ty
  guess : Nm → Option Ty
  bad : Ty → String → Bool
  bad_empty : ∀ t, bad t "" = false

/-- The target type of a name. -/
def TypeOf (env : Env) (n : Nm) (t : Ty) : Prop :=
  (n.type ≠ "" ∧ env.find n.type = some t) ∨ (n.type = "" ∧ env.guess n = some t)

/-- A list of names consists of names and pairs. -/
inductive Item
  | one (n : Nm)
  | two (n o : Nm)
  deriving DecidableEq, Repr

/-- The first half. -/
def Item.name : Item → Nm
  | .one n => n
  | .two n _ => n

/-- The names. -/
def Item.names : Item → List Nm
  | .one n => [n]
  | .two n o => [n, o]

/-- The first halves of pairs are marked. -/
def Item.Ok : Item → Prop
  | .one n => n.pair = false
  | .two n _ => n.pair = true

/-- The target type of this one is one of these or derived from one. -/
def Takes (env : Env) (tts : List Ty) (i : Item) : Prop :=
  ∃ t, TypeOf env i.name t ∧ ∃ u ∈ tts, Derives t u

/-- Its target type can't be told: it is unknown, and it isn't imported, or it is invalid, or the second
half of the pair isn't a directory. The last two are for untyped names only. -/
def Wrong (env : Env) (i : Item) : Prop :=
  (i.name.type ≠ "" ∧ env.find i.name.type = none ∧ i.name.proj = false) ∨
  (i.name.type = "" ∧ (env.guess i.name = none ∨ ∃ o, i = .two i.name o ∧ ¬ o.IsDir))

end Verif.NameFilter
