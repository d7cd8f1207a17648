/-!
# Appending to and prepending to values: specification

What names mean for a list-like value, what a history of assignments, appends and
prepends is expected to produce, and what it is for a set and a map.
-/

namespace Verif.Value

/-- A name as far as conversion to elements is concerned: whether it is the first half of
a pair (and with which character) and the rest, which is opaque. -/
structure Nm where
  pair : Option Char
  body : List Char
deriving DecidableEq, Repr

abbrev Names := List Nm

/-- Every first half of a pair is followed by the second half. This is the case for the
names produced by the parser. -/
inductive Complete : Names → Prop
  | nil : Complete []
  | single {n ns} : n.pair = none → Complete ns → Complete (n :: ns)
  | pair {n r ns} : n.pair ≠ none → Complete ns → Complete (n :: r :: ns)

/-- The names stand for this list of elements: a name that is not in a pair stands for one
element and so do the two halves of an `@`-pair. The conversion of one element is a
parameter. -/
inductive Reads {T : Type} (conv : Nm → Option Nm → Option T) : Names → List T → Prop
  | nil : Reads conv [] []
  | single {n ns x xs} : n.pair = none → conv n none = some x → Reads conv ns xs →
      Reads conv (n :: ns) (x :: xs)
  | pair {n r ns x xs} : n.pair = some '@' → conv n (some r) = some x → Reads conv ns xs →
      Reads conv (n :: r :: ns) (x :: xs)

/-- The names stand for this list of key and value pairs: every element is an `@`-pair. -/
inductive ReadsPairs {K V : Type} (ck : Nm → Option K) (cv : Nm → Option V) :
    Names → List (K × V) → Prop
  | nil : ReadsPairs ck cv [] []
  | pair {n r ns k v xs} : n.pair = some '@' → ck n = some k → cv r = some v →
      ReadsPairs ck cv ns xs → ReadsPairs ck cv (n :: r :: ns) ((k, v) :: xs)

/-- The three ways a buildfile changes a variable: `=`, `+=` and `=+`. -/
inductive How | assign | append | prepend
deriving DecidableEq, Repr

/-- What is left of a history after the last assignment. -/
def sinceAssign {α : Type} (ops : List (How × α)) : List (How × α) :=
  (ops.reverse.takeWhile (fun o => o.1 != .assign)).reverse

/-- What was assigned last, if anything. -/
def lastAssigned {α : Type} (ops : List (How × α)) : Option α :=
  (ops.reverse.find? (fun o => o.1 == .assign)).map (·.2)

/-- The operands of the given kind, in order. -/
def operands {α : Type} (h : How) (ops : List (How × α)) : List α :=
  (ops.filter (fun o => o.1 == h)).map (·.2)

/-- The elements of a list-like variable after a history: everything prepended since the
last assignment, the latest first, followed by what was assigned (or by the initial
elements), followed by everything appended, the latest last. -/
def expected {T : Type} (init : List T) (ops : List (How × List T)) : List T :=
  (operands .prepend (sinceAssign ops)).reverse.flatten ++
  (lastAssigned ops).getD init ++
  (operands .append (sinceAssign ops)).flatten

/-- A strict total order. -/
structure StrictTotal {T : Type} (lt : T → T → Bool) : Prop where
  irrefl : ∀ x, lt x x = false
  trans : ∀ x y z, lt x y = true → lt y z = true → lt x z = true
  total : ∀ x y, lt x y = false → lt y x = false → x = y

/-- In ascending order without duplicates. -/
def Ascending {T : Type} (lt : T → T → Bool) (l : List T) : Prop :=
  l.Pairwise (fun x y => lt x y = true)

/-- The value of a key in a map. -/
def valueOf {K V : Type} [DecidableEq K] (m : List (K × V)) (k : K) : Option V :=
  (m.find? (fun p => p.1 == k)).map (·.2)

/-- The value of the last pair with this key in a list of pairs. -/
def lastValue {K V : Type} [DecidableEq K] (l : List (K × V)) (k : K) : Option V :=
  valueOf l.reverse k

end Verif.Value
