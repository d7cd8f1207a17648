import Verif.TestSel.Model

/-!
# Test selection: the config.test value

What the list of names in config.test means according to the manual: a list of `@`-pairs
with a target on the left and an id path on the right, either of which can be omitted. If
the value contains a target type or ends with a directory separator, then it is a target
name and an id path otherwise.
-/

namespace Verif.TestSel

variable {C : Type} [DecidableEq C]

/-- What a name without the id denotes. -/
def whatOf (search : Nm C → Option Nat) (n : Nm C) : What C :=
  match n.type with
  | none => .under n.dir
  | some ty => .exact n.dir ty n.value (search n)

/-- The names as the requests. -/
inductive Denotes (search : Nm C → Option Nat) : List (Nm C) → List (Request C) → Prop
  | nil : Denotes search [] []
  /-- A target: with the type or a directory. -/
  | target {n ns rs} : Denotes search ns rs → n.pair = false → n.qualified = false →
      (n.typed = true ∨ (n.dir ≠ [] ∧ n.value = [])) →
      Denotes search (n :: ns) (⟨some (whatOf search n), none⟩ :: rs)
  /-- An id path. -/
  | id {n ns rs} : Denotes search ns rs → n.pair = false → n.qualified = false →
      n.type = none → n.dir = [] → n.value ≠ [] →
      Denotes search (n :: ns) (⟨none, some n.value⟩ :: rs)
  /-- A target and an id path. -/
  | both {n m ns rs} : Denotes search ns rs → n.pair = true → n.qualified = false →
      (n.typed = true ∨ (n.dir ≠ [] ∧ n.value = [])) →
      m.qualified = false → m.type = none → m.dir = [] → m.value ≠ [] →
      Denotes search (n :: m :: ns) (⟨some (whatOf search n), some m.value⟩ :: rs)

end Verif.TestSel
