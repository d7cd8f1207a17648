/-! What a dependency cycle is. -/
namespace Verif.Cycle

/-- What is locked to match a target: the same target may be matched for an inner and an
outer action. -/
structure Key where
  action : Nat
  target : Nat
  deriving DecidableEq, Repr

/-- `Path g k d`: matching `k` needs, directly or indirectly, matching `d`.  `g k` is what
`k` needs directly. -/
inductive Path (g : Key → List Key) : Key → Key → Prop
  | one {k d : Key} : d ∈ g k → Path g k d
  | cons {k d e : Key} : d ∈ g k → Path g d e → Path g k e

/-- No dependency cycles. -/
def Acyclic (g : Key → List Key) : Prop := ∀ k, ¬ Path g k k

theorem Path.trans {g : Key → List Key} {a b c : Key} (h : Path g a b) (h' : Path g b c) :
    Path g a c := by
  induction h with
  | one hd => exact .cons hd h'
  | cons hd _ ih => exact .cons hd (ih h')

end Verif.Cycle
