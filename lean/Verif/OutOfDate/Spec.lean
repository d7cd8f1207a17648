import Verif.TargetState.Model

/-! Specification of when a target has to be rebuilt (C24), independent of the loops of the code.

Time stamps are integers; the value 0 is the time stamp of a file that does not exist
(`timestamp_nonexistent` of libbutl), -1 is an unknown time stamp. -/

namespace Verif.OutOfDate

open Verif.TargetState

/-- The time stamp of a file that does not exist. -/
def nonexistent : Int := 0

/-- What is known about one prerequisite when the target is updated. -/
structure Pre where
  /-- identity of the prerequisite target -/
  id     : Nat
  /-- its execution has been postponed: it is updated later, by somebody else -/
  postponed : Bool
  /-- the state after it has been executed -/
  state  : TState
  /-- the modification time, if the prerequisite has one -/
  mtime  : Option Int
  /-- ad hoc prerequisite (not passed to the tool, only affects up-to-dateness) -/
  adhoc  : Bool
  /-- what the caller's filter says (true if there is no filter) -/
  filter : Bool
  /-- whether it is of the type the caller asked for -/
  typed  : Bool
  deriving DecidableEq, Repr

/-- A prerequisite with a modification time makes a target with modification time `mt` out of
date if it is strictly newer, or exactly as old and changed in this run. A prerequisite without
modification time does if it was changed in this run. -/
def Stales (mt : Int) (p : Pre) : Prop :=
  (∃ m, p.mtime = some m ∧ (mt < m ∨ (mt = m ∧ p.state = .changed))) ∨
  (p.mtime = none ∧ p.state = .changed)

/-- The prerequisite is compared with the target. -/
def Compared (p : Pre) : Prop := p.postponed = false ∧ (p.adhoc = true ∨ p.filter = true)

/-- The target has to be rebuilt. -/
def MustRebuild (mt : Int) (ps : List Pre) : Prop :=
  mt = nonexistent ∨ ∃ p ∈ ps, Compared p ∧ Stales mt p

/-- Every prerequisite that has been executed is in one of the final states. -/
def Finished (p : Pre) : Prop := p.state = .unchanged ∨ p.state = .changed ∨ p.state = .failed

end Verif.OutOfDate
