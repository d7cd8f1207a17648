import Verif.OutOfDate.Spec

/-! Model of `execute_prerequisites` and `reverse_execute_prerequisites`
(libbuild2/algorithm.cxx:4342-4522) and of `mtime_target::newer` (libbuild2/target.ixx:802-815). -/

namespace Verif.OutOfDate

open Verif.TargetState

/-- How one of the functions ends: by throwing `failed`, by a failed assertion, or by returning
the pair of an optional state (absent: the target must be rebuilt) and the prerequisite of the
requested type. Used by `compare` (libbuild2/algorithm.cxx:4388-4416). -/
inductive Res where
  | failed
  | assertFailed
  | ok (state : Option TState) (found : Option Nat)
  deriving DecidableEq, Repr

/-- `mtime_target::newer (mt, s)` (libbuild2/target.ixx:802-815), `none` for the failed assertion.
`mp` is the modification time of the prerequisite. -/
def newer (mt mp : Int) (s : TState) : Option Bool :=
  if s = .unknown then none
  else some (decide (mt < mp) || (decide (mt = mp) && decide (s = .changed)))

/-- What a thread of the loops works on: `rs`, `e` and `rt` (libbuild2/algorithm.cxx:4361,
4383-4384). -/
structure Acc where
  rs : TState
  e  : Bool
  rt : Option Nat
  deriving DecidableEq, Repr

/-- One element of `prerequisite_targets`: NULL (skipped) or a target together with what
`execute_async` returned for it (libbuild2/algorithm.cxx:4365-4379). -/
structure Slot where
  async : TState
  pre   : Pre
  deriving DecidableEq, Repr

/-- One iteration of the first loop (libbuild2/algorithm.cxx:4365-4379; 4461-4475): `none` if
`execute_async` throws (libbuild2/algorithm.ixx:892-902; only without --keep-going). The second
component is the slot left in `prerequisite_targets`. -/
def start (keepGoing : Bool) (rs : TState) : Option Slot → Option (TState × Option Slot)
  | none => some (rs, none)
  | some p =>
    if p.async = .failed ∧ keepGoing = false then none
    else if p.async = .postponed then some (merge rs p.async, none)
    else some (rs, some p)

/-- The first loop. Used by `both` (libbuild2/algorithm.cxx:4426-4429). -/
def startAll (keepGoing : Bool) : TState → List (Option Slot) → Option (TState × List (Option Slot))
  | rs, [] => some (rs, [])
  | rs, p :: ps =>
    match start keepGoing rs p with
    | none => none
    | some (rs', p') =>
      match startAll keepGoing rs' ps with
      | none => none
      | some (rs'', ps') => some (rs'', p' :: ps')

/-- The body of the second loop up to the choice of `rt` (libbuild2/algorithm.cxx:4388-4416;
4484-4509): `execute_complete` throws if the prerequisite failed, the state is merged and, unless
we already know, the time stamps are compared. -/
def compare (mt : Int) (a : Acc) (p : Pre) : Except Res Acc :=
  if p.state = .failed then .error .failed
  else
    let rs := merge a.rs p.state
    if !a.e && (p.adhoc || p.filter) then
      match p.mtime with
      | some mp =>
        match newer mt mp p.state with
        | none => .error .assertFailed
        | some b => .ok { a with rs := rs, e := b }
      | none => .ok { a with rs := rs, e := decide (p.state = .changed) }
    else .ok { a with rs := rs }

/-- One iteration of the second loop (libbuild2/algorithm.cxx:4386-4424) and the slot it leaves:
an ad hoc prerequisite is blanked out. `last` is the only difference of the reverse variant
(libbuild2/algorithm.cxx:4482-4517): the last, not the first, matching prerequisite is kept.
`tt` tells whether the caller asks for a prerequisite of a certain type. -/
def complete (last tt : Bool) (mt : Int) (a : Acc) : Option Slot → Except Res (Acc × Option Slot)
  | none => .ok (a, none)
  | some p =>
    match compare mt a p.pre with
    | .error r => .error r
    | .ok a' =>
      if p.pre.adhoc then .ok (a', none)
      else if tt then
        if (last || a'.rt.isNone) && p.pre.typed then .ok ({ a' with rt := some p.pre.id }, some p)
        else .ok (a', some p)
      else .ok (a', some p)

/-- The second loop. Used by `both` (libbuild2/algorithm.cxx:4426-4429). -/
def completeAll (last tt : Bool) (mt : Int) :
    Acc → List (Option Slot) → Except Res (Acc × List (Option Slot))
  | a, [] => .ok (a, [])
  | a, p :: ps =>
    match complete last tt mt a p with
    | .error r => .error r
    | .ok (a', p') =>
      match completeAll last tt mt a' ps with
      | .error r => .error r
      | .ok (a'', ps') => .ok (a'', p' :: ps')

/-- Both loops over the slots in the order in which they are visited, and the end of the function
(libbuild2/algorithm.cxx:4426-4429; 4519-4522). Returns the result and what is left in
`prerequisite_targets` (unchanged if the function throws: what is blanked before an exception is
not modelled). -/
def both (last tt keepGoing : Bool) (mt : Int) (ps : List (Option Slot)) :
    Res × List (Option Slot) :=
  match startAll keepGoing .unchanged ps with
  | none => (.failed, ps)
  | some (rs, ps') =>
    match completeAll last tt mt { rs := rs, e := decide (mt = nonexistent), rt := none } ps' with
    | .error r => (r, ps)
    | .ok (a, ps'') =>
      if tt ∧ a.rt = none then (.assertFailed, ps'')
      else (.ok (if a.e then none else some a.rs) a.rt, ps'')

/-- The slots a call is about: the first `n`, or all if `n` is zero
(libbuild2/algorithm.cxx:4355-4356; 4450-4451). -/
def range (n : Nat) (ps : List (Option Slot)) : List (Option Slot) :=
  if n = 0 then ps else ps.take n

/-- `execute_prerequisites` (libbuild2/algorithm.cxx:4342-4430). -/
def executePrerequisites (tt keepGoing : Bool) (mt : Int) (n : Nat) (ps : List (Option Slot)) :
    Res × List (Option Slot) :=
  let (r, qs) := both false tt keepGoing mt (range n ps)
  (r, qs ++ ps.drop (range n ps).length)

/-- `reverse_execute_prerequisites` (libbuild2/algorithm.cxx:4432-4522): the same from the end. -/
def reverseExecutePrerequisites (tt keepGoing : Bool) (mt : Int) (n : Nat)
    (ps : List (Option Slot)) : Res × List (Option Slot) :=
  let (r, qs) := both true tt keepGoing mt (range n ps).reverse
  (r, qs.reverse ++ ps.drop (range n ps).length)

end Verif.OutOfDate
