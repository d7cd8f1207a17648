import Verif.TargetState.Model

/-! Model of the execution of a group through its members (C25): `group_action`
(libbuild2/algorithm.cxx:4533-4565), the part of `execute_impl` that concerns the group
(libbuild2/algorithm.cxx:2931-3046), `execute_recipe` (libbuild2/algorithm.cxx:2006-2112) for the
member and for the group, `target::group_state` and `target::executed_state_impl`
(libbuild2/target.ixx:275-315, 348-359) and `mtime_target::mtime` (libbuild2/target.cxx:1025-1060).

Any number of requesters ask for the group at the same time, in any interleaving: its members
(each executes `group_action` once, see the component OpState for why once) and targets that depend
on the group itself. -/

namespace Verif.Group

open Verif.TargetState

/-- What the requester is. Used by `step` (libbuild2/algorithm.cxx:2948-2978). -/
inductive Kind where
  /-- a member whose recipe is `group_recipe`, ad hoc or not -/
  | member (adhoc : Bool)
  /-- a dependent of the group itself -/
  | direct
  deriving DecidableEq, Repr

/-- Where a requester is inside `execute_impl (a, g, 0, nullptr)`.
Used by `step` (libbuild2/algorithm.cxx:2948-2978). -/
inductive At where
  /-- not asked yet -/
  | idle
  /-- has decremented the dependents of the group, before the compare-and-swap -/
  | counted
  /-- won the compare-and-swap: executes the recipe of the group -/
  | running
  /-- found the group busy, waits -/
  | waiting
  /-- returned; the state is what the requester ends up with in its own `opstate::state` if it is a
  member (`group` or `postponed`) -/
  | done (s : TState)
  deriving DecidableEq, Repr

/-- `task_count` of the group. Used by `step` (libbuild2/algorithm.cxx:2948-2978). -/
inductive Cnt where
  | applied | busy | executed
  deriving DecidableEq, Repr

/-- The state of the system. `left` is `dependents` of the group, `gstate` its `state`, `gmtime` its
modification time, `runs` counts how often the recipe of the group was started.
Used by `step` (libbuild2/algorithm.cxx:2948-2978). -/
structure S where
  /-- `execution_mode::last` -/
  last   : Bool
  left   : Nat
  cnt    : Cnt
  gstate : TState
  gmtime : Int
  runs   : Nat
  reqs   : List (Kind × At)
  deriving DecidableEq, Repr

/-- What a requester's own state is after the group was asked and `gs` was returned:
`group_action` returns `gs != postponed ? group : gs` (libbuild2/algorithm.cxx:4564) and
`execute_recipe` merges it into `unchanged` and stores it. -/
def memberState (gs : TState) : TState :=
  merge .unchanged (if gs ≠ .postponed then .group else gs)

/-- What `execute_impl` returns for the group once executed: the result of `execute_recipe` or
`executed_state_impl`; both translate `postponed` to `unchanged`
(libbuild2/algorithm.cxx:2091-2097; libbuild2/target.ixx:354-357). -/
def executedState (s : TState) : TState := if s = .postponed then .unchanged else s

/-- The result of the recipe of the group: what can be left in its `state`
(libbuild2/algorithm.cxx:2085-2108; the group is not itself a member of a group). -/
def Outcome (o : TState) : Prop :=
  o = .changed ∨ o = .unchanged ∨ o = .postponed ∨ o = .failed

/-- Used by `step` (libbuild2/algorithm.cxx:2948-2978). -/
def setReq (l : List (Kind × At)) (i : Nat) (a : At) : List (Kind × At) :=
  match l[i]? with
  | some (k, _) => l.set i (k, a)
  | none => l

/-- One step of requester `i`; `o` and `t` are the outcome and the modification time the recipe
happens to produce (used only when it finishes).

* idle: `s.dependents.fetch_sub (1)`; in the last mode turned away unless it is the last one
  (libbuild2/algorithm.cxx:2948-2978);
* counted: the compare-and-swap (libbuild2/algorithm.cxx:2982-3042). A noop recipe (the state is
  already `unchanged`) is not executed;
* running: the recipe finishes, the state is stored, `task_count` becomes executed
  (libbuild2/algorithm.cxx:2888-2929);
* waiting: the wait ends once the group is executed (libbuild2/algorithm.cxx:4546-4549). -/
def step (i : Nat) (o : TState) (t : Int) (s : S) : Option S :=
  match s.reqs[i]? with
  | some (_, .idle) =>
    if s.left = 0 then none  -- assert (td != 0)
    else
      let left := s.left - 1
      if s.last ∧ left ≠ 0 then
        some { s with left := left, reqs := setReq s.reqs i (.done (memberState .postponed)) }
      else some { s with left := left, reqs := setReq s.reqs i .counted }
  | some (_, .counted) =>
    match s.cnt with
    | .applied =>
      if s.gstate = .unchanged then
        some { s with cnt := .executed,
                      reqs := setReq s.reqs i (.done (memberState .unchanged)) }
      else some { s with cnt := .busy, runs := s.runs + 1, reqs := setReq s.reqs i .running }
    | .busy => some { s with reqs := setReq s.reqs i .waiting }
    | .executed =>
      some { s with reqs := setReq s.reqs i (.done (memberState (executedState s.gstate))) }
  | some (_, .running) =>
    some { s with cnt := .executed, gstate := o, gmtime := t,
                  reqs := setReq s.reqs i (.done (memberState (executedState o))) }
  | some (_, .waiting) =>
    match s.cnt with
    | .executed => some { s with reqs := setReq s.reqs i (.done (memberState .busy)) }
    | _ => none
  | some (_, .done _) => none
  | none => none

/-- Before execution: the group is applied, its recipe is noop or not, and it counts as many
dependents as there are requesters. -/
def init (last noop : Bool) (t : Int) (ks : List Kind) : S :=
  { last := last, left := ks.length, cnt := .applied,
    gstate := if noop then .unchanged else .unknown, gmtime := t, runs := 0,
    reqs := ks.map fun k => (k, .idle) }

/-- The states that can be reached.
Puts together `step` (libbuild2/algorithm.cxx:2948-2978) and what goes with it; no function of its own in the code. -/
inductive Reach (last noop : Bool) (t : Int) (ks : List Kind) : S → Prop
  | init : Reach last noop t ks (init last noop t ks)
  | step {s s'} (i : Nat) (o : TState) (t' : Int) :
      Reach last noop t ks s → Outcome o → step i o t' s = some s' → Reach last noop t ks s'

/-- `state` of a member: `unknown` until its recipe, `group_action`, has returned. -/
def ownState : At → TState
  | .done s => s
  | _ => .unknown

/-- `target::group_state` (libbuild2/target.ixx:275-315) in the execute phase, for a member whose
recipe is `group_recipe`. -/
def groupState (adhoc : Bool) (own : TState) : Bool :=
  if adhoc then decide (own ≠ .postponed)
  else if own = .group then true
  else if own = .unknown then true
  else false

/-- `target::executed_state_impl` of the member (libbuild2/target.ixx:348-359). -/
def reportedState (s : S) (adhoc : Bool) (own : TState) : TState :=
  let ts := if groupState adhoc own then s.gstate else own
  if ts = .postponed then .unchanged else ts

/-- `mtime_target::mtime` of the member, whose own time is `m` (libbuild2/target.cxx:1025-1060). -/
def reportedMtime (s : S) (adhoc : Bool) (own : TState) (m : Int) : Int :=
  if groupState adhoc own then s.gmtime else m

end Verif.Group
