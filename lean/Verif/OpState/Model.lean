import Verif.TargetState.Model
import Verif.Util.Tally

/-
Model of the per-operation state of a target (target::opstate): how threads lock
it to match a rule, count themselves as its dependents and execute its recipe.
  lock_impl, unlock_impl   libbuild2/algorithm.cxx:236-372
  match_impl_impl          libbuild2/algorithm.cxx:1214-1447
  match_impl               libbuild2/algorithm.cxx:1454-1549
  apply_impl, reapply_impl libbuild2/algorithm.cxx:1010-1046, 1080-1110
  match_sync, etc          libbuild2/algorithm.ixx:407-500
  set_recipe               libbuild2/algorithm.ixx:572-612
  execute_impl             libbuild2/algorithm.cxx:2807-3047
  execute_direct_impl      libbuild2/algorithm.cxx:3049-3116
  execute_sync, etc        libbuild2/algorithm.ixx:870-960
  matched, matched_state_impl, executed_state_impl  libbuild2/target.ixx:240-357
  context::count_base, etc libbuild2/context.hxx:480-489
  current_operation        libbuild2/context.cxx:1075-1118

One target and one action (the states of different targets and of the inner and
outer actions are separate objects), any number of threads.  Each access to an
atomic variable is a step, and so is everything a thread does to the target while
it owns it between two such accesses.  The steps are interleaved arbitrarily
subject to the build phases (see the model of the phase mutex): matching is done
in the match phase and execution in the execute phase, but the match() and
apply() functions of rules may switch to the execute phase (update during match)
and back.

Simplifications: the rule, the recipe and what they do to other targets are
arbitrary outcomes.  reapply() is assumed not to switch phases.  A match or
execution started asynchronously is a thread of its own.  Ad hoc group members
and targets with the group state are not covered (see the model of groups).  The
global counters dependency_count and target_count are sums of the shares of the
targets, `gd` and `gt` (every update of these counters is made for one target).
resolve_members() (which may match a target and not execute it) is not modelled.
-/
namespace Verif.OpState
open Verif.TargetState Verif.Util

/-- libbuild2/target.hxx:262-282 match options: a bit mask, uint64_t. -/
abbrev Opt := BitVec 64

/-- libbuild2/target.hxx match_extra::all_options -/
def allOptions : Opt := BitVec.allOnes 64

/-- Where a thread is with regards to the target. Used by `S` (libbuild2/target.hxx:922-977). -/
inductive Pc where
  | idle
  /-- lock_impl(): about to compare-and-swap `e` for busy. `o` is the options and
  `w` is whether it may wait. -/
  | lockTry (e : Nat) (o : Opt) (w : Bool)
  /-- lock_impl(): waits for the count to drop below busy, phase unlocked. -/
  | lockWait (o : Opt)
  /-- lock_impl(): has seen the count `e`, about to lock the phase. -/
  | lockWoken (e : Nat) (o : Opt)
  /-- lock_impl(): about to check whether it is already applied with these options. -/
  | lockCheck (e : Nat) (o : Opt) (w : Bool)
  /-- lock_impl(): has locked, the old count is `e`. -/
  | lockGot (e : Nat) (o : Opt)
  /-- Has the lock with this offset. -/
  | locked (off : Nat) (o : Opt)
  /-- apply_impl() has returned, about to call set_recipe(); `np` is whether it is
  noop_recipe and `ph` is whether matching of post hoc prerequisites will fail. -/
  | applying (c : Opt) (np ph : Bool)
  /-- Did not lock because already applied, about to query the state. -/
  | lockSkip
  /-- match_impl() has returned this state. -/
  | matched (r : TState)
  /-- Has counted itself as a dependent, to execute the target. -/
  | dependent
  /-- Is going to execute the target directly. -/
  | direct
  /-- About to compare-and-swap applied for busy; `c` is whether as a dependent. -/
  | execTry (c : Bool)
  /-- Owns the target in execution, there is no recipe to run. -/
  | noop
  /-- Runs the recipe. -/
  | executing
  /-- Has run the recipe and has set the state. -/
  | finishing (r : TState)
  /-- Waits for the count to drop to executed. -/
  | execWait
  /-- Was given the state after execution. -/
  | done (r : TState)
  deriving DecidableEq, Repr

/-- libbuild2/target.hxx:922-977 (opstate), libbuild2/context.hxx:476-521 and, for
stating the properties, what has happened in the current operation. -/
structure S where
  /-- current_on - 1 -/
  on : Nat := 0
  /-- current_mode is last. -/
  last : Bool := false
  /-- The phase is execute (otherwise match). -/
  exe : Bool := false
  /-- Is a dir{} target with operation callbacks. -/
  dir : Bool := false
  /-- task_count -/
  tc : Nat := 0
  state : TState := .uninitialized
  /-- match_extra.cur_options -/
  cur : Opt := 0
  /-- match_extra.cur_options_ (atomic) -/
  curA : Opt := 0
  /-- dependents -/
  deps : Nat := 0
  /-- Share of this target in context::dependency_count and target_count. -/
  gd : Nat := 0
  gt : Nat := 0
  /-- Number of calls to apply() in this operation. -/
  applies : Nat := 0
  /-- Number of times the recipe or callbacks were run in this operation. -/
  execs : Nat := 0
  /-- Number of dependents in this operation. -/
  taken : Nat := 0
  /-- Was matched (or has failed to) in this operation. -/
  now : Bool := false
  /-- The operation in which `state` was last assigned. -/
  setOn : Option Nat := none
  /-- A new match of the already applied target has failed. -/
  refail : Bool := false
  /-- Matching of the post hoc prerequisites has failed. -/
  phfail : Bool := false
  /-- An assertion has failed. -/
  bad : Bool := false
  pcs : List Pc
  deriving DecidableEq, Repr

/-- libbuild2/context.hxx:482 count_base() -/
def S.base (s : S) : Nat := 5 * s.on

/-- Thread `i` goes on to `p` (bookkeeping of the model).
Used by `failMatch` (libbuild2/algorithm.cxx:1426-1444). -/
def S.put (s : S) (i : Nat) (p : Pc) : S := { s with pcs := s.pcs.set i p }

/-- The states a recipe results in, libbuild2/algorithm.cxx:2081-2104 (group is not
covered here). -/
def isResult : TState → Bool
  | .changed | .unchanged | .postponed | .failed => true
  | _ => false

/-- libbuild2/target.ixx:346-357 executed_state_impl(), and the same in
execute_recipe(), libbuild2/algorithm.cxx:2090-2095 -/
def trans : TState → TState
  | .postponed => .unchanged
  | r => r

/-- In the sections of lock_impl() and match_impl_impl() that need the match phase
(a rule in match() or apply() may switch phases).
Used by `step` (libbuild2/algorithm.cxx:2989-3044). -/
def inMatch : Pc → Bool
  | .lockTry .. | .lockCheck .. | .lockGot .. | .lockSkip | .applying .. => true
  | .locked off _ => 4 ≤ off
  | _ => false

/-- In the sections of execute_impl() etc., which are in the execute phase.
Used by `step` (libbuild2/algorithm.cxx:2989-3044). -/
def inExec : Pc → Bool
  | .execTry _ | .noop | .executing | .finishing _ | .execWait => true
  | _ => false

/-- Owns the target in execution. Used by `step` (libbuild2/algorithm.cxx:2989-3044). -/
def exOwn : Pc → Nat
  | .noop | .executing | .finishing _ => 1
  | _ => 0

/-- Not in the middle of something. Used by `step` (libbuild2/algorithm.cxx:2989-3044). -/
def resting : Pc → Bool
  | .idle | .matched _ | .dependent | .direct | .done _ => true
  | _ => false

/-- Puts together `Opt` (libbuild2/target.hxx:262-282) and what goes with it; no function of its own in the code. -/
inductive Op where
  /-- Start locking to match, with these options; `w` is whether to wait. -/
  | lock (o : Opt) (w : Bool)
  | cas | wake | relock | check | got
  /-- Outcomes of match() and apply() of the rule. -/
  | matchNone | matchOk | ruleFail
  | apply (c : Opt) (np ph : Bool)
  | setRecipe
  | reapply (c : Opt)
  | unlock | query
  /-- After the match: become a dependent, or execute directly, or neither. -/
  | depend | direct | leave
  | exec | execCas
  | finishNoop (r : TState)
  | finish (r : TState)
  | publish | waited | join
  /-- A sub-task of the owner (e.g., matching a prerequisite) is started or done. -/
  | subStart | subEnd
  | toExecute | toMatch
  /-- The next operation of the batch. -/
  | newOp (last : Bool)
  deriving DecidableEq, Repr

/-- What catch (const failed&) does, libbuild2/algorithm.cxx:1426-1444. -/
def failMatch (s : S) (i off : Nat) (o : Opt) : S :=
  { s.put i (.locked 4 o) with
    state := .failed, cur := allOptions, curA := allOptions, now := true,
    setOn := some s.on, refail := s.refail || decide (4 ≤ off) }

/-- A step of thread `i`; `none` if it is not possible. The file and lines of each
step are given beside it. -/
def act (s : S) (i : Nat) (op : Op) : Option S :=
  let b := s.base
  let busy := b + 6
  match op with
  | .toExecute =>
    -- libbuild2/context.cxx:1233 relock(): only once nobody is in the match phase.
    if s.exe = false ∧ s.pcs.all (fun p => !inMatch p) then some { s with exe := true } else none
  | .toMatch =>
    if s.exe = true ∧ s.pcs.all (fun p => !inExec p) then some { s with exe := false } else none
  | .newOp l =>
    -- libbuild2/context.cxx:1086-1095; the target itself is not touched.
    if s.pcs.all resting then
      some { s with on := s.on + 1, last := l, exe := false, gd := 0, gt := 0, applies := 0,
                    execs := 0, taken := 0, now := false, refail := false, phfail := false,
                    pcs := s.pcs.map (fun _ => .idle) }
    else none
  | op =>
  match s.pcs[i]? with
  | none => none
  | some p =>
    match op, p with
    | .lock o w, .idle =>
      -- libbuild2/algorithm.cxx:249-254
      if s.exe then none else some (s.put i (.lockTry b o w))
    | .cas, .lockTry e o w =>
      -- libbuild2/algorithm.cxx:260-300
      if s.tc = e then some { s.put i (.lockGot e o) with tc := busy }
      else if busy ≤ s.tc then
        some (s.put i (if w then .lockWait o else .idle))
      else some (s.put i (.lockCheck s.tc o w))
    | .wake, .lockWait o =>
      -- libbuild2/algorithm.cxx:300
      if s.tc < busy then some (s.put i (.lockWoken s.tc o)) else none
    | .relock, .lockWoken e o =>
      -- libbuild2/algorithm.cxx:299, ~phase_unlock()
      if s.exe then none else some (s.put i (.lockCheck e o true))
    | .check, .lockCheck e o w =>
      -- libbuild2/algorithm.cxx:309-312
      if b + 4 ≤ e ∧ s.curA &&& o = o then some (s.put i .lockSkip)
      else some (s.put i (.lockTry e o w))
    | .got, .lockGot e o =>
      -- libbuild2/algorithm.cxx:320-355
      if e ≤ b then some { s.put i (.locked 1 o) with deps := 0, curA := 0 }
      else if b + 4 ≤ e ∧ s.cur &&& o = o then some { s.put i .lockSkip with tc := e }
      else some (s.put i (.locked (e - b) o))
    | .matchNone, .locked off o =>
      -- libbuild2/algorithm.cxx:1362-1366 (try_match)
      if s.exe = false ∧ s.tc = busy ∧ (off = 1 ∨ off = 2) then some (s.put i (.locked 2 o))
      else none
    | .matchOk, .locked off o =>
      -- libbuild2/algorithm.cxx:1368-1369
      if s.exe = false ∧ s.tc = busy ∧ (off = 1 ∨ off = 2) then some (s.put i (.locked 3 o))
      else none
    | .ruleFail, .locked off o =>
      -- Also libbuild2/algorithm.cxx:1412-1422 (executed): fails.
      if s.exe = false ∧ s.tc = busy then
        some { failMatch s i off o with applies := s.applies + (if off = 3 then 1 else 0) }
      else none
    | .apply c np ph, .locked off _ =>
      -- libbuild2/algorithm.cxx:1378-1384, 1041-1046
      if s.exe = false ∧ s.tc = busy ∧ off = 3 ∧ c ≠ 0 then
        some { s.put i (.applying c np ph) with
               applies := s.applies + 1, cur := c, curA := c, now := true }
      else none
    | .setRecipe, .applying c np ph =>
      -- libbuild2/algorithm.cxx:1384-1409, algorithm.ixx:577-611
      if s.exe = false ∧ s.tc = busy then
        some { s.put i (.locked 4 c) with
               state := if ph then .failed else if np then .unchanged else .unknown,
               gt := s.gt + (if np then 0 else 1),
               setOn := some s.on, phfail := s.phfail || ph }
      else none
    | .reapply c, .locked off o =>
      -- libbuild2/algorithm.cxx:1398-1411, 1106-1110
      if s.exe = false ∧ s.tc = busy ∧ off = 4 ∧ c ≠ 0 ∧ o &&& ~~~s.cur ≠ 0 then
        some { s.put i (.locked 4 o) with cur := c, curA := c }
      else none
    | .unlock, .locked off _ =>
      -- libbuild2/algorithm.cxx:359-372; the result is that of match_impl_impl().
      if s.exe = false ∧ s.tc = busy then
        some { s.put i (if 4 ≤ off then .matched s.state else .idle) with tc := off + b }
      else none
    | .query, .lockSkip =>
      -- libbuild2/target.ixx:317-344
      if s.tc = b + 2 then some (s.put i .idle)
      else if s.tc = b + 4 ∨ s.tc = b + 5 ∨ (busy ≤ s.tc ∧ s.curA ≠ 0) then
        some (s.put i (.matched s.state))
      else some { s with bad := true }
    | .depend, .matched r =>
      -- libbuild2/algorithm.ixx:412-430
      if s.exe = false ∧ r ≠ .failed then
        some { s.put i .dependent with deps := s.deps + 1, gd := s.gd + 1, taken := s.taken + 1 }
      else none
    | .direct, .matched _ => some (s.put i .direct)
    | .leave, .matched _ => some (s.put i .idle)
    | .leave, .direct => some (s.put i .idle)
    | .leave, .done _ => some (s.put i .idle)
    | .exec, .dependent =>
      -- libbuild2/algorithm.cxx:2960-2985
      if s.exe = false then none
      else if s.deps = 0 ∨ s.gd = 0 then some { s with bad := true }
      else
        let s' := { s with deps := s.deps - 1, gd := s.gd - 1 }
        if s.last = true ∧ s.deps - 1 ≠ 0 then some (s'.put i .idle) -- postponed
        else some (s'.put i (.execTry true))
    | .exec, .direct => if s.exe then some (s.put i (.execTry false)) else none
    | .execCas, .execTry c =>
      -- libbuild2/algorithm.cxx:2989-3044, 3064-3113, 2814-2815
      if s.tc = b + 4 then
        let s' := { s with tc := busy }
        if s.state = .unchanged then some (s'.put i .noop)
        else if s.state = .unknown then
          some { s'.put i .executing with execs := s.execs + 1 }
        else if c = false ∧ s.state = .failed then some (s'.put i .noop)
        else some { s with bad := true }
      else if busy ≤ s.tc then some (s.put i .execWait)
      else if s.tc = b + 5 then some (s.put i (.done (trans s.state)))
      else some { s with bad := true }
    | .finishNoop r, .noop =>
      -- libbuild2/algorithm.cxx:3007-3013, 3097-3105; only a dir{} target may have
      -- callbacks to run.
      if s.tc = busy ∧ r = s.state then
        some { s.put i (.done (trans r)) with tc := b + 5 }
      else if s.tc = busy ∧ s.dir = true ∧ s.state = .unchanged ∧ isResult r then
        some { s.put i (.done (trans r)) with
               tc := b + 5, state := r, setOn := some s.on, execs := s.execs + 1 }
      else none
    | .finish r, .executing =>
      -- libbuild2/algorithm.cxx:2081-2112
      if s.tc = busy ∧ isResult r then
        some { s.put i (.finishing r) with state := r, setOn := some s.on }
      else none
    | .publish, .finishing r =>
      -- libbuild2/algorithm.cxx:2915-2940
      if s.tc = busy then some { s.put i (.done (trans r)) with tc := s.tc - 1, gt := s.gt - 1 }
      else none
    | .waited, .execWait =>
      -- libbuild2/algorithm.ixx:877-884, 913-919
      if s.tc ≤ b + 5 then some (s.put i (.done (trans s.state))) else none
    | .join, .idle =>
      -- execute_complete() after an asynchronous execution was started,
      -- libbuild2/algorithm.ixx:905-920
      if s.exe = true ∧ (s.tc = b + 5 ∨ tally exOwn s.pcs ≠ 0) then some (s.put i .execWait)
      else none
    | .subStart, .locked _ _ => some { s with tc := s.tc + 1 }
    | .subStart, .executing => some { s with tc := s.tc + 1 }
    | .subEnd, .locked _ _ => if busy < s.tc then some { s with tc := s.tc - 1 } else none
    | .subEnd, .executing => if busy < s.tc then some { s with tc := s.tc - 1 } else none
    | _, _ => none

/-- As act(), but nothing runs after a failed assertion (`bad`), for example the
ones in libbuild2/algorithm.cxx:2989-3044. -/
def step (s : S) (i : Nat) (op : Op) : Option S :=
  if s.bad then none else act s i op

/-- target::matched(), libbuild2/target.ixx:240-274 -/
def looksMatched (s : S) : Bool :=
  if s.exe = false then
    s.tc = s.base + 4 || s.tc = s.base + 5 || (s.base + 6 ≤ s.tc && s.curA ≠ 0)
  else s.base + 3 ≤ s.tc

/-- Reachable with `N` threads from the start of the first operation.
Puts together `step` (libbuild2/algorithm.cxx:2989-3044) and what goes with it; no function of its own in the code. -/
inductive Reach (N : Nat) : S → Prop
  | init (dir last : Bool) : Reach N { dir := dir, last := last, pcs := List.replicate N .idle }
  | step {s t : S} {i : Nat} {o : Op} : Reach N s → step s i o = some t → Reach N t

end Verif.OpState
