/-
Model of the mutex that serializes the build phases:
  run_phase_mutex::lock    libbuild2/context.cxx:1120-1178
  run_phase_mutex::unlock  libbuild2/context.cxx:1180-1231
  run_phase_mutex::relock  libbuild2/context.cxx:1233-1322
  ~phase_switch            libbuild2/context.cxx:1558-1585 (setting of fail_)

Each section with m_ locked is one step, and so are locking and unlocking lm_ and
notify_all() (which is done with m_ unlocked).  The steps of the threads are
interleaved arbitrarily and waits may wake spuriously.

Not modelled: deactivating and activating the thread in the scheduler around the
waits (see the models of the scheduler), the contention counters, the second
part of the result of relock() (which is not used), wait() (which waits with a
timeout and doesn't change the state), the serial mode of push_phase() and
pop_phase() (where they do nothing).
-/
namespace Verif.PhaseMutex

/-- libbuild2/types.hxx run_phase -/
inductive Ph where
  | load | match_ | execute
  deriving DecidableEq, Repr

/-- Where a thread is. Used by `St` (libbuild2/context.hxx:95-109). -/
inductive T where
  /-- Doesn't have the mutex. -/
  | idle
  /-- Counted for phase `n`, blocked on its condition variable. -/
  | sleep (n : Ph)
  /-- Same, was woken and is about to test the phase. -/
  | awake (n : Ph)
  /-- In the load phase, about to lock the load mutex. -/
  | wantLoad
  /-- Has the phase; `ok` is what lock() or relock() has returned. -/
  | hold (n : Ph) (ok : Bool)
  /-- In unlock() (`to` is none) or relock() after the load mutex, if it had to be,
  was unlocked. -/
  | leaving (o : Ph) (to : Option Ph)
  /-- About to call notify_all() for phase `v`. `k` is none in unlock(). In
  relock() it is the result. -/
  | notify (v : Ph) (k : Option Bool)
  deriving DecidableEq, Repr

/-- libbuild2/context.hxx:95-109 and the stack of scheduler sub-phases: `depth` is
its size and `underflow` is set if it was popped when empty (an assertion in
scheduler::pop_phase()). -/
structure St where
  phase : Ph := .load
  fail : Bool := false
  lc : Nat := 0
  mc : Nat := 0
  ec : Nat := 0
  lm : Bool := false
  depth : Nat := 0
  underflow : Bool := false
  threads : List T
  deriving DecidableEq, Repr

/-- The counters lc_, mc_, ec_ (libbuild2/context.hxx:95-109), selected the way the
switches of context.cxx:1130-1135, 1190-1195 and 1249-1262 do. -/
def St.cnt (s : St) : Ph → Nat
  | .load => s.lc
  | .match_ => s.mc
  | .execute => s.ec

/-- Incrementing it (context.cxx:1130-1135, 1257-1262). -/
def St.inc (s : St) : Ph → St
  | .load => { s with lc := s.lc + 1 }
  | .match_ => { s with mc := s.mc + 1 }
  | .execute => { s with ec := s.ec + 1 }

/-- Decrementing it (context.cxx:1190-1195, 1249-1254). -/
def St.dec (s : St) : Ph → St
  | .load => { s with lc := s.lc - 1 }
  | .match_ => { s with mc := s.mc - 1 }
  | .execute => { s with ec := s.ec - 1 }

/-- Thread `i` goes on to `t` (bookkeeping of the model).
Used by `lockStep` (libbuild2/context.cxx:1126-1160). -/
def St.put (s : St) (i : Nat) (t : T) : St := { s with threads := s.threads.set i t }

/-- In the phase `n` with result `r`; in case of load the load mutex is next
(libbuild2/context.cxx:1162-1177, 1301-1321). -/
def enter (n : Ph) (r : Bool) : T := if n = .load then .wantLoad else .hold n r

/-- libbuild2/context.cxx:1219-1222, 1276-1279: enter and leave a scheduler
sub-phase (scheduler.cxx:798-910 push_phase, pop_phase; only the depth). -/
def subPhase (s : St) (o n : Ph) : St :=
  if o = .match_ ∧ n = .execute then { s with depth := s.depth + 1 }
  else if o = .execute ∧ n = .match_ then
    if s.depth = 0 then { s with underflow := true } else { s with depth := s.depth - 1 }
  else s

/-- libbuild2/context.cxx:1126-1160 -/
def lockStep (s : St) (i : Nat) (n : Ph) : St :=
  let u := s.lc = 0 ∧ s.mc = 0 ∧ s.ec = 0
  let s' := s.inc n
  if u then { s'.put i (enter n (!s.fail)) with phase := n }
  else if s.phase ≠ n then s'.put i (.sleep n)
  else s'.put i (enter n (!s.fail))

/-- libbuild2/context.cxx:1188-1230 -/
def unlockStep (s : St) (i : Nat) (o : Ph) : St :=
  let s := s.dec o
  if s.cnt o = 0 then
    let nv : Ph × Option Ph :=
      if s.lc ≠ 0 then (.load, some .load)
      else if s.mc ≠ 0 then (.match_, some .match_)
      else if s.ec ≠ 0 then (.execute, some .execute)
      else (.load, none)
    let s := subPhase { s with phase := nv.1 } o nv.1
    match nv.2 with
    | some v => s.put i (.notify v none)
    | none => s.put i .idle
  else s.put i .idle

/-- libbuild2/context.cxx:1247-1299 -/
def relockStep (s : St) (i : Nat) (o n : Ph) : St :=
  let s := s.dec o
  let u := s.cnt o = 0
  let others := s.cnt n ≠ 0
  let s := s.inc n
  if u then
    let s := subPhase { s with phase := n } o n
    if others then s.put i (.notify n (some (!s.fail)))
    else s.put i (enter n (!s.fail))
  else if s.phase ≠ n then s.put i (.sleep n)
  else s.put i (enter n (!s.fail))

/-- notify_all() for the condition variable of `v` (libbuild2/context.cxx:1224-1230,
1282-1289). -/
def wake (v : Ph) (t : T) : T := if t = .sleep v then .awake v else t

/-- What follows the notification: the end of unlock() or of relock()
(libbuild2/context.cxx:1230-1231, 1289-1321). -/
def afterNotify (v : Ph) : Option Bool → T
  | none => .idle
  | some r => enter v r

/-- Puts together `Ph` (libbuild2/types.hxx) and what goes with it; no function of its own in the code. -/
inductive Op where
  | lock (n : Ph)
  | unlock
  | relock (n : Ph)
  /-- The holder of the load phase is in ~phase_switch() with an exception. -/
  | setFail
  | awakeTry
  | loadAcquire
  | leave
  | notify
  | spurious
  deriving DecidableEq, Repr

/-- A step of thread `i`; `none` if it is not possible. -/
def step (s : St) (i : Nat) (op : Op) : Option St :=
  match s.threads[i]? with
  | none => none
  | some t =>
    match op, t with
    | .lock n, .idle => some (lockStep s i n)
    | .unlock, .hold o _ =>
      -- libbuild2/context.cxx:1185-1186
      some { s.put i (.leaving o none) with lm := if o = .load then false else s.lm }
    | .relock n, .hold o _ =>
      -- libbuild2/context.cxx:1239-1245
      if o ≠ n then
        some { s.put i (.leaving o (some n)) with lm := if o = .load then false else s.lm }
      else none
    | .setFail, .hold .load _ =>
      -- The exception is the result.
      some { s.put i (.hold .load false) with fail := true }
    | .awakeTry, .awake n =>
      -- libbuild2/context.cxx:1153-1154, 1294-1295
      if s.phase = n then some (s.put i (enter n (!s.fail))) else some (s.put i (.sleep n))
    | .loadAcquire, .wantLoad =>
      -- libbuild2/context.cxx:1164-1175, 1301-1319
      if s.lm then none else some { s.put i (.hold .load (!s.fail)) with lm := true }
    | .leave, .leaving o none => some (unlockStep s i o)
    | .leave, .leaving o (some n) => some (relockStep s i o n)
    | .notify, .notify v k =>
      some { s with threads := (s.threads.map (wake v)).set i (afterNotify v k) }
    | .spurious, .sleep n => some (s.put i (.awake n))
    | _, _ => none

/-- Reachable with `N` threads.
Puts together `St` (libbuild2/context.hxx:95-109) and what goes with it; no function of its own in the code. -/
inductive Reach (N : Nat) : St → Prop
  | init : Reach N { threads := List.replicate N .idle }
  | step {s t : St} {i : Nat} {o : Op} : Reach N s → step s i o = some t → Reach N t

/-- The way the build system uses the mutex while it matches: only the match
phase is locked and unlocked, from it a thread may switch to load or execute and
back ("in our model we don't switch from the execute phase",
libbuild2/context.cxx:1495-1502 phase_switch). -/
def disciplined (t : T) : Op → Bool
  | .lock n => n = .match_
  | .unlock => match t with
    | .hold o _ => o = .match_
    | _ => true
  | .relock n => match t with
    | .hold o _ => o = .match_ || n = .match_
    | _ => true
  | _ => true

/-- Reachable with `N` threads when they keep to that.
Puts together `disciplined` (libbuild2/context.cxx:1495-1502) and what goes with it; no function of its own in the code. -/
inductive ReachD (N : Nat) : St → Prop
  | init : ReachD N { threads := List.replicate N .idle }
  | step {s s' : St} {i : Nat} {t : T} {o : Op} : ReachD N s → s.threads[i]? = some t →
      disciplined t o = true → step s i o = some s' → ReachD N s'

end Verif.PhaseMutex
