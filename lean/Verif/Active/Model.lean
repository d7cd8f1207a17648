/-
Model of the accounting of threads in the scheduler and of its jobserver:
  deactivate_impl   libbuild2/scheduler.cxx:102-149
  activate_impl     libbuild2/scheduler.cxx:151-186
  allocate          libbuild2/scheduler.cxx:210-230
  deallocate        libbuild2/scheduler.cxx:232-294
  activate_helper   libbuild2/scheduler.cxx:934-963
  create_helper     libbuild2/scheduler.cxx:965-969 (the counters)
  helper            libbuild2/scheduler.cxx:1158-1240
  jobserver_monitor libbuild2/scheduler.cxx:1333-1690
  serialize         libbuild2/scheduler.txx:148-195
  async (last part) libbuild2/scheduler.txx:118-128

Everything here is done with the scheduler mutex locked, so a section between
lock and unlock is one step; a section that may unlock in the middle is split
there.  Steps of the threads, of the jobserver monitor thread and of the clients
of the jobserver are interleaved arbitrarily.  notify_one wakes an arbitrary
sleeping thread (the choice is a parameter of the step) and waits may wake
spuriously.

Not modelled: shutdown, tune (which requires an idle scheduler), failures to
create a thread, the deadlock monitor, statistics.  queued_task_count_ is
changed without the scheduler mutex, but only by active threads (push, pop);
the test of the count at the end of helper() and the decrement of active_ that
follows are one step here: a push by another active thread in between commutes
with the decrement.
-/
namespace Verif.Active

/-- Where a thread is. Used by `St` (libbuild2/scheduler.hxx:644-720). -/
inductive TS where
  /-- Active. -/
  | run
  /-- Between deactivate() and activate(). -/
  | wait (ext : Bool)
  /-- In activate_impl(), in the ready queue, about to test if it can become
  active. -/
  | readyRun
  /-- Same, blocked on ready_condv_. -/
  | readySleep
  /-- A helper that was created but did not acquire the mutex yet. -/
  | starting
  /-- A helper blocked on idle_condv_. -/
  | idleSleep
  /-- A helper that was notified. -/
  | idleWoken
  deriving DecidableEq, Repr

/-- `extra` is what the thread has allocated with allocate() or serialize() and
not deallocated yet. `held` is the number of jobserver tokens held by the
process this thread is waiting for. `pend` is the remaining number in
deallocate() after it has released the mutex to create a helper (0 if it is not
there). Used by `St` (libbuild2/scheduler.hxx:644-720). -/
structure Thr where
  st : TS
  helper : Bool := true
  extra : Nat := 0
  held : Nat := 0
  pend : Nat := 0
  deriving DecidableEq, Repr

/-- Where the jobserver monitor is. Used by `St` (libbuild2/scheduler.hxx:644-720). -/
inductive Mon where
  /-- Waits for the delay or a notification. -/
  | sleep
  /-- Mutex unlocked, about to query the pipe. -/
  | query
  /-- Mutex locked again after the query, which gave `r`. -/
  | eval (r : Nat)
  /-- Mutex unlocked, about to write a token to the pipe. -/
  | write
  /-- Mutex unlocked, about to read a token from the pipe. -/
  | read
  deriving DecidableEq, Repr

/-- The counters (libbuild2/scheduler.hxx:644-720) and the threads. -/
structure St where
  max : Nat
  maxThreads : Nat
  reserve : Nat := 0
  active : Nat := 1
  waiting : Nat := 0
  external : Nat := 0
  ready : Nat := 0
  idle : Nat := 0
  helpers : Nat := 0
  starting : Nat := 0
  queued : Nat := 0
  jsActive : Nat := 0
  jsDebt : Bool := false
  jsIssued : Nat := 0
  pipe : Nat := 0
  mon : Mon := .write
  threads : List Thr := [{ st := .run, helper := false }]
  deriving Repr

/-- condition_variable::notify_one among the threads in state `f`: thread `k`
if it sleeps, some other one if it doesn't, none if nobody sleeps.
Used by `activateHelper` (libbuild2/scheduler.cxx:934-963). -/
def pick (l : List Thr) (f : TS) (k : Nat) : Option Nat :=
  match l[k]? with
  | some t => if t.st = f then some k else l.findIdx? (fun t => t.st = f)
  | none => l.findIdx? (fun t => t.st = f)

/-- Change the state of thread `i`.
Used by `activateHelper` (libbuild2/scheduler.cxx:934-963). -/
def setSt (l : List Thr) (i : Nat) (g : TS) : List Thr :=
  match l[i]? with
  | some t => l.set i { t with st := g }
  | none => l

/-- Used by `activateHelper` (libbuild2/scheduler.cxx:934-963). -/
def notifyOne (s : St) (f g : TS) (k : Nat) : St :=
  match pick s.threads f k with
  | some j => { s with threads := setSt s.threads j g }
  | none => s

def wakeReady (t : Thr) : Thr := if t.st = .readySleep then { t with st := .readyRun } else t

/-- condition_variable::notify_all for ready_condv_.
Built on `St` (libbuild2/scheduler.hxx:644-720). -/
def notifyAllReady (s : St) : St := { s with threads := s.threads.map wakeReady }

/-- Used by `activateHelper` (libbuild2/scheduler.cxx:934-963). -/
inductive Kick where
  /-- Not possible. -/
  | no
  /-- An idle helper notified, mutex kept. -/
  | kept (s : St)
  /-- New helper created, mutex was released. -/
  | created (s : St)

/-- libbuild2/scheduler.cxx:934-963 activate_helper (init_active_ is 1). -/
def activateHelper (s : St) (k : Nat) : Kick :=
  if s.idle > s.reserve then .kept (notifyOne s .idleSleep .idleWoken k)
  else if 1 + s.helpers - s.reserve < s.maxThreads ∨ (s.active = 0 ∧ s.queued ≠ 0) then
    .created { s with helpers := s.helpers + 1, starting := s.starting + 1,
                      threads := s.threads ++ [{ st := .starting }] }
  else .no

/-- Pay off the jobserver debt (libbuild2/scheduler.cxx:129-137, 1218-1226). -/
def payDebt (s : St) : St :=
  if s.jsDebt then { s with active := s.active + 1, jsActive := s.jsActive + 1, jsDebt := false }
  else s

/-- libbuild2/scheduler.cxx:120-148: what deactivate_impl() does after it has
released the slot. -/
def release (s : St) (k : Nat) : St :=
  if s.ready ≠ 0 then notifyOne s .readySleep .readyRun k
  else if s.queued ≠ 0 then
    match activateHelper s k with
    | .kept s' => s'
    | .created s' => s'
    | .no => payDebt s
  else payDebt s

/-- libbuild2/scheduler.cxx:278-286: end of deallocate(). -/
def deallocEnd (s : St) (n : Nat) : St := if n ≠ 0 then payDebt s else s

/-- libbuild2/scheduler.cxx:258-275: the loop of deallocate() by thread `i`,
until its end or until the mutex is released. -/
def deallocLoop (i : Nat) (k : Nat) : Nat → St → St
  | 0, s => s
  | n + 1, s =>
    if s.queued ≠ 0 then
      match activateHelper s k with
      | .kept s' => deallocLoop i k n s'
      | .created s' =>
        match s'.threads[i]? with
        | some t => { s' with threads := s'.threads.set i { t with pend := n + 1 } }
        | none => s'
      | .no => deallocEnd s (n + 1)
    else deallocEnd s (n + 1)

/-- Steps; `i` is the thread, `k` a choice of the thread to be notified. -/
inductive Op where
  | deactivate (i : Nat) (ext : Bool) (k : Nat)
  | activateBegin (i : Nat)
  | activateTry (i : Nat)
  | spurious (i : Nat)
  | push (i : Nat)
  | pop (i : Nat)
  | kick (i k : Nat)
  | allocate (i n : Nat)
  | deallocate (i n k : Nat)
  | deallocResume (i k : Nat)
  | serialize (i : Nat)
  | helperGo (i : Nat)
  | helperEnd (i k : Nat)
  | clientTake (i : Nat)
  | clientReturn (i : Nat)
  /-- push_phase/pop_phase by thread `i`: new limits, tasks hidden or shown. -/
  | phase (i maxThreads reserve queued : Nat)
  | monitor (k : Nat)
  deriving DecidableEq

/-- The thread if it is active and not inside deallocate().
Built on `St` (libbuild2/scheduler.hxx:644-720). -/
def running (s : St) (i : Nat) : Option Thr :=
  match s.threads[i]? with
  | some t => if t.st = .run ∧ t.pend = 0 then some t else none
  | none => none

/-- libbuild2/scheduler.cxx:1500-1660: one step of the monitor thread. -/
def monStep (s : St) (k : Nat) : St :=
  match s.mon with
  | .sleep => { s with mon := .query }
  | .query => { s with mon := .eval s.pipe }
  | .write => { s with pipe := s.pipe + 1, jsIssued := s.jsIssued + 1, mon := .query }
  | .read =>
    -- Non-blocking; fails if somebody took the tokens in the meantime.
    if s.pipe ≠ 0 then
      { s with pipe := s.pipe - 1, jsIssued := s.jsIssued - 1, mon := .query }
    else { s with mon := .eval 0 }
  | .eval 0 =>
    if s.jsActive < s.jsIssued then
      if s.active < s.max then
        { s with active := s.active + 1, jsActive := s.jsActive + 1, jsDebt := false,
                 mon := .write }
      else { s with jsDebt := true, mon := .sleep }
    else { s with jsDebt := false, mon := .write }
  | .eval (r + 1) =>
    let s := { s with jsDebt := false, mon := if r + 1 > 1 then .read else .sleep }
    if s.jsActive = s.jsIssued then
      let s := { s with jsActive := s.jsActive - 1, active := s.active - 1 }
      if s.ready ≠ 0 then notifyOne s .readySleep .readyRun k
      else if s.queued ≠ 0 then
        match activateHelper s k with
        | .kept s' => s'
        | .created s' => s'
        | .no => s
      else s
    else s

/-- One step; `none` if it is not possible. -/
def step (s : St) : Op → Option St
  | .deactivate i ext k =>
    match running s i with
    | some t =>
      -- A thread that waits for a process stays active.
      if t.held = 0 then
        some (release { s with active := s.active - 1, waiting := s.waiting + 1,
                               external := s.external + (if ext then 1 else 0),
                               threads := s.threads.set i { t with st := .wait ext } } k)
      else none
    | none => none
  | .activateBegin i =>
    match s.threads[i]? with
    | some t =>
      match t.st with
      | .wait ext =>
        some { s with waiting := s.waiting - 1, external := s.external - (if ext then 1 else 0),
                      ready := s.ready + 1,
                      threads := s.threads.set i { t with st := .readyRun } }
      | _ => none
    | none => none
  | .activateTry i =>
    match s.threads[i]? with
    | some t =>
      if t.st = .readyRun then
        if s.active ≥ s.max then
          some { s with threads := s.threads.set i { t with st := .readySleep } }
        else
          some { s with ready := s.ready - 1, active := s.active + 1,
                        threads := s.threads.set i { t with st := .run } }
      else none
    | none => none
  | .spurious i =>
    match s.threads[i]? with
    | some t =>
      match t.st with
      | .readySleep => some { s with threads := s.threads.set i { t with st := .readyRun } }
      | .idleSleep => some { s with threads := s.threads.set i { t with st := .idleWoken } }
      | _ => none
    | none => none
  | .push i => (running s i).map (fun _ => { s with queued := s.queued + 1 })
  | .pop i => (running s i).bind (fun _ =>
      if s.queued ≠ 0 then some { s with queued := s.queued - 1 } else none)
  | .kick i k => (running s i).map (fun _ =>
      -- libbuild2/scheduler.txx:120-126
      if s.queued ≠ 0 ∧ s.active < s.max then
        match activateHelper s k with
        | .kept s' => s'
        | .created s' => s'
        | .no => s
      else s)
  | .allocate i n => (running s i).map (fun t =>
      if s.active < s.max then
        let d := s.max - s.active
        let n := if n = 0 ∨ d < n then d else n
        { s with active := s.active + n, threads := s.threads.set i { t with extra := t.extra + n } }
      else s)
  | .deallocate i n k => (running s i).bind (fun t =>
      if n ≠ 0 ∧ n ≤ t.extra then
        let s := { s with active := s.active - n,
                          threads := s.threads.set i { t with extra := t.extra - n } }
        if s.ready ≠ 0 then
          let s' := if s.ready > 1 ∧ n > 1 then notifyAllReady s
                    else notifyOne s .readySleep .readyRun k
          some (deallocEnd s' (n - (if n > s.ready then s.ready else n)))
        else some (deallocLoop i k n s)
      else none)
  | .deallocResume i k =>
    match s.threads[i]? with
    | some t =>
      if t.pend ≠ 0 then
        let d := if s.active < s.max then s.max - s.active else 0
        let n := if d < t.pend then d else t.pend - 1
        some (deallocLoop i k n { s with threads := s.threads.set i { t with pend := 0 } })
      else none
    | none => none
  | .serialize i => (running s i).bind (fun t =>
      if s.active = 1 then
        some { s with active := s.max,
                      threads := s.threads.set i { t with extra := t.extra + (s.max - 1) } }
      else none)
  | .helperGo i =>
    match s.threads[i]? with
    | some t =>
      let s? : Option St :=
        if t.st = .starting then some { s with starting := s.starting - 1 }
        else if t.st = .idleWoken then some { s with idle := s.idle - 1 }
        else none
      s?.map (fun s =>
        if s.active < s.max then
          { s with active := s.active + 1, threads := s.threads.set i { t with st := .run } }
        else { s with idle := s.idle + 1, threads := s.threads.set i { t with st := .idleSleep } })
    | none => none
  | .helperEnd i k =>
    match running s i with
    | some t =>
      if t.helper = true ∧ t.held = 0 ∧ s.queued = 0 then
        let s := { s with active := s.active - 1, idle := s.idle + 1,
                          threads := s.threads.set i { t with st := .idleSleep } }
        some (if s.ready ≠ 0 then notifyOne s .readySleep .readyRun k else payDebt s)
      else none
    | none => none
  | .clientTake i => (running s i).bind (fun t =>
      if s.pipe ≠ 0 then
        some { s with pipe := s.pipe - 1,
                      threads := s.threads.set i { t with held := t.held + 1 } }
      else none)
  | .clientReturn i => (running s i).bind (fun t =>
      if t.held ≠ 0 then
        some { s with pipe := s.pipe + 1,
                      threads := s.threads.set i { t with held := t.held - 1 } }
      else none)
  | .phase i mt r q => (running s i).map (fun _ =>
      { s with maxThreads := mt, reserve := r, queued := q })
  | .monitor k => some (monStep s k)

/-- Reachable from a scheduler that has just been started with `max` active
threads allowed.
Puts together `St` (libbuild2/scheduler.hxx:644-720) and what goes with it; no function of its own in the code. -/
inductive Reach (max maxThreads : Nat) : St → Prop
  | init : Reach max maxThreads { max := max, maxThreads := maxThreads }
  | step {s t : St} {o : Op} : Reach max maxThreads s → step s o = some t →
      Reach max maxThreads t

/-- Number of threads in state `f`. Built on `St` (libbuild2/scheduler.hxx:644-720). -/
def St.num (s : St) (f : TS) : Nat := s.threads.countP (fun t => t.st = f)

/-- Slots allocated with allocate() or serialize().
Built on `St` (libbuild2/scheduler.hxx:644-720). -/
def St.allocated (s : St) : Nat := (s.threads.map (·.extra)).sum

/-- Tokens held by jobserver clients. Built on `St` (libbuild2/scheduler.hxx:644-720). -/
def St.clients (s : St) : Nat := (s.threads.map (·.held)).sum

end Verif.Active
