/-
Model of waiting for a task count:
  scheduler::suspend      libbuild2/scheduler.cxx:296-347
  scheduler::resume       libbuild2/scheduler.cxx:349-363
  task_thunk (completion) libbuild2/scheduler.txx:130-146
  scheduler::wait         libbuild2/scheduler.ixx:6-19

One wait slot (mutex, condition variable, number of waiters) shared by any
number of task counts (the counts whose addresses hash to the same slot; slots do
not interact).  Any number of threads.  Every atomic access is one step and
the steps of the threads are interleaved arbitrarily.  A condition variable wait
releases the mutex and goes to sleep in one step, may wake up spuriously, and
re-acquires the mutex before it returns (C++ semantics).

Simplifications: the accounting of active threads (deactivate_impl and
activate_impl around the wait) is in Verif.Active; the scheduler shutdown
(which makes all waits return) is not modelled; for one task count, all
threads and tasks use the same start count (`start`), as the callers do.
-/
namespace Verif.WaitSlot

/-- Where a thread is.  The argument is the task count (its number). -/
inductive PC where
  /-- Does something else. -/
  | idle
  /-- In suspend(), has not locked the slot yet. -/
  | wantLock (tc : Nat)
  /-- In suspend(), holds the slot mutex, about to test the task count. -/
  | checking (tc : Nat)
  /-- In suspend(), holds the slot mutex, the test failed. -/
  | willSleep (tc : Nat)
  /-- Blocked on the condition variable (mutex released). -/
  | asleep (tc : Nat)
  /-- Notified (or woken spuriously), has to re-acquire the mutex. -/
  | woken (tc : Nat)
  /-- The wait has returned (with a value of the count that it has seen). -/
  | returned (tc : Nat) (seen : Nat)
  /-- Executes (or will execute) a task of this task count. -/
  | running (tc : Nat)
  /-- Task done and count decremented; has to call resume(). -/
  | mustNotify (tc : Nat)
  /-- In resume(), holds the slot mutex. -/
  | notifying (tc : Nat)
  deriving DecidableEq, Repr

structure St where
  /-- The (atomic) task counts. -/
  count : Nat → Nat
  /-- Holder of the slot mutex. -/
  mutex : Option Nat := none
  /-- wait_slot::waiters. -/
  waiters : Nat := 0
  threads : List PC

/-- Atomic steps of a thread. -/
inductive Act where
  | wait (tc : Nat)
  | startTask (tc : Nat)
  | go
  | spurious
  deriving DecidableEq

def wake : PC → PC
  | .asleep tc => .woken tc
  | p => p

def setCount (f : Nat → Nat) (tc v : Nat) : Nat → Nat := fun i => if i = tc then v else f i

/-- One step of thread `i`; `none` if it is not possible in this state. -/
def step (start : Nat → Nat) (s : St) (i : Nat) (a : Act) : Option St :=
  match s.threads[i]?, a with
  | some .idle, .wait tc =>
    -- libbuild2/scheduler.ixx:12-13: test before anything else.
    if s.count tc ≤ start tc then
      some { s with threads := s.threads.set i (.returned tc (s.count tc)) }
    else some { s with threads := s.threads.set i (.wantLock tc) }
  | some (.wantLock tc), .go =>
    -- libbuild2/scheduler.cxx:318,323 lock, waiters++
    if s.mutex = none then
      some { s with mutex := some i, waiters := s.waiters + 1,
                    threads := s.threads.set i (.checking tc) }
    else none
  | some (.checking tc), .go =>
    -- libbuild2/scheduler.cxx:334-338 the loop condition
    if s.count tc ≤ start tc then
      some { s with mutex := none, waiters := s.waiters - 1,
                    threads := s.threads.set i (.returned tc (s.count tc)) }
    else some { s with threads := s.threads.set i (.willSleep tc) }
  | some (.willSleep tc), .go =>
    -- libbuild2/scheduler.cxx:336 condv.wait: unlock and sleep
    some { s with mutex := none, threads := s.threads.set i (.asleep tc) }
  | some (.asleep tc), .spurious =>
    some { s with threads := s.threads.set i (.woken tc) }
  | some (.woken tc), .go =>
    if s.mutex = none then
      some { s with mutex := some i, threads := s.threads.set i (.checking tc) }
    else none
  | some (.returned _ _), .go =>
    some { s with threads := s.threads.set i .idle }
  | some .idle, .startTask tc =>
    -- libbuild2/scheduler.txx:83 task_count++
    some { s with count := setCount s.count tc (s.count tc + 1),
                  threads := s.threads.set i (.running tc) }
  | some (.running tc), .go =>
    -- libbuild2/scheduler.txx:143-145: fetch_sub and test of the result
    some { s with count := setCount s.count tc (s.count tc - 1),
                  threads := s.threads.set i
                    (if s.count tc - 1 ≤ start tc then .mustNotify tc else .idle) }
  | some (.mustNotify tc), .go =>
    if s.mutex = none then
      some { s with mutex := some i, threads := s.threads.set i (.notifying tc) }
    else none
  | some (.notifying _), .go =>
    -- libbuild2/scheduler.cxx:361-362: notify_all if there are waiters
    some { s with mutex := none,
                  threads := (if s.waiters ≠ 0 then s.threads.map wake else s.threads).set i .idle }
  | _, _ => none

/-- States reachable from `n` idle threads with any initial counts. -/
inductive Reach (start : Nat → Nat) (n : Nat) (c0 : Nat → Nat) : St → Prop
  | init : Reach start n c0 { count := c0, threads := List.replicate n .idle }
  | step {s t : St} {i : Nat} {a : Act} : Reach start n c0 s → step start s i a = some t →
      Reach start n c0 t

end Verif.WaitSlot
