import Verif.TaskQueue.Spec

/-
Model of the scheduler's per-thread task queue:
libbuild2/scheduler.hxx:800-937 (task_queue_data, push, pop_front, pop_back),
libbuild2/scheduler.ixx:61-88 (queue_mark) and the queue part of
scheduler::async (libbuild2/scheduler.txx:55-115).

All of these run with the queue mutex locked, so each is one atomic step.  The
execution of a task happens with the mutex unlocked: other operations are
interleaved there, so functions that execute a task in the middle are split in
the part before and the part after.  The function calls of the owner nest, what
they keep in local variables is the `frames` stack.
-/
namespace Verif.TaskQueue

/-- libbuild2/scheduler.hxx:807-815 task_queue_data.  `data` is the array; an
element that was never written is `none`. -/
structure TQ (α : Type) where
  head : Nat := 0
  mark : Nat := 0
  tail : Nat := 0
  size : Nat := 0
  data : Nat → Option α := fun _ => none

/-- libbuild2/scheduler.hxx:841-863 push together with filling the returned
slot (libbuild2/scheduler.txx:67-76).  `none` is the NULL result. -/
def TQ.push {α : Type} (D : Nat) (q : TQ α) (x : α) : Option (TQ α) :=
  if q.size ≠ D then
    let t := if q.size ≠ 0 then (if q.tail ≠ D - 1 then q.tail + 1 else 0) else q.tail
    let m := if q.mark = D then t else q.mark
    some { q with tail := t, size := q.size + 1, mark := m,
                  data := fun i => if i = t then some x else q.data i }
  else none

/-- libbuild2/scheduler.hxx:865-866 empty_front. -/
def TQ.emptyFront {α : Type} (q : TQ α) : Bool := q.size == 0

/-- libbuild2/scheduler.hxx:868-886 pop_front, up to the execution. -/
def TQ.popFront {α : Type} (D : Nat) (q : TQ α) : Option α × TQ α :=
  let a := q.head == q.mark
  let td := q.data q.head
  let h := if q.size ≠ 1 then (if q.head ≠ D - 1 then q.head + 1 else 0) else q.head
  let s := q.size - 1
  (td, { q with head := h, size := s, mark := if s == 0 || a then h else q.mark })

/-- libbuild2/scheduler.hxx:888-892 empty_back. -/
def TQ.emptyBack {α : Type} (D : Nat) (q : TQ α) : Bool := q.size == 0 || q.mark == D

/-- What a function interrupted by the execution of a task remembers.
Used by `TQ.popBack` (libbuild2/scheduler.hxx:894-913). -/
inductive Frame where
  /-- pop_back: old mark and "adjust mark" flag. -/
  | pop (om : Nat) (a : Bool)
  /-- async on a full queue or queue_mark: old mark. -/
  | keep (om : Nat)
  /-- Same when the mark was already disabled: nothing to restore. -/
  | skip

/-- libbuild2/scheduler.hxx:894-913 pop_back, up to the execution. -/
def TQ.popBack {α : Type} (D : Nat) (q : TQ α) : Option α × Frame × TQ α :=
  let a := q.tail == q.mark
  let td := q.data q.tail
  let t := if q.size ≠ 1 then (if q.tail ≠ 0 then q.tail - 1 else D - 1) else q.tail
  (td, .pop q.mark a, { q with mark := D, tail := t, size := q.size - 1 })

/-- libbuild2/scheduler.ixx:61-77 queue_mark::queue_mark and
libbuild2/scheduler.txx:97-101 (async, queue full): save and disable. The
latter assigns unconditionally but in the case where the mark is already
disabled this is the same value, and it is not restored
(libbuild2/scheduler.txx:106). -/
def TQ.disable {α : Type} (D : Nat) (q : TQ α) : Frame × TQ α :=
  if q.mark ≠ D then (.keep q.mark, { q with mark := D }) else (.skip, q)

/-- libbuild2/scheduler.hxx:915-936 (pop_back after the execution),
libbuild2/scheduler.ixx:79-87 (~queue_mark), libbuild2/scheduler.txx:106-110
(async, queue full, after the execution). -/
def TQ.restore {α : Type} (D : Nat) (q : TQ α) : Frame → TQ α
  | .pop om a =>
    if q.size = 0 then { q with mark := q.tail }
    else if a then { q with mark := D }
    else { q with mark := om }
  | .keep om => { q with mark := if q.size = 0 then q.tail else om }
  | .skip => q

/-- The queue and the stack of its owner. Used by `M.step` (libbuild2/scheduler.txx:55-115). -/
structure M (α : Type) where
  q : TQ α := {}
  frames : List Frame := []

/-- One operation; the result is the task that starts running.
* `async`: libbuild2/scheduler.txx:55-115
* `helperTake`: one iteration of libbuild2/scheduler.cxx:1199-1200
* `ownTake`: one iteration of libbuild2/scheduler.cxx:82-84
* `leave`: the return from the executed task, or the end of the scope of a
  queue_mark. -/
def M.step {α : Type} (D : Nat) (m : M α) : Op α → M α × Option α
  | .async x =>
    match m.q.push D x with
    | some q => ({ m with q := q }, none)
    | none =>
      let (f, q) := m.q.disable D
      (⟨q, f :: m.frames⟩, some x)
  | .helperTake =>
    if m.q.emptyFront then (m, none)
    else
      let (x, q) := m.q.popFront D
      ({ m with q := q }, x)
  | .ownTake =>
    if m.q.emptyBack D then (m, none)
    else
      let (x, f, q) := m.q.popBack D
      (⟨q, f :: m.frames⟩, x)
  | .setMark =>
    let (f, q) := m.q.disable D
    (⟨q, f :: m.frames⟩, none)
  | .leave =>
    match m.frames with
    | [] => (m, none)
    | f :: r => (⟨m.q.restore D f, r⟩, none)

/-- A whole history: every call with the task that it started.
Puts together `M.step` (libbuild2/scheduler.txx:55-115) and what goes with it; no function of its own in the code. -/
def M.run {α : Type} (D : Nat) : M α → List (Op α) → M α × List (Op α × Option α)
  | m, [] => (m, [])
  | m, op :: r =>
    let (m', o) := m.step D op
    let (m'', t) := M.run D m' r
    (m'', (op, o) :: t)

/-- The tasks waiting in the queue, oldest first. Built on `TQ` (libbuild2/scheduler.hxx:807-815). -/
def TQ.contents {α : Type} (D : Nat) (q : TQ α) : List α :=
  (List.range q.size).filterMap (fun i => q.data ((q.head + i) % D))

end Verif.TaskQueue

namespace Verif.TaskQueue

/-- All the queues (libbuild2/scheduler.hxx:988 task_queues_: one per thread,
never removed) and queued_task_count_ (libbuild2/scheduler.hxx:770). -/
structure Sys (α : Type) where
  queues : List (M α)
  queued : Int := 0

/-- Change of the count: it is incremented by push
(libbuild2/scheduler.hxx:858) and decremented by execute, which pop_front and
pop_back call with the queue still locked (libbuild2/scheduler.hxx:942). A
thread that runs a task synchronously because its queue is full does not touch
the count. -/
def delta {α : Type} : Op α → Option α → Int
  | .async _, none => 1
  | .helperTake, some _ => -1
  | .ownTake, some _ => -1
  | _, _ => 0

/-- An operation on queue number `k`.
Puts together `delta` (libbuild2/scheduler.hxx:858) and what goes with it; no function of its own in the code. -/
def Sys.step {α : Type} (D : Nat) (s : Sys α) (k : Nat) (op : Op α) : Sys α × Option α :=
  match s.queues[k]? with
  | none => (s, none)
  | some m =>
    let (m', o) := m.step D op
    (⟨s.queues.set k m', s.queued + delta op o⟩, o)

/-- A history of operations on the queues of any number of threads; the result
also lists the tasks in the order in which they were started.
Puts together `Sys` (libbuild2/scheduler.hxx:988) and what goes with it; no function of its own in the code. -/
def Sys.run {α : Type} (D : Nat) : Sys α → List (Nat × Op α) → Sys α × List α
  | s, [] => (s, [])
  | s, (k, op) :: r =>
    let (s', o) := s.step D k op
    let (s'', t) := Sys.run D s' r
    (s'', o.toList ++ t)

/-- `n` threads, nothing queued.
Puts together `Sys` (libbuild2/scheduler.hxx:988) and what goes with it; no function of its own in the code. -/
def Sys.init {α : Type} (n : Nat) : Sys α := ⟨List.replicate n {}, 0⟩

/-- Everything that waits in some queue. Built on `Sys` (libbuild2/scheduler.hxx:988). -/
def Sys.waiting {α : Type} (D : Nat) (s : Sys α) : List α :=
  s.queues.flatMap (fun m => m.q.contents D)

end Verif.TaskQueue
