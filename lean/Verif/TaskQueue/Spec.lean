/-
Specification of a per-thread task queue, independent of how the queue is
implemented: a plain list of the waiting tasks, each with the nesting level at
which its owner queued it.  The specification observes the calls made on the
queue and which task, if any, starts running as the result of each of them.
-/
namespace Verif.TaskQueue

/-- What can be done with a thread's queue. -/
inductive Op (α : Type) where
  /-- The owner starts task `x` asynchronously. -/
  | async (x : α)
  /-- A helper thread looks for a task in this queue. -/
  | helperTake
  /-- The owner, while waiting, looks for one of its own tasks. -/
  | ownTake
  /-- The owner sets a queue mark (it is about to do something unrelated to
  the tasks queued so far). -/
  | setMark
  /-- The owner finishes what it started last: a task it took, a task it ran
  synchronously, or the region of the last queue mark. -/
  | leave
  deriving DecidableEq

/-- Waiting tasks (oldest first) with the level at which they were queued, and
the number of nested activities of the owner. -/
structure Spec (α : Type) where
  items : List (Nat × α)
  lvl : Nat

inductive Verdict (α : Type) where
  /-- The user broke the rules (left an activity whose tasks still wait). -/
  | illegal
  /-- The queue misbehaved. -/
  | wrong
  | ok (s : Spec α)

/-- The tasks of the current activity that are still waiting. -/
def Spec.own {α : Type} (s : Spec α) : List (Nat × α) :=
  s.items.filter (fun i => i.1 = s.lvl)

/-- One call and what was observed (the task that started running). `D` is the
capacity. -/
def Spec.step {α : Type} [DecidableEq α] (D : Nat) (s : Spec α) : Op α → Option α → Verdict α
  -- Queued if there is room.
  | .async x, none =>
    if s.items.length < D then .ok { s with items := s.items ++ [(s.lvl, x)] } else .wrong
  -- Otherwise this very task is run right away, as a nested activity.
  | .async x, some y =>
    if s.items.length = D ∧ y = x then .ok { s with lvl := s.lvl + 1 } else .wrong
  -- A helper gets the oldest task.
  | .helperTake, o =>
    match s.items, o with
    | [], none => .ok s
    | i :: r, some y => if y = i.2 then .ok { s with items := r } else .wrong
    | _, _ => .wrong
  -- The owner gets its most recent task provided it belongs to the current
  -- activity.
  | .ownTake, some y =>
    match s.items.getLast? with
    | none => .wrong
    | some i =>
      if i.1 = s.lvl ∧ y = i.2 then .ok ⟨s.items.dropLast, s.lvl + 1⟩ else .wrong
  -- It is told that there is nothing to take only if the current activity has
  -- no waiting tasks or if all the waiting tasks belong to it (see
  -- `own_take_not_exact` for why the second case is there).
  | .ownTake, none =>
    if s.own = [] ∨ s.own = s.items then .ok s else .wrong
  | .setMark, none => .ok { s with lvl := s.lvl + 1 }
  | .setMark, some _ => .wrong
  -- An activity may only be left when all its tasks have been taken.
  | .leave, none =>
    if s.lvl = 0 ∨ s.own ≠ [] then .illegal else .ok { s with lvl := s.lvl - 1 }
  | .leave, some _ => .wrong

/-- Judge a whole history of calls and observations. -/
def Spec.run {α : Type} [DecidableEq α] (D : Nat) : Spec α → List (Op α × Option α) → Verdict α
  | s, [] => .ok s
  | s, (op, o) :: r =>
    match s.step D op o with
    | .ok s' => Spec.run D s' r
    | v => v

def Spec.init {α : Type} : Spec α := ⟨[], 0⟩

/-- The tasks started asynchronously by a list of calls. -/
def asyncs {α : Type} : List (Op α) → List α
  | [] => []
  | .async x :: r => x :: asyncs r
  | _ :: r => asyncs r

end Verif.TaskQueue
