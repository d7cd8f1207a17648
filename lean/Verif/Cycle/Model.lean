import Verif.Cycle.Spec

/-
Model of the detection of dependency cycles while matching.
  target_lock (stack of locks)  libbuild2/algorithm.hxx:184-247, algorithm.ixx:220-337
  dependency_cycle              libbuild2/algorithm.ixx:339-351
  lock_impl                     libbuild2/algorithm.cxx:257-313
  match_impl                    libbuild2/algorithm.cxx:1454-1549

Each locked target is matched by a task, which starts out with the stack of locks of
the task that needed this target (libbuild2/algorithm.cxx:1494-1528, or because it
is the same thread) and pushes its own.  The task asks for the targets that this one
depends on in any order, any number of them at a time, waits for those being matched
by others, and when all of them are matched, is done.  Any number of tasks run, and
are interleaved, arbitrarily.

Simplifications: what a target depends on is known in advance, `g`.  Matching does
not fail otherwise; the first report of a cycle ends the operation.  The stack is a
list (the linked list of target_lock objects with its moves is not modelled).
-/
namespace Verif.Cycle

/-- The state of a target for an action: not locked yet, locked (with the locks on the
stack below this one, innermost first, and what it still waits for) or applied;
libbuild2/target.hxx:905-926. -/
inductive St where
  | free
  | locked (up rem : List Key)
  | applied
  deriving DecidableEq, Repr

/-- Used by `Serial` (libbuild2/scheduler.txx:20-42). -/
structure S where
  st : Key → St
  /-- A cycle was reported. -/
  report : Option Key

/-- libbuild2/algorithm.ixx:339-351 dependency_cycle(): the lock of this target and
action on the stack. -/
def dependencyCycle (stack : List Key) (a t : Nat) : Option Key :=
  stack.find? fun l => l.action == a && l.target == t

/-- Change the state of one target. Built on `St` (libbuild2/target.hxx:905-926). -/
def set (f : Key → St) (k : Key) (v : St) : Key → St := fun x => if x = k then v else f x

/-- Used by `Serial` (libbuild2/scheduler.txx:20-42). -/
inductive Op where
  /-- Match a target of the operation. -/
  | root (k : Key)
  /-- The task of `k` asks for `d`. -/
  | ask (k d : Key)
  | finish (k : Key)

/-- A step; `none` if it is not possible, which includes waiting. -/
def step (g : Key → List Key) (s : S) : Op → Option S
  | .root k =>
    match s.st k with
    | .free => if s.report = none then some { s with st := set s.st k (.locked [] (g k)) } else none
    | _ => none
  | .ask k d =>
    match s.st k with
    | .locked up rem =>
      if s.report = none ∧ d ∈ rem then
        match s.st d with
        -- libbuild2/algorithm.cxx:309-312: already applied.
        | .applied => some { s with st := set s.st k (.locked up (rem.erase d)) }
        -- libbuild2/algorithm.cxx:260: compare-and-swap succeeds; algorithm.ixx:221-226: push.
        | .free => some { s with st := set s.st d (.locked (k :: up) (g d)) }
        -- libbuild2/algorithm.cxx:270-300
        | .locked _ _ =>
          match dependencyCycle (k :: up) d.action d.target with
          | some _ => some { s with report := some d }
          | none => none -- Wait.
      else none
    | _ => none
  | .finish k =>
    -- libbuild2/algorithm.cxx:359-372
    match s.st k with
    | .locked _ [] => if s.report = none then some { s with st := set s.st k .applied } else none
    | _ => none

/-- Nothing locked. -/
def init : S := { st := fun _ => .free, report := none }

/-- Reachable in some number of steps. -/
inductive Reach (g : Key → List Key) : Nat → S → Prop
  | init : Reach g 0 init
  | step {n : Nat} {s t : S} {o : Op} : Reach g n s → step g s o = some t → Reach g (n + 1) t

/-- The task of `k` is running: it is locked, and not waiting for another task to finish in
the same thread. Used by `Serial` (libbuild2/scheduler.txx:20-42). -/
def Top (s : S) (k : Key) : Prop :=
  ∃ up rem, s.st k = .locked up rem ∧ ∀ x up' rem', s.st x = .locked up' rem' → x ∈ k :: up

/-- Serial execution (-s, libbuild2/scheduler.txx:20-42): async() runs the task to the end,
so a task is started only by the innermost one. -/
def Serial (s : S) : Op → Prop
  | .root _ => ∀ x up rem, s.st x ≠ .locked up rem
  | .ask k _ => Top s k
  | .finish k => Top s k

/-- Puts together `Serial` (libbuild2/scheduler.txx:20-42) and what goes with it; no function of its own in the code. -/
inductive SReach (g : Key → List Key) : Nat → S → Prop
  | init : SReach g 0 init
  | step {n : Nat} {s t : S} {o : Op} : SReach g n s → Serial s o → step g s o = some t →
      SReach g (n + 1) t

end Verif.Cycle
