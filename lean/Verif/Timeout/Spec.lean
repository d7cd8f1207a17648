/-!
# Timeouts of scripts: the specification
-/

namespace Verif.Timeout

/-- When, and whether to assume success. -/
structure Deadline where
  value : Nat
  success : Bool
deriving DecidableEq, Repr

/-- The one that matters: earlier or, at the same time, the failing one. -/
def Deadline.Before (x y : Deadline) : Prop :=
  x.value < y.value ∨ (x.value = y.value ∧ x.success = false ∧ y.success = true)

/-- The one that matters of all of these. -/
def Nearest (ds : List Deadline) : Option Deadline → Prop
  | none => ds = []
  | some d => d ∈ ds ∧ ∀ e ∈ ds, ¬ e.Before d

/-! ## Where deadlines come from -/

/-- What `timeout` is told in a test group: the parts that are there, with
zero for clearing. -/
structure Setting where
  group : Option Nat
  test : Option Nat
deriving DecidableEq, Repr

/-- What is written: the group timeout or, around a slash, one or both. -/
def setting (num : List Char → Option Nat) (t : List Char) : Option Setting :=
  if '/' ∈ t then
    let part (s : List Char) : Option (Option Nat) :=
      if s = [] then some none else (num s).map some
    let a := t.takeWhile (· ≠ '/')
    let b := (t.dropWhile (· ≠ '/')).drop 1
    if a = [] ∧ b = [] then none
    else (part a).bind fun g => (part b).map fun t => ⟨g, t⟩
  else (num t).map fun n => ⟨some n, none⟩

/-- What happens: a timeout is set for the group at this level (0 is the
script, 1 is the group that is immediately in it, and so on) or for the rest
of the test, or a command of the test is about to run. -/
inductive Event where
  | group (level : Nat) (s : List Char) (success : Bool) (now : Nat)
  | test (s : List Char) (success : Bool) (now : Nat)
  | command (now : Nat)
deriving DecidableEq, Repr

/-- A nanosecond is the unit. -/
def second : Nat := 1000000000

/-- After these many seconds, if any. -/
def after (now sec : Nat) (success : Bool) : Option Deadline :=
  if sec = 0 then none else some ⟨now + sec * second, success⟩

/-- The last one that is set, if it is not cleared. -/
def lastSet {α : Type} (f : Event → Option (Option α)) (h : List Event) : Option α :=
  (h.reverse.findSome? f).join

/-- The deadline of the group at this level. -/
def groupSet (num : List Char → Option Nat) (level : Nat) : Event → Option (Option Deadline)
  | .group l s success now =>
    if l = level then
      ((setting num s).bind Setting.group).map fun n => after now n success
    else none
  | _ => none

/-- The timeout of tests in the group at this level, as a deadline from
zero. -/
def timeoutSet (num : List Char → Option Nat) (level : Nat) : Event → Option (Option Deadline)
  | .group l s success _ =>
    if l = level then
      ((setting num s).bind Setting.test).map fun n => after 0 n success
    else none
  | _ => none

/-- The deadline of the rest of the test. -/
def testSet (num : List Char → Option Nat) : Event → Option (Option Deadline)
  | .test s success now => (num s).map fun n => after now n success
  | _ => none

/-- The levels that a test at this depth is in. -/
def levels (depth : Nat) : List Nat := List.range (depth + 1)

/-- What applies to a command: the deadline of the test operation, those of
the groups when the test started, all the timeouts of tests from when it
started, and the deadline of the rest of the test. -/
def applicable (num : List Char → Option Nat) (op : Option Deadline) (cfg : Option Deadline) (depth : Nat)
    (before : List Event) (start : Nat) (all : List Event) : List Deadline :=
  op.toList ++ (levels depth).filterMap (fun l => lastSet (groupSet num l) before) ++
  (cfg.toList ++ (levels depth).filterMap (fun l => lastSet (timeoutSet num l) before)).map
    (fun d => ⟨start + d.value, d.success⟩) ++
  (lastSet (testSet num) all).toList

/-! ## Pipelines -/

inductive Exit where
  | code (n : Nat)
  | sigterm
  | sigkill
  | signal (n : Nat)
deriving DecidableEq, Repr

/-- What a process does if it is told to terminate: is terminated or exits by
itself after this time, or ignores it. -/
inductive Response where
  | dies (delay : Nat)
  | exits (delay : Nat) (code : Nat)
  | ignores
deriving DecidableEq, Repr

/-- A command of a pipeline. When it would finish if let to and how; what it
does if told to terminate (for a builtin, only when it finishes); when it is
started, with the deadline of its script and its own timeout; and what exit
is expected. -/
structure Cmd where
  builtin : Bool
  finish : Option Nat
  exit : Exit
  response : Response
  started : Nat
  env : Option Deadline
  timeout : Option Deadline
  expected : Nat
  eq : Bool
deriving DecidableEq, Repr

/-- The deadline of its own. -/
def Cmd.own (c : Cmd) : Option Deadline :=
  c.timeout.map fun t => ⟨c.started + t.value, t.success⟩

/-- The deadlines that apply to the last of these commands. -/
def Cmd.all (cs : List Cmd) : List Deadline :=
  cs.flatMap fun c => c.env.toList ++ c.own.toList

/-- Finishes by itself by then. -/
def Cmd.By (c : Cmd) (t : Nat) : Prop := ∃ f, c.finish = some f ∧ f ≤ t

/-- With no timeouts. -/
def Cmd.untimed (c : Cmd) : Cmd := { c with env := none, timeout := none }

/-- As expected. -/
def Cmd.AsExpected (c : Cmd) (n : Nat) : Prop := if c.eq then n = c.expected else n ≠ c.expected

/-- What comes out of a pipeline: the script fails, or the pipeline succeeds
or not. It can also never end, and the build system can abort. -/
inductive Outcome where
  | fails
  | result (ok : Bool)
  | hangs
  | aborts
deriving DecidableEq, Repr

end Verif.Timeout
