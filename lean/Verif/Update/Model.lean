import Verif.Depdb.Props

/-! Model of the update protocol of a rule that uses a dependency database (C04).

The protocol is that of `cli::compile_rule::perform_update` (libbuild2/cli/rule.cxx:215-339),
which is representative for the rules that keep everything in `perform_update`
(`bin/def-rule.cxx`, `in/rule.cxx`, `cc/link-rule.cxx`): load the target's modification time,
compare it with the prerequisites, validate the database by stating the expected lines, close
it, and, if anything is out of date, run the tool that produces the target.

The database is the byte-level model of `Verif.Depdb`.

Simplifications: one target with a fixed list of file prerequisites which are source files
(their state is `unchanged`); the tool is a function of the expected lines (options, compiler
checksum, ...) and of the contents of the prerequisites; inputs do not change while a run is
in progress. -/

namespace Verif.Update

open Verif.Depdb

/-- What is in the target file: the output of the tool for these lines and input contents, or
an incomplete file. Used by `dbSession` (libbuild2/cli/rule.cxx:244-269). -/
inductive Out where
  | full (lines : List Bytes) (inputs : List Nat)
  | incomplete
  deriving DecidableEq, Repr

/-- The file system and the configuration. Every file comes with its modification time.
Used by `dbSession` (libbuild2/cli/rule.cxx:244-269). -/
structure World where
  now    : Nat
  /-- the lines the rule expects in the database given the current configuration -/
  cfg    : List Bytes
  /-- the prerequisites: contents (as an abstract number) and modification times -/
  inputs : List (Nat × Nat)
  db     : Option (Bytes × Nat)
  tgt    : Option (Out × Nat)
  deriving Repr

/-- Where a run stops. Used by `run` (libbuild2/cli/rule.cxx:215-339). -/
inductive Stop where
  | complete
  /-- crash when the `n`-th content of the database file is on disk -/
  | duringDb (n : Nat)
  /-- crash (or dry run) after closing the database and before the target is touched -/
  | beforeTarget
  /-- crash with a partially written target -/
  | duringTarget
  deriving DecidableEq, Repr

/-- What a run concludes. Used by `run` (libbuild2/cli/rule.cxx:215-339). -/
inductive Result where
  | unchanged | changed | interrupted
  deriving DecidableEq, Repr

/-- `mtime_target::newer (mt, unchanged)` (libbuild2/target.ixx:802-815). -/
def newer (mp mt : Nat) : Bool := mt < mp

/-- `execute_prerequisites` (libbuild2/algorithm.cxx:4373-4414), whether the target is out of
date with respect to its modification time `mt` (`none` if it does not exist). -/
def outOfDate (inputs : List (Nat × Nat)) (mt : Option Nat) : Bool :=
  match mt with
  | none => true
  | some mt => inputs.any (fun i => newer i.2 mt)

/-- The database session of the rule (libbuild2/cli/rule.cxx:244-269). -/
def dbSession (w : World) : Db := (Db.open (w.db.map (·.1))).ops (w.cfg.map .expect)

/-- `dd.writing () || dd.mtime > mt` (libbuild2/cli/rule.cxx:272) or a prerequisite is newer
(line 234). If the database does not exist then `dd.mtime` is unknown, but then it is being
written. -/
def needsUpdate (w : World) : Bool :=
  outOfDate w.inputs (w.tgt.map (·.2)) ||
  decide ((dbSession w).st = .write) ||
  (match w.db, w.tgt with
   | some (_, dm), some (_, tm) => decide (dm > tm)
   | _, _ => false)

/-- The database file after the first `n + 1` contents have been on disk. The modification
time changes with the first modification. Used by `run` (libbuild2/cli/rule.cxx:215-339). -/
def dbAfter (w : World) (d : Db) (n : Nat) (t : Nat) : Option (Bytes × Nat) :=
  match d.hist.reverse[n]? with
  | none => w.db
  | some y => if n = 0 ∧ w.db.isSome then w.db else some (y, t)

/-- A run (libbuild2/cli/rule.cxx:215-339). The database is modified at the time `w.now + a`
and the target at `w.now + a + b`. -/
def run (w : World) (a b : Nat) (stop : Stop) : Result × World :=
  let d := (dbSession w).close
  let t := w.now + a
  let w1 := { w with now := t, db := dbAfter w d (d.hist.length - 1) t }
  match stop with
  | .duringDb n =>
      (.interrupted, { w with now := t, db := dbAfter w d n t })
  | .beforeTarget => (.interrupted, w1)
  | .duringTarget =>
      if needsUpdate w then
        (.interrupted, { w1 with now := t + b, tgt := some (.incomplete, t + b) })
      else (.interrupted, w1)
  | .complete =>
      if needsUpdate w then
        (.changed, { w1 with now := t + b,
                             tgt := some (.full w.cfg (w.inputs.map (·.1)), t + b) })
      else (.unchanged, w1)

/-- What can happen to the world. Built on `run` (libbuild2/cli/rule.cxx:215-339). -/
inductive Event where
  /-- a prerequisite is edited -/
  | edit (i : Nat) (v : Nat)
  /-- options, compilers, ... change -/
  | configure (ls : List Bytes)
  | removeDb
  | removeTarget
  /-- a run, with its internal delays and where it stops -/
  | run (a b : Nat) (stop : Stop)
  deriving Repr

/-- Time passes (`k` ticks) and something happens.
Puts together `run` (libbuild2/cli/rule.cxx:215-339) and what goes with it; no function of its own in the code. -/
def step (w : World) (k : Nat) (e : Event) : World :=
  let w := { w with now := w.now + k }
  match e with
  | .edit i v => if i < w.inputs.length then { w with inputs := w.inputs.set i (v, w.now) } else w
  | .configure ls => { w with cfg := ls }
  | .removeDb => { w with db := none }
  | .removeTarget => { w with tgt := none }
  | .run a b stop => (run w a b stop).2

/-- A history: each event together with the number of ticks before it. -/
def history (w : World) (es : List (Nat × Event)) : World :=
  es.foldl (fun w e => step w e.1 e.2) w

/-- Before the first run: no database and no target. -/
def start (cfg : List Bytes) (inputs : List (Nat × Nat)) (now : Nat) : World :=
  { now, cfg, inputs, db := none, tgt := none }

end Verif.Update
