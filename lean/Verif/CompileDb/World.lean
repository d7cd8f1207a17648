import Verif.CompileDb.Model
/-!
# The compilation database: the builds that use it
-/

namespace Verif.CompileDb

variable {O C : Type} [DecidableEq O] [DecidableEq C]

/-- The database and what is around it: the command lines that the outputs
should be compiled with, the ones that their dependency databases
(libbuild2/cc/compile-rule.cxx 1228-1345) say they have been, and what has
happened. -/
structure World (O C : Type) where
  want : O → C
  dep : O → Option C
  cdb : Cdb O
  /-- Checked since the end of the last update of the main context. -/
  seen : List O
  /-- Found to have changed since the end of the last update. -/
  owed : List O
  /-- Said by the database to have to be compiled, since then. -/
  forced : List O
  /-- Compiled since then. -/
  done : List O

/-- One event. A check compares the command line with the one recorded and
records it (libbuild2/cc/compile-rule.cxx 1228-1373). -/
def step (F : Format O C) (w : World O C) : Event O C → Except Fault (World O C)
  | .edit f => .ok { w with want := f }
  | .forget o => .ok { w with dep := fun x => if x = o then none else w.dep x }
  | .start => .ok { w with cdb := fresh w.cdb, seen := [], owed := [], forced := [], done := [] }
  | .pre =>
    match pre F.outputOf w.cdb with
    | .error e => .error e
    | .ok c => .ok { w with cdb := c }
  | .check o =>
    let changed : Bool := w.dep o ≠ some (w.want o)
    match «match» w.cdb o changed with
    | .error e => .error e
    | .ok (c, force) =>
      .ok { w with
        cdb := c
        dep := fun x => if x = o then some (w.want o) else w.dep x
        seen := o :: w.seen
        owed := if changed then o :: w.owed else w.owed
        forced := if force then o :: w.forced else w.forced }
  | .compile o =>
    match execute w.cdb o (F.js o (w.want o)) with
    | .error e => .error e
    | .ok c => .ok { w with cdb := c, done := o :: w.done }
  | .post p =>
    match post false w.cdb p with
    | .error e => .error e
    | .ok c =>
      if w.cdb.nesting = 1 then
        .ok { w with
          cdb := c
          seen := if p.nested || p.duringLoad then w.seen else []
          owed := []
          forced := []
          done := [] }
      else .ok { w with cdb := c }

/-- What builds do. Nothing else changes while a process runs; updates are
nested and after a failure the process ends; what the database says has to be
compiled is compiled before it is checked again and before the end of an
update that has not failed. -/
def Protocol (w : World O C) : Event O C → Prop
  | .edit _ => w.cdb.state = .closed
  | .forget _ => w.cdb.state = .closed
  | .start => True
  | .pre => w.cdb.state ≠ .failed
  | .check o => w.cdb.state = .open ∧ w.cdb.nesting ≠ 0 ∧ (o ∈ w.forced → o ∈ w.done)
  | .compile o => w.cdb.state = .open ∧ w.cdb.nesting ≠ 0 ∧ o ∈ w.seen
  | .post p => w.cdb.state = .open ∧ w.cdb.nesting ≠ 0 ∧
    (w.cdb.nesting = 1 → p.failed = false → ∀ o ∈ w.forced, o ∈ w.done)

/-- No interruptions: what has been found to have changed is compiled before
the end of the update, failed or not, and a process does not end in the middle
of that. -/
def Uninterrupted (w : World O C) : Event O C → Prop
  | .start => w.owed = []
  | .post _ => w.cdb.nesting = 1 → ∀ o ∈ w.owed, o ∈ w.done
  | _ => True

/-- Before anything has been built. -/
def World.init (want : O → C) : World O C :=
  ⟨want, fun _ => none, ⟨.closed, 0, [], 0, false, none, 0⟩, [], [], [], []⟩

/-- What builds lead to. -/
inductive Reach (F : Format O C) : World O C → Prop
  | init (want : O → C) : Reach F (World.init want)
  | step {w w' : World O C} {e : Event O C} : Reach F w → Protocol w e → Uninterrupted w e →
      step F w e = .ok w' → Reach F w'

/-- The line of an output in the file. -/
def onDisk (F : Format O C) (w : World O C) (o : O) : Option Line :=
  match w.cdb.file with
  | none => none
  | some text => look ((load F.outputOf text).getD []) o

end Verif.CompileDb
