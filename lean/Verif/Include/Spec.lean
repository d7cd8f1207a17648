/-!
# Buildfiles that source, include and import one another: specification

What is said here does not depend on how the parser keeps track of where it is: what a directive
means is stated by a relation between what has been loaded before it and what has been loaded
after it, in a context that says which files are open.
-/

namespace Verif.Include

/-- A target that is declared: an ordinary one or the target of a directory. -/
inductive Tgt
  | other (n : Nat)
  | dir (d : Nat)
  deriving DecidableEq, Repr

/-- How a buildfile has been entered. -/
inductive How
  | source | incl | imp
  deriving DecidableEq, Repr

/-- What loading does, in the order in which it is done: the body of a file is entered, a target
is declared (inside a conditional fragment of the buildfile or not). -/
inductive Ev
  | enter (h : How) (p : Nat)
  | decl (t : Tgt) (cond : Bool)
  deriving DecidableEq, Repr

/-- A buildfile: a sequence of directives, each with the rest of the sequence. Conditions and
the number of elements in a loop may depend on anything that has happened before. A target
declared without a name is the one of the current directory (`./`). -/
inductive Code
  | nil
  | decl (t : Option Nat) (rest : Code)
  | source (p : Nat) (nodt acyc : Bool) (rest : Code)
  | incl (p : Nat) (acyc : Bool) (rest : Code)
  | imp (p : Nat) (nodt once : Bool) (rest : Code)
  | cond (q : List Ev → Bool) (body rest : Code)
  | loop (q : List Ev → Nat) (body rest : Code)
  | ctl (brk : Bool) (rest : Code)

/-- A project: its buildfiles, the directory that each is for, and whether it requires a version
of the build system that has the check for cycles. -/
structure Proj where
  files : List Code
  dirOf : Nat → Nat
  check : Bool

/-- What can be wrong. -/
inductive Err
  | cycle (p : Nat)
  | read (p : Nat)
  | outside
  | assert
  deriving DecidableEq, Repr

/-- The context of a directive: the file it is in; the directives of other files that are being
executed, innermost first, each with the file it is in and whether it is marked with
`allow_cycle`; the directory; whether it is inside a loop that it could leave; whether it is
inside a conditional fragment. -/
structure Ctx where
  file : Nat
  outer : List (Nat × Bool)
  dir : Nat
  inLoop : Bool
  cond : Bool

/-- What has been loaded: the files that are not to be included again, what has happened, and
the directories that have a target, with the one it stands for if it has been made up. -/
structure W where
  inserted : List Nat
  log : List Ev
  dirs : List (Nat × Option Tgt)

/-- What executing a sequence of directives comes to, with the targets that it declares for the
purpose of finding the default one. -/
inductive Out
  | done (w : W) (own : List Tgt)
  | jump (brk : Bool) (w : W) (own : List Tgt)
  | fail (e : Err)

/-- The same after having declared `l`. -/
def Out.pre (l : List Tgt) : Out → Out
  | done w own => done w (l ++ own)
  | jump b w own => jump b w (l ++ own)
  | fail e => fail e

/-- Entering `p` with a directive that isn't marked would be a cycle: `p` is open and none of the
directives that lead from it to here is marked. -/
def Cyclic (c : Ctx) (p : Nat) : Prop :=
  p = c.file ∨
  ∃ pre post, c.outer = pre ++ (p, false) :: post ∧ ∀ x ∈ pre, x.2 = false

/-- A directory has a target. -/
def W.has (w : W) (d : Nat) : Prop := ∃ t, (d, t) ∈ w.dirs

/-- The directory has the target that it has been given explicitly, unless it has one. -/
inductive Explicit (d : Nat) : W → W → Prop
  | old {w} : w.has d → Explicit d w w
  | new {w} : ¬ w.has d → Explicit d w { w with dirs := w.dirs ++ [(d, none)] }

/-- The first of the targets of a buildfile becomes what the target of the directory stands for,
unless there is none or the directory has a target. -/
inductive Default (d : Nat) (own : List Tgt) : W → W → Prop
  | none {w} : own = [] → Default d own w w
  | old {w} : w.has d → Default d own w w
  | new {w} {t : Tgt} {ts} : own = t :: ts → ¬ w.has d →
      Default d own w { w with dirs := w.dirs ++ [(d, some t)] }

/-- Something happens. -/
def W.add (w : W) (e : Ev) : W := { w with log := w.log ++ [e] }

/-- A file is not to be included again. -/
def W.ins (w : W) (p : Nat) : W :=
  { w with inserted := if p ∈ w.inserted then w.inserted else w.inserted ++ [p] }

/-- A sequence of directives or that many repetitions of one. -/
inductive Task
  | code (c : Code)
  | reps (n : Nat) (c : Code)

/-- The context of a file that is entered with a directive. -/
def Ctx.into (c : Ctx) (p : Nat) (acyc : Bool) : Ctx :=
  { c with file := p, outer := (c.file, acyc) :: c.outer }

/-- The meaning of buildfiles. -/
inductive Eval (P : Proj) : Ctx → Task → W → Out → Prop
  | nil {c w} : Eval P c (.code .nil) w (.done w [])
  -- A target is declared.
  | declOther {c n rest w o} :
      Eval P c (.code rest) (w.add (.decl (.other n) c.cond)) o →
      Eval P c (.code (.decl (some n) rest)) w (o.pre [.other n])
  | declDir {c rest w w1 o} :
      Explicit c.dir (w.add (.decl (.dir c.dir) c.cond)) w1 →
      Eval P c (.code rest) w1 o →
      Eval P c (.code (.decl none rest)) w (o.pre [.dir c.dir])
  -- A file is sourced: as if its text were here, except that with `no_default_target` its
  -- targets don't count.
  | sourceCycle {c p nodt rest w} :
      P.check = true → Cyclic c p →
      Eval P c (.code (.source p nodt false rest)) w (.fail (.cycle p))
  | sourceRead {c p nodt acyc rest w} :
      (acyc = true ∨ P.check = false ∨ ¬ Cyclic c p) → P.files[p]? = none →
      Eval P c (.code (.source p nodt acyc rest)) w (.fail (.read p))
  | sourceDone {c p nodt acyc rest w code w1 own o} :
      (acyc = true ∨ P.check = false ∨ ¬ Cyclic c p) → P.files[p]? = some code →
      Eval P (c.into p acyc) (.code code) (w.add (.enter .source p)) (.done w1 own) →
      Eval P c (.code rest) w1 o →
      Eval P c (.code (.source p nodt acyc rest)) w (o.pre (if nodt then [] else own))
  | sourceJump {c p nodt acyc rest w code b w1 own} :
      (acyc = true ∨ P.check = false ∨ ¬ Cyclic c p) → P.files[p]? = some code →
      Eval P (c.into p acyc) (.code code) (w.add (.enter .source p)) (.jump b w1 own) →
      Eval P c (.code (.source p nodt acyc rest)) w (.jump b w1 (if nodt then [] else own))
  | sourceFail {c p nodt acyc rest w code e} :
      (acyc = true ∨ P.check = false ∨ ¬ Cyclic c p) → P.files[p]? = some code →
      Eval P (c.into p acyc) (.code code) (w.add (.enter .source p)) (.fail e) →
      Eval P c (.code (.source p nodt acyc rest)) w (.fail e)
  -- A file is included: once, in its own directory, with its own default target, and
  -- independent of the loops and conditions around the directive.
  | inclCycle {c p rest w} :
      P.check = true → Cyclic c p →
      Eval P c (.code (.incl p false rest)) w (.fail (.cycle p))
  | inclSkip {c p acyc rest w o} :
      (acyc = true ∨ P.check = false ∨ ¬ Cyclic c p) → p ∈ w.inserted →
      Eval P c (.code rest) w o →
      Eval P c (.code (.incl p acyc rest)) w o
  | inclRead {c p acyc rest w} :
      (acyc = true ∨ P.check = false ∨ ¬ Cyclic c p) → p ∉ w.inserted → P.files[p]? = none →
      Eval P c (.code (.incl p acyc rest)) w (.fail (.read p))
  | inclDone {c p acyc rest w code w1 own w2 o} :
      (acyc = true ∨ P.check = false ∨ ¬ Cyclic c p) → p ∉ w.inserted →
      P.files[p]? = some code →
      Eval P { c.into p acyc with dir := P.dirOf p, inLoop := false, cond := false } (.code code)
        ((w.ins p).add (.enter .incl p)) (.done w1 own) →
      Default (P.dirOf p) own w1 w2 →
      Eval P c (.code rest) w2 o →
      Eval P c (.code (.incl p acyc rest)) w o
  | inclFail {c p acyc rest w code e} :
      (acyc = true ∨ P.check = false ∨ ¬ Cyclic c p) → p ∉ w.inserted →
      P.files[p]? = some code →
      Eval P { c.into p acyc with dir := P.dirOf p, inLoop := false, cond := false } (.code code)
        ((w.ins p).add (.enter .incl p)) (.fail e) →
      Eval P c (.code (.incl p acyc rest)) w (.fail e)
  -- A file of another project is imported: in the current directory, independent of the loops
  -- and conditions around the directive, and not again if so specified.
  | impCycle {c p nodt once rest w} :
      P.check = true → Cyclic c p →
      Eval P c (.code (.imp p nodt once rest)) w (.fail (.cycle p))
  | impSkip {c p nodt rest w o} :
      (P.check = false ∨ ¬ Cyclic c p) → p ∈ w.inserted →
      Eval P c (.code rest) w o →
      Eval P c (.code (.imp p nodt true rest)) w o
  | impRead {c p nodt once rest w} :
      (P.check = false ∨ ¬ Cyclic c p) → (once = true → p ∉ w.inserted) → P.files[p]? = none →
      Eval P c (.code (.imp p nodt once rest)) w (.fail (.read p))
  | impDone {c p nodt once rest w code w1 own o} :
      (P.check = false ∨ ¬ Cyclic c p) → (once = true → p ∉ w.inserted) →
      P.files[p]? = some code →
      Eval P { c.into p false with inLoop := false, cond := false } (.code code)
        ((w.ins p).add (.enter .imp p)) (.done w1 own) →
      Eval P c (.code rest) w1 o →
      Eval P c (.code (.imp p nodt once rest)) w (o.pre (if nodt then [] else own))
  | impFail {c p nodt once rest w code e} :
      (P.check = false ∨ ¬ Cyclic c p) → (once = true → p ∉ w.inserted) →
      P.files[p]? = some code →
      Eval P { c.into p false with inLoop := false, cond := false } (.code code)
        ((w.ins p).add (.enter .imp p)) (.fail e) →
      Eval P c (.code (.imp p nodt once rest)) w (.fail e)
  -- Conditions.
  | condFalse {c q body rest w o} : q w.log = false →
      Eval P c (.code rest) w o → Eval P c (.code (.cond q body rest)) w o
  | condDone {c q body rest w w1 own o} : q w.log = true →
      Eval P { c with cond := true } (.code body) w (.done w1 own) →
      Eval P c (.code rest) w1 o → Eval P c (.code (.cond q body rest)) w (o.pre own)
  | condJump {c q body rest w b w1 own} : q w.log = true →
      Eval P { c with cond := true } (.code body) w (.jump b w1 own) →
      Eval P c (.code (.cond q body rest)) w (.jump b w1 own)
  | condFail {c q body rest w e} : q w.log = true →
      Eval P { c with cond := true } (.code body) w (.fail e) →
      Eval P c (.code (.cond q body rest)) w (.fail e)
  -- Loops.
  | loopDone {c q body rest w w1 own o} :
      Eval P { c with inLoop := true } (.reps (q w.log) body) w (.done w1 own) →
      Eval P c (.code rest) w1 o → Eval P c (.code (.loop q body rest)) w (o.pre own)
  | loopFail {c q body rest w e} :
      Eval P { c with inLoop := true } (.reps (q w.log) body) w (.fail e) →
      Eval P c (.code (.loop q body rest)) w (.fail e)
  | zero {c body w} : Eval P c (.reps 0 body) w (.done w [])
  | next {c n body w w1 own o} :
      Eval P c (.code body) w (.done w1 own) → Eval P c (.reps n body) w1 o →
      Eval P c (.reps (n + 1) body) w (o.pre own)
  | cont {c n body w w1 own o} :
      Eval P c (.code body) w (.jump false w1 own) → Eval P c (.reps n body) w1 o →
      Eval P c (.reps (n + 1) body) w (o.pre own)
  | brk {c n body w w1 own} :
      Eval P c (.code body) w (.jump true w1 own) →
      Eval P c (.reps (n + 1) body) w (.done w1 own)
  | bodyFail {c n body w e} :
      Eval P c (.code body) w (.fail e) → Eval P c (.reps (n + 1) body) w (.fail e)
  | ctl {c b rest w} : c.inLoop = true → Eval P c (.code (.ctl b rest)) w (.jump b w [])
  | ctlOutside {c b rest w} : c.inLoop = false →
      Eval P c (.code (.ctl b rest)) w (.fail .outside)

/-- The context of a buildfile that is loaded on its own. -/
def top (P : Proj) (p : Nat) : Ctx := ⟨p, [], P.dirOf p, false, false⟩

/-- Nothing is loaded but the buildfile `p`. -/
def fresh (p : Nat) : W := ⟨[p], [], []⟩

/-- No `source` directive is marked with `allow_cycle`. -/
def Code.Unmarked : Code → Prop
  | nil => True
  | decl _ rest => rest.Unmarked
  | source _ _ acyc rest => acyc = false ∧ rest.Unmarked
  | incl _ _ rest => rest.Unmarked
  | imp _ _ _ rest => rest.Unmarked
  | cond _ body rest => body.Unmarked ∧ rest.Unmarked
  | loop _ body rest => body.Unmarked ∧ rest.Unmarked
  | ctl _ rest => rest.Unmarked

end Verif.Include
