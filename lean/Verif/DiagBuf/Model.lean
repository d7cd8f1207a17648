import Verif.DiagBuf.Spec

/-!
# Diagnostics of commands: model

`diag_buffer`, `libbuild2/diagnostics.{hxx,ixx,cxx}`, with the processes that write to the
other ends of the pipes.  Simplified: input and output don't fail; blocking and non-blocking
reading are the same, that is, any part of what has arrived is read at a time; fragments are
only written before the process is read from.
-/

namespace Verif.DiagBuf

/-- `nobuf`, `libbuild2/diagnostics.cxx` 648-655 and `diagnostics.ixx` 80-84. -/
def nobuf (g : Cfg) : Bool := !g.serial && g.noDiagBuffer

/-- Whether `pipe ()` asks for a pipe (-1), `libbuild2/diagnostics.ixx` 68-72. -/
def piped (g : Cfg) (c : Cmd) : Bool :=
  !((g.serial || g.noDiagBuffer) && !c.forcePipe)

/-- `(serial || nobuf) && !force`, `libbuild2/diagnostics.cxx` 722 and 817. -/
def streaming (g : Cfg) (c : Cmd) : Bool := (g.serial || nobuf g) && !c.forceBuffer

/-- Where to go on once pieces have been written: the caller of `write ()`, the loop in
`read ()`, its end, or the end of `close ()`, `libbuild2/diagnostics.cxx` 750-754, 821-824,
922-937. -/
inductive Next
  | opened
  | reading
  | eof
  | closed
  deriving DecidableEq, Repr

/-- Where the execution of a command is; the states of `diag_buffer`,
`libbuild2/diagnostics.hxx`, with the positions in `read ()`, `write ()` and `close ()`,
`libbuild2/diagnostics.cxx` 690-937. -/
inductive Pc
  /-- Between `open ()` and the call to `read ()`. -/
  | opened
  /-- In `read ()`. -/
  | reading
  /-- In `read ()` of serial execution, with the lock, `libbuild2/diagnostics.cxx` 742-743. -/
  | copying
  /-- `read ()` has returned. -/
  | eof
  /-- About to write the pieces, with the lock for each. -/
  | emit (ps : List (List Char)) (k : Next)
  /-- Writing a piece with the lock. -/
  | hold (w : List Char) (ps : List (List Char)) (k : Next)
  deriving DecidableEq, Repr

/-- The position to go on at, `libbuild2/diagnostics.cxx` 750-754, 821-824, 922-937. -/
def Next.pc : Next → Pc
  | .opened => .opened
  | .reading => .reading
  | .eof => .eof
  | .closed => .emit [] .closed

/-- Execution of a command: what the process has yet to write, what is in the pipe, the
buffer, the fragments to be written, the line that is being read, and the position;
`libbuild2/diagnostics.hxx` 1085-1120. -/
structure Run where
  left : List Char
  pipe : List Char
  buf : List Char
  todo : List (List Char × Bool)
  line : List Char
  pc : Pc
  deriving DecidableEq, Repr

/-- `open ()`, `libbuild2/diagnostics.cxx` 644-671: the process has been started. -/
def start (c : Cmd) : Run := ⟨c.child, [], [], c.writes, [], .opened⟩

/-- After the last command (of the model). Used by `load` (libbuild2/diagnostics.cxx). -/
def idle : Run := ⟨[], [], [], [], [], .opened⟩

/-- Execution of the command at the position: `open ()` for the next command,
`libbuild2/diagnostics.cxx` 644-671. -/
def load (cs : List Cmd) (i : Nat) : Run :=
  match cs[i]? with
  | some c => start c
  | none => idle

/-- `write ()`, `libbuild2/diagnostics.cxx` 810-840. -/
def write (g : Cfg) (c : Cmd) (r : Run) (w : List Char × Bool) (t : List (List Char × Bool)) :
    Run :=
  if streaming g c then
    { r with todo := t, pc := .emit [w.1 ++ (if w.2 then ['\n'] else [])] .opened }
  else
    { r with todo := t, buf := r.buf ++ w.1 ++ (if w.2 then ['\n'] else []) }

/-- The pieces that `close ()` writes, `libbuild2/diagnostics.cxx` 922-937: the buffer and
the record with the lock taken once. -/
def closing (c : Cmd) (buf : List Char) : List (List Char) :=
  match c.record with
  | none => if buf = [] then [] else [buf]
  | some t => [buf ++ t ++ ['\n']]

/-- Reading while streaming in parallel, `libbuild2/diagnostics.cxx` 745-754: a character of
the line. -/
def readChar (r : Run) (x : Char) (p : List Char) : Run :=
  if x = '\n' then
    { r with pipe := p, line := [], pc := .emit [r.line ++ ['\n']] .reading }
  else { r with pipe := p, line := r.line ++ [x] }

/-- The same at the end, `libbuild2/diagnostics.cxx` 750 (`getline ()` only fails if there is
nothing): the line without a newline, if any, is written like the others. -/
def readEnd (r : Run) : Run :=
  if r.line = [] then { r with pc := .eof }
  else { r with line := [], pc := .emit [r.line ++ ['\n']] .eof }

/-- Steps of a job that neither take the lock nor write to the stream,
`libbuild2/diagnostics.cxx` 690-937. -/
inductive Local (g : Cfg) (c : Cmd) : Run → Run → Prop
  /-- A fragment, `libbuild2/diagnostics.cxx` 810-840. -/
  | write {r w t} (hp : r.pc = .opened) (ht : r.todo = w :: t) : Local g c r (write g c r w t)
  /-- `read ()` is called. -/
  | call {r} (hp : r.pc = .opened) (ht : r.todo = []) : Local g c r { r with pc := .reading }
  /-- The stream is not open, `libbuild2/diagnostics.cxx` 801-802. -/
  | none {r} (hp : r.pc = .reading) (hn : piped g c = false) :
      Local g c r { r with pc := .eof }
  /-- Part of what has arrived is copied, `libbuild2/diagnostics.cxx` 762-763 and 784-785. -/
  | copy {r p q} (hp : r.pc = .reading) (hi : piped g c = true) (hs : streaming g c = false)
      (hq : r.pipe = p ++ q) (hn : p ≠ []) : Local g c r { r with pipe := q, buf := r.buf ++ p }
  /-- A character is read, `libbuild2/diagnostics.cxx` 750. -/
  | char {r x p} (hp : r.pc = .reading) (hi : piped g c = true) (hs : streaming g c = true)
      (hser : g.serial = false) (hq : r.pipe = x :: p) : Local g c r (readChar r x p)
  /-- The process has closed its end and there is nothing left. -/
  | last {r} (hp : r.pc = .reading) (hi : piped g c = true) (hq : r.pipe = [])
      (hl : r.left = []) : Local g c r (readEnd r)
  /-- `close ()` after the process has exited. -/
  | close {r} (hp : r.pc = .eof) (hl : r.left = []) :
      Local g c r { r with buf := [], pc := .emit (closing c r.buf) .closed }
  /-- All the pieces have been written. -/
  | goOn {r k} (hp : r.pc = .emit [] k) (hk : k ≠ .closed) : Local g c r { r with pc := k.pc }

/-- A job (of the model): the position of the command and its execution.
Used by `St` (libbuild2/diagnostics.hxx). -/
structure Job where
  idx : Nat
  run : Run
  deriving DecidableEq, Repr

/-- The state: who has the lock of the diagnostics stream, the stream, and the jobs;
`libbuild2/diagnostics.hxx`, `diag_stream_lock`. -/
structure St where
  lock : Option Nat
  out : List (Id × Char)
  job : Nat → Job

/-- The state with the execution of a job changed (a helper of the model).
Used by `Step` (libbuild2/diagnostics.cxx). -/
def St.setRun (s : St) (j : Nat) (r : Run) : St :=
  { s with job := fun i => if i = j then ⟨(s.job j).idx, r⟩ else s.job i }

/-- The command that a job is executing (a helper of the model).
Used by `Step` (libbuild2/diagnostics.cxx). -/
def Cur (cmds : Nat → List Cmd) (s : St) (j : Nat) (c : Cmd) : Prop :=
  (cmds j)[(s.job j).idx]? = some c

/-- The identity of what a job is executing (a helper of the model).
Used by `Step` (libbuild2/diagnostics.cxx). -/
def St.id (s : St) (j : Nat) : Id := (j, (s.job j).idx)

/-- The initial state: nothing is written, the first commands have been started,
`libbuild2/diagnostics.cxx` 644-671. -/
def init (cmds : Nat → List Cmd) : St := ⟨none, [], fun j => ⟨0, load (cmds j) 0⟩⟩

/-- Steps of everything: processes and the functions of `diag_buffer` in parallel,
`libbuild2/diagnostics.cxx` 690-937. -/
inductive Step (g : Cfg) (cmds : Nat → List Cmd) : St → St → Prop
  /-- A process writes to its pipe unless it is full. -/
  | child {s j c x l} (hc : Cur cmds s j c) (hi : piped g c = true)
      (hl : (s.job j).run.left = x :: l) (hr : (s.job j).run.pipe.length < g.cap) :
      Step g cmds s (s.setRun j
        { (s.job j).run with left := l, pipe := (s.job j).run.pipe ++ [x] })
  /-- A process writes to the stream directly. -/
  | direct {s j c x l} (hc : Cur cmds s j c) (hi : piped g c = false)
      (hl : (s.job j).run.left = x :: l) :
      Step g cmds s { s.setRun j { (s.job j).run with left := l } with
        out := s.out ++ [(s.id j, x)] }
  /-- A job goes on by itself. -/
  | local {s j c r} (hc : Cur cmds s j c) (h : Local g c (s.job j).run r) :
      Step g cmds s (s.setRun j r)
  /-- The lock for a piece, `diag_stream_lock`. -/
  | acquire {s j c w ps k} (hc : Cur cmds s j c) (hl : s.lock = none)
      (hp : (s.job j).run.pc = .emit (w :: ps) k) :
      Step g cmds s { s.setRun j { (s.job j).run with pc := .hold w ps k } with
        lock := some j }
  /-- A character of the piece is written. -/
  | put {s j c x w ps k} (hc : Cur cmds s j c)
      (hp : (s.job j).run.pc = .hold (x :: w) ps k) :
      Step g cmds s { s.setRun j { (s.job j).run with pc := .hold w ps k } with
        out := s.out ++ [(s.id j, x)] }
  /-- The lock is released. -/
  | release {s j c ps k} (hc : Cur cmds s j c)
      (hp : (s.job j).run.pc = .hold [] ps k) :
      Step g cmds s { s.setRun j { (s.job j).run with pc := .emit ps k } with
        lock := none }
  /-- The lock for the whole of what the process writes, `libbuild2/diagnostics.cxx`
  732-742: something has arrived. -/
  | copyBegin {s j c} (hc : Cur cmds s j c) (hl : s.lock = none)
      (hp : (s.job j).run.pc = .reading) (hi : piped g c = true)
      (hs : streaming g c = true) (hser : g.serial = true)
      (hq : (s.job j).run.pipe ≠ []) :
      Step g cmds s { s.setRun j { (s.job j).run with pc := .copying } with lock := some j }
  /-- A character of it, `libbuild2/diagnostics.cxx` 743. -/
  | copyPut {s j c x p} (hc : Cur cmds s j c) (hp : (s.job j).run.pc = .copying)
      (hq : (s.job j).run.pipe = x :: p) :
      Step g cmds s { s.setRun j { (s.job j).run with pipe := p } with
        out := s.out ++ [(s.id j, x)] }
  /-- The end of it. -/
  | copyEnd {s j c} (hc : Cur cmds s j c) (hp : (s.job j).run.pc = .copying)
      (hq : (s.job j).run.pipe = []) (hl : (s.job j).run.left = []) :
      Step g cmds s { s.setRun j { (s.job j).run with pc := .eof } with lock := none }
  /-- The next command. -/
  | next {s j c} (hc : Cur cmds s j c) (hp : (s.job j).run.pc = .emit [] .closed) :
      Step g cmds s { s with job := fun i =>
        if i = j then ⟨(s.job j).idx + 1, load (cmds j) ((s.job j).idx + 1)⟩ else s.job i }

/-- States reachable from the initial one by any interleaving of steps.
Puts together `Step` (libbuild2/diagnostics.cxx) and what goes with it; no function of its own in the code. -/
inductive Reach (g : Cfg) (cmds : Nat → List Cmd) : St → Prop
  | init : Reach g cmds (DiagBuf.init cmds)
  | step {s s'} (h : Reach g cmds s) (t : Step g cmds s s') : Reach g cmds s'

end Verif.DiagBuf
