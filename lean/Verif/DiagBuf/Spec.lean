/-!
# Diagnostics of commands: specification

Jobs execute commands one after the other, in parallel with other jobs.  A command is a
process that writes to its `stderr`, with diagnostics about it before and after.  Here it is
specified into what pieces, which nothing else gets into, the diagnostics of a command is
split in the diagnostics stream.
-/

namespace Verif.DiagBuf

/-- How the build system is run: serially or not, with `--no-diag-buffer` or not.  `cap` is
the capacity of pipes. -/
structure Cfg where
  serial : Bool
  noDiagBuffer : Bool
  cap : Nat

/-- A command as seen by who executes it. -/
structure Cmd where
  /-- The pipe is opened in any case (for custom processing). -/
  forcePipe : Bool
  /-- The diagnostics is buffered in any case. -/
  forceBuffer : Bool
  /-- Fragments that are written before what the process writes is read, and whether a
  newline is to be added to each. -/
  writes : List (List Char × Bool)
  /-- What the process writes. -/
  child : List Char
  /-- The diagnostics about an unsuccessful exit, if any. -/
  record : Option (List Char)
  deriving DecidableEq, Repr

/-- The process writes directly to the diagnostics stream: if execution is serial or
buffering is disabled, unless a pipe is asked for. -/
def Inherits (g : Cfg) (c : Cmd) : Prop :=
  (g.serial = true ∨ g.noDiagBuffer = true) ∧ c.forcePipe = false

/-- The diagnostics is passed on as it arrives: if execution is serial or buffering is
disabled, unless buffering is asked for. -/
def Streams (g : Cfg) (c : Cmd) : Prop :=
  (g.serial = true ∨ g.noDiagBuffer = true) ∧ c.forceBuffer = false

instance (g : Cfg) (c : Cmd) : Decidable (Inherits g c) := by unfold Inherits; infer_instance
instance (g : Cfg) (c : Cmd) : Decidable (Streams g c) := by unfold Streams; infer_instance

/-- A fragment with its newline. -/
def fragment (w : List Char × Bool) : List Char := w.1 ++ (if w.2 then ['\n'] else [])

/-- The diagnostics about the exit as lines. -/
def recordText (c : Cmd) : List Char :=
  match c.record with
  | none => []
  | some t => t ++ ['\n']

/-- All the diagnostics of a command. -/
def text (c : Cmd) : List Char := c.writes.flatMap fragment ++ c.child ++ recordText c

/-- Lines of a text, the last one completed with a newline.  The first argument is the
beginning of the current line. -/
def linesFrom : List Char → List Char → List (List Char)
  | [], [] => []
  | a :: l, [] => [a :: l ++ ['\n']]
  | l, x :: xs => if x = '\n' then (l ++ ['\n']) :: linesFrom [] xs else linesFrom (l ++ [x]) xs

/-- Lines of a text. -/
def lines (t : List Char) : List (List Char) := linesFrom [] t

/-- The pieces without the empty ones. -/
def nonEmpty (t : List Char) : List (List Char) := if t = [] then [] else [t]

/-- The pieces in which the diagnostics of a command gets into the stream.  All of it is one
piece if it is buffered.  Otherwise, fragments, what the process writes, and the record are
separate, and what the process writes is one piece if execution is serial and lines if not.
If it writes directly then it may be split anywhere. -/
def pieces (g : Cfg) (c : Cmd) : List (List Char) :=
  if Inherits g c then c.child.map (fun x => [x]) ++ nonEmpty (recordText c)
  else if Streams g c then
    c.writes.map fragment ++ (if g.serial then nonEmpty c.child else lines c.child) ++
      nonEmpty (recordText c)
  else nonEmpty (text c)

/-- A command: the job and the position. -/
abbrev Id := Nat × Nat

/-- A piece as it is in the stream, with whose it is. -/
def tag (i : Id) (t : List Char) : List (Id × Char) := t.map (fun x => (i, x))

/-- The stream that consists of the pieces. -/
def stream (ps : List (Id × List Char)) : List (Id × Char) := ps.flatMap (fun p => tag p.1 p.2)

/-- The pieces of a command, in order. -/
def piecesOf (ps : List (Id × List Char)) (i : Id) : List (List Char) :=
  (ps.filter (fun p => p.1 = i)).map (·.2)

end Verif.DiagBuf
