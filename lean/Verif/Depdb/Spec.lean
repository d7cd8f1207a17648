/-! Specification of dependency databases: what a user of the database sees.

A database file holds lines terminated by newlines, the first of which is the
format version `1`, followed by a NUL byte, the end marker. -/

namespace Verif.Depdb

abbrev Bytes := List UInt8

/-- Text of a list of lines: each line followed by a newline. -/
def enc (ls : List Bytes) : Bytes := (ls.map (· ++ [10])).flatten

/-- The content of a properly closed database with the lines `ls`. -/
def closedFile (ls : List Bytes) : Bytes := enc ([49] :: ls) ++ [0]

/-- A file looks properly closed if somewhere a newline is directly followed by the end
marker. -/
def LooksClosed (f : Bytes) : Prop := ∃ a b, f = a ++ 10 :: 0 :: b

/-- Lines that can be stored: no newline inside and no NUL as the first character. -/
def OkLine (l : Bytes) : Prop := 10 ∉ l ∧ l.head? ≠ some 0

instance (l : Bytes) : Decidable (OkLine l) := inferInstanceAs (Decidable (_ ∧ _))

/-- The lines stored in a file and whether they end with the end marker. A line counts as
stored if it ends with a newline and something follows the newline. The argument
`cur` is the part of the current line seen so far. -/
def stored (cur : Bytes) : Bytes → List Bytes × Bool
  | [] => ([], false)
  | [_] => ([], false)
  | b :: c :: r =>
    if b = 10 then
      if c = 0 then ([cur], true)
      else
        let p := stored [] (c :: r)
        (cur :: p.1, p.2)
    else stored (cur ++ [b]) (c :: r)

/-- What one can do with an open database. -/
inductive Op where
  | read
  | expect (v : Bytes)
  | write (v : Bytes)
  | rewrite            -- `write ()`: mark the previously read line as to be overwritten
  deriving Repr

/-- The user's view of an open database. `done` are the lines in front of the current
one (including the version line), `cur` is the line that was read last and that
would be overwritten by a write, `rest` are the lines not read yet together with
the indication of whether they end properly; `rest = none` if the database has
been switched to writing. -/
structure View where
  done : List Bytes
  cur  : Option Bytes
  rest : Option (List Bytes × Bool)

/-- The view of a database that has just been opened: if the file does not exist or does
not start with the version line, it is switched to writing (after the version
line); otherwise the version line has been read. -/
def View.open : Option Bytes → View
  | none => { done := [[49]], cur := none, rest := none }
  | some f =>
    match stored [] f with
    | (l :: ls, b) =>
      if l = [49] then { done := [], cur := some l, rest := some (ls, b) }
      else { done := [[49]], cur := none, rest := none }
    | ([], _) => { done := [[49]], cur := none, rest := none }

/-- Reading: accept the current line and move to the next one, if any. If the database
does not end properly, it is switched to writing. -/
def View.read (s : View) : Option Bytes × View :=
  match s.rest with
  | none => (none, s)
  | some ([], true) => (none, { s with done := s.done ++ s.cur.toList, cur := none })
  | some ([], false) => (none, { done := s.done ++ s.cur.toList, cur := none, rest := none })
  | some (l :: ls, b) =>
      (some l, { done := s.done ++ s.cur.toList, cur := some l, rest := some (ls, b) })

/-- Switch to writing: the current line and everything after it is forgotten. -/
def View.rewrite (s : View) : View :=
  match s.rest with
  | none => s
  | some _ => { s with cur := none, rest := none }

/-- Writing a line: it replaces the current line and everything after it. -/
def View.write (s : View) (v : Bytes) : View :=
  let s := s.rewrite
  { s with done := s.done ++ [v] }

/-- One operation. -/
def View.op (s : View) : Op → View
  | .read => s.read.2
  | .rewrite => s.rewrite
  | .write v => s.write v
  | .expect v =>
      match s.read with
      | (none, s) => s.write v
      | (some l, s) => if l = v then s else s.write v

/-- A session of operations. -/
def View.ops (s : View) (os : List Op) : View := os.foldl View.op s

/-- The lines the database contains once it is closed. -/
def View.lines (s : View) : List Bytes := s.done ++ s.cur.toList

end Verif.Depdb
