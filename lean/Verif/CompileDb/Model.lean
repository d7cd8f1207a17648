import Verif.CompileDb.Spec
/-!
# The compilation database: the model

`compiledb_file` in libbuild2/cc/compiledb.cxx. Its callbacks are serialized
by its mutex.
-/

namespace Verif.CompileDb

variable {O : Type} [DecidableEq O]

/-- libbuild2/cc/compiledb.hxx 255 `entry_status`. -/
inductive Status where
  | absent
  | present
  | changed
  | missing
deriving DecidableEq, Repr

/-- libbuild2/cc/compiledb.hxx 257-261 `entry`. -/
structure Entry where
  status : Status
  json : Line
deriving DecidableEq, Repr

/-- libbuild2/cc/compiledb.hxx 236 `state`. -/
inductive State where
  | closed
  | «open»
  | failed
deriving DecidableEq, Repr

/-- libbuild2/cc/compiledb.hxx 234-272 `compiledb_file`, with the contents of
the file and the number of times it has been written. -/
structure Cdb (O : Type) where
  state : State
  nesting : Nat
  db : List (O × Entry)
  absent : Nat
  changed : Bool
  file : Option (List Char)
  writes : Nat

/-- An assertion fails or the build does. Used by `pre` (libbuild2/cc/compiledb.cxx 612-744). -/
inductive Fault where
  | assertion
  | invalid
deriving DecidableEq, Repr

/-! ## Reading -/

/-- Lines, as read with `getline ()`. Used by `pre` (libbuild2/cc/compiledb.cxx 612-744). -/
def lines : List Char → List Char → List Line
  | acc, [] => if acc = [] then [] else [acc]
  | acc, c :: cs => if c = '\n' then acc :: lines [] cs else lines (acc ++ [c]) cs

/-- libbuild2/cc/compiledb.cxx 653. -/
inductive Scan where
  | first
  | second
  | next
  | last
  | fin
deriving DecidableEq, Repr

/-- libbuild2/cc/compiledb.cxx 655-719: the loop over the lines, with the
entries so far. -/
def scan (outputOf : Line → Option O) : Scan → List (O × Line) → List Line →
    Option (List (O × Line))
  | s, acc, [] => if s = .fin then some acc else none
  | s, acc, l :: ls =>
    let entry : Option (List (O × Line)) :=
      let (l, s) := if l.getLast? = some ',' then (l.dropLast, Scan.next) else (l, Scan.last)
      match outputOf l with
      | none => none
      | some o =>
        if acc.any fun e => e.1 = o then none
        else scan outputOf s (acc ++ [(o, l)]) ls
    match s with
    | .first => if l = "[".toList then scan outputOf .second acc ls else none
    | .second => if l = "]".toList then scan outputOf .fin acc ls else entry
    | .next => entry
    | .last => if l = "]".toList then scan outputOf .fin acc ls else none
    | .fin => none

/-- The entries of the file. Used by `pre` (libbuild2/cc/compiledb.cxx 612-744). -/
def load (outputOf : Line → Option O) (text : List Char) : Option (List (O × Line)) :=
  scan outputOf .first [] (lines [] text)

/-! ## Callbacks -/

/-- A map from outputs to entries. Used by `«match»` (libbuild2/cc/compiledb.cxx 746-799). -/
def find (db : List (O × Entry)) (o : O) : Option Entry :=
  (db.find? fun e => e.1 = o).map (·.2)

/-- Changing an entry of a map. Used by `«match»` (libbuild2/cc/compiledb.cxx 746-799). -/
def upd (db : List (O × Entry)) (o : O) (e : Entry) : List (O × Entry) :=
  db.map fun x => if x.1 = o then (x.1, e) else x

/-- A new process: libbuild2/cc/compiledb.cxx 604-610. -/
def fresh (s : Cdb O) : Cdb O := ⟨.closed, 0, [], 0, false, s.file, s.writes⟩

/-- libbuild2/cc/compiledb.cxx 612-744 `pre`. A file that cannot be read is
left out. -/
def pre (outputOf : Line → Option O) (s : Cdb O) : Except Fault (Cdb O) :=
  if s.state = .failed then .error .assertion
  else if s.nesting ≠ 0 then .ok { s with nesting := s.nesting + 1 }
  else
    let s := { s with nesting := s.nesting + 1 }
    if s.state = .closed then
      match s.file with
      | none => .ok { s with absent := s.db.length, changed := false, state := .open }
      | some text =>
        match load outputOf text with
        | none => .error .invalid
        | some es =>
          let db := es.map fun e => (e.1, (⟨.absent, e.2⟩ : Entry))
          .ok { s with db := db, absent := db.length, changed := false, state := .open }
    else .ok s

/-- libbuild2/cc/compiledb.cxx 746-799 `match`. -/
def «match» (s : Cdb O) (o : O) (changed : Bool) : Except Fault (Cdb O × Bool) :=
  match s.state with
  | .failed => .ok (s, false)
  | .closed => .error .assertion
  | .open =>
    match find s.db o with
    | some e =>
      match e.status with
      | .present | .changed => if changed then .error .assertion else .ok (s, false)
      | .absent =>
        let st := if changed then Status.changed else .present
        .ok ({ s with
          db := upd s.db o ⟨st, e.json⟩
          absent := s.absent - 1
          changed := s.changed || st = .changed }, false)
      | .missing => .error .assertion
    | none =>
      .ok ({ s with db := s.db ++ [(o, ⟨.missing, []⟩)], changed := true }, true)

/-- libbuild2/cc/compiledb.cxx 801-893 `execute`, given the line for this
output. -/
def execute (s : Cdb O) (o : O) (json : Line) : Except Fault (Cdb O) :=
  match s.state with
  | .failed => .ok s
  | .closed => .error .assertion
  | .open =>
    match find s.db o with
    | none => .error .assertion
    | some e =>
      match e.status with
      | .absent => .error .assertion
      | .present => .ok s
      | .missing | .changed => .ok { s with db := upd s.db o ⟨.changed, json⟩ }

/-- libbuild2/cc/compiledb.cxx 973-1016: whether it is removed. -/
def pruned (p : Post O) (absent : Nat) (x : O × Entry) : Bool :=
  !p.failed && !p.nested && !p.outer && absent ≠ 0 && x.2.status = .absent && p.inDirs x.1

/-- libbuild2/cc/compiledb.cxx 1056-1083: the status afterwards. -/
def settle (p : Post O) (e : Entry) : Entry :=
  match e.status with
  | .absent | .missing => e
  | .present | .changed => ⟨if p.nested || p.duringLoad then .present else .absent, e.json⟩

/-- libbuild2/cc/compiledb.cxx 895-1127 `post`. Failing to write the file is
left out. -/
def post (matchOnly : Bool) (s : Cdb O) (p : Post O) : Except Fault (Cdb O) :=
  if s.nesting = 0 then .error .assertion
  else if s.nesting - 1 ≠ 0 then .ok { s with nesting := s.nesting - 1 }
  else
    let s := { s with nesting := s.nesting - 1 }
    match s.state with
    | .failed => .ok s
    | .closed => .error .assertion
    | .open =>
      let db := s.db.filter fun x => !pruned p s.absent x
      let n := s.db.length - db.length
      let u := s.changed || n ≠ 0
      if !(p.failed || matchOnly) && db.any fun x => x.2.status = .missing then .error .assertion
      else
        let written := (db.filter fun x => x.2.status ≠ .missing).map fun x => (x.1, x.2.json)
        let db' := db.map fun x => (x.1, settle p x.2)
        let more := (db.filter fun x => x.2.status = .present ∨ x.2.status = .changed).length
        .ok { s with
          db := db'
          absent := s.absent - n + (if p.nested || p.duringLoad then 0 else more)
          file := if u then some (render written) else s.file
          writes := if u then s.writes + 1 else s.writes
          state := if p.failed then .failed else s.state
          changed := if p.failed then s.changed else false }

end Verif.CompileDb
