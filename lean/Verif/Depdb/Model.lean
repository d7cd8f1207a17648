import Verif.Depdb.Spec

/-! Model of the dependency database (libbuild2/depdb.{hxx,cxx,ixx}).

Simplifications: I/O errors are not modelled; the modification time is not part of
this model (see `Verif.Update` for the protocol that uses it); the stream buffers
are not modelled, instead every byte reaches the file immediately and *all* the
intermediate file contents are recorded in `hist` (with buffering a crash exposes
some of these contents, never others, since a buffer is written front to back). -/

namespace Verif.Depdb

/-- `enum class state` (libbuild2/depdb.hxx:67); `undef` stands for a failed assertion or
an illegal call (writing to a read-only database, libbuild2/depdb.hxx:111-115). -/
inductive St where
  | read | readEof | write | undef
  deriving DecidableEq, Repr

/-- `class depdb` (libbuild2/depdb.hxx:72-81, 103-105, 329-331). -/
structure Db where
  /-- `state_` -/
  st : St
  /-- `ro_` -/
  ro : Bool
  /-- content of the file -/
  file : Bytes
  /-- `buf_->tellg ()` while reading -/
  g : Nat
  /-- `pos_`, the start of the last returned line -/
  pos : Nat
  /-- `buf_->tellp ()` while writing -/
  w : Nat
  /-- all contents the file has had, most recent first -/
  hist : List Bytes
  deriving Repr

/-- Change of the file content (also recorded in the history).
Used by `Db.change` (libbuild2/depdb.cxx:136-196). -/
def Db.setFile (d : Db) (f : Bytes) : Db := { d with file := f, hist := f :: d.hist }

/-- `fdtruncate` to `n` bytes (POSIX: extends with zeros if the file is shorter).
Used by `Db.change` (libbuild2/depdb.cxx:136-196). -/
def truncate (f : Bytes) (n : Nat) : Bytes := f.take n ++ List.replicate (n - f.length) 0

/-- `os_.put`: one byte at the current write position.
Used by `Db.write` (libbuild2/depdb.cxx:289-329). -/
def Db.put (d : Db) (b : UInt8) : Db :=
  let f := truncate d.file d.w ++ b :: d.file.drop (d.w + 1)
  { d.setFile f with w := d.w + 1 }

/-- `os_.write`. Used by `Db.write` (libbuild2/depdb.cxx:289-329). -/
def Db.puts (d : Db) : Bytes → Db
  | [] => d
  | b :: bs => (d.put b).puts bs

/-- `depdb::change` (libbuild2/depdb.cxx:136-196). -/
def Db.change (d : Db) (trunc : Bool) : Db :=
  if d.st = .write ∨ d.st = .undef then { d with st := .undef }   -- assert (line 139)
  else if d.ro then { d with st := .write }
  else
    let d := if trunc then d.setFile (truncate d.file d.pos) else d
    { d with st := .write, w := d.pos }

/-- `getline`: the line and what follows its newline; `none` if there is no newline.
Used by `Db.read_` (libbuild2/depdb.cxx:198-247). -/
def splitNl : Bytes → Option (Bytes × Bytes)
  | [] => none
  | b :: bs =>
    if b = 10 then some ([], bs)
    else match splitNl bs with
      | none => none
      | some (l, r) => some (b :: l, r)

/-- `depdb::read_` (libbuild2/depdb.cxx:198-247). -/
def Db.read_ (d : Db) : Option Bytes × Db :=
  let d := { d with pos := d.g }
  if d.st = .readEof then (none, d)
  else
    match splitNl (d.file.drop d.g) with
    | none => (none, d.change true)              -- fail or eof before the delimiter
    | some (_, []) => (none, d.change true)      -- peek is eof
    | some (l, c :: _) =>
        let d := { d with g := d.g + l.length + 1 }
        (some l, if c = 0 then { d with st := .readEof } else d)

/-- `depdb::read` (libbuild2/depdb.hxx:208-209). -/
def Db.read (d : Db) : Option Bytes × Db :=
  match d.st with
  | .write | .undef => (none, d)
  | _ => d.read_

/-- The loop of `depdb::skip` (libbuild2/depdb.cxx:265-276) on the bytes that remain:
what is left after the end marker if it was found. Note that after a newline the
next character is consumed. -/
def skipScan : Bytes → Option Bytes
  | [] => none
  | [_] => none
  | b :: c :: r =>
    if b = 10 then (if c = 0 then some r else skipScan r)
    else skipScan (c :: r)

/-- `depdb::skip` (libbuild2/depdb.cxx:249-287). -/
def Db.skip (d : Db) : Bool × Db :=
  match d.st with
  | .readEof => (true, d)
  | .read =>
    let d := { d with pos := d.g }
    match skipScan (d.file.drop d.g) with
    | some r => (true, { d with st := .readEof, g := d.file.length - r.length })
    | none => (false, d.change true)
  | _ => (false, { d with st := .undef })        -- assert (line 255)

/-- `depdb::write (const char*, size_t, bool)` and `depdb::write (char, bool)` with
`nl = true` (libbuild2/depdb.cxx:289-329). -/
def Db.write (d : Db) (v : Bytes) : Db :=
  if d.ro then { d with st := .undef }
  else
    let d := if d.st = .write then d else d.change true
    if d.st = .undef then d else (d.puts v).put 10

/-- `depdb::write ()` (libbuild2/depdb.hxx:254-255). -/
def Db.rewrite (d : Db) : Db := if d.st = .write then d else d.change true

/-- `depdb::expect` (libbuild2/depdb.hxx:265-276), the result being the returned old
value. -/
def Db.expect (d : Db) (v : Bytes) : Option Bytes × Db :=
  match d.read with
  | (none, d) => (none, d.write v)
  | (some l, d) => if l ≠ v then (some l, d.write v) else (none, d)

/-- The constructor (libbuild2/depdb.cxx:98-125 and 20-96). `f = none` if the file does
not exist, in which case it is created (unless read-only). -/
def Db.open (f : Option Bytes) (ro : Bool := false) : Db :=
  let d : Db :=
    match f with
    | some f => { st := .read, ro, file := f, g := 0, pos := 0, w := 0, hist := [f] }
    | none => { st := .write, ro, file := [], g := 0, pos := 0, w := 0, hist := [[]] }
  let cont (d : Db) : Db :=
    if !ro then d.write [49]
    else if d.st ≠ .write then d.change true
    else d
  if d.st = .read then
    match d.read with
    | (some l, d) => if l = [49] then d else cont d
    | (none, d) => cont d
  else cont d

/-- `touch` as far as it matters here: absent, `timestamp_unknown`, or a time stamp.
Used by `Db.close` (libbuild2/depdb.cxx:331-425). -/
inductive Touch where
  | absent | unknown | at
  deriving DecidableEq, Repr

/-- `depdb::close` (libbuild2/depdb.cxx:331-425), without the modification time. -/
def Db.close (d : Db) (touch : Touch := .absent) : Db :=
  if d.ro then d
  else if d.st = .readEof ∧ touch = .absent then d
  else
    let d :=
      if d.st = .readEof then
        (if touch = .unknown then ({ d with pos := d.g }).change false else d)
      else if d.st = .read then ({ d with pos := d.g }).change true
      else d
    if d.st = .write then d.put 0 else d

/-- `depdb::close_to_reopen` (libbuild2/depdb.cxx:427-456): the closed database and
the `pos` of the reopen state. -/
def Db.closeToReopen (d : Db) : Nat × Db :=
  let d :=
    if d.st = .write ∨ d.st = .undef then d
    else ({ d with pos := d.g }).change (decide (d.st ≠ St.readEof))
  let d := { d with pos := d.w }
  (d.pos, d.put 0)

/-- `depdb (reopen_state)` (libbuild2/depdb.cxx:127-134 and 20-96 with `pos`). -/
def Db.reopen (f : Bytes) (pos : Nat) : Db :=
  { st := .write, ro := false, file := f, g := 0, pos := 0, w := pos, hist := [f] }

/-- One operation of a session.
Puts together `Db.expect` (libbuild2/depdb.hxx:265-276) and what goes with it; no function of its own in the code. -/
def Db.op (d : Db) : Op → Db
  | .read => d.read.2
  | .expect v => (d.expect v).2
  | .write v => d.write v
  | .rewrite => d.rewrite

/-- A session of operations.
Puts together `Db` (libbuild2/depdb.hxx:72-81, 103-105, 329-331) and what goes with it; no function of its own in the code. -/
def Db.ops (d : Db) (os : List Op) : Db := os.foldl Db.op d

end Verif.Depdb
