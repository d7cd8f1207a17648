/-! Model of the file cache (libbuild2/file-cache.{hxx,ixx,cxx}).

Simplifications: one entry; the LZ4 codec is a parameter with the only assumption
that decompressing the result of compressing gives back the original; the content
of a file that is being written grows from the front. Which system calls fail is a
parameter (`Faults`). -/

namespace Verif.FileCache

/-- Used by `Fs` (libbuild2/file-cache.hxx:236-237). -/
abbrev Bytes := List UInt8

/-- The compression codec. Used by `Entry.compress_` (libbuild2/file-cache.cxx:96-132). -/
structure Codec where
  comp : Bytes → Bytes
  decomp : Bytes → Option Bytes
  inv : ∀ x, decomp (comp x) = some x

/-- The two files of an entry: `path_` and `comp_path_` (libbuild2/file-cache.hxx:236-237). -/
structure Fs where
  u : Option Bytes
  c : Option Bytes
  deriving DecidableEq, Repr

/-- `enum state` (libbuild2/file-cache.hxx:233). -/
inductive St where
  | null | uninit | uncomp | comp | decomp
  deriving DecidableEq, Repr

/-- An entry with its files. `trace` are all the contents the two files have had, most recent
first. `readers` is a ghost: the number of live read handles.
Used by `Entry.compress_` (libbuild2/file-cache.cxx:96-132). -/
structure Entry where
  st : St
  /-- `!comp_path_.empty ()` -/
  compress : Bool
  /-- `pin_` -/
  pin : Nat
  fs : Fs
  trace : List Fs
  readers : Nat
  deriving Repr

/-- What fails: compression stops after `k` bytes and its output can or cannot be removed; the
uncompressed file cannot be removed; decompression stops after `k` bytes.
Used by `Entry.compress_` (libbuild2/file-cache.cxx:96-132). -/
structure Faults where
  compress : Option (Nat × Bool) := none
  remove : Bool := false
  decompress : Option Nat := none

/-- Used by `Entry.compress_` (libbuild2/file-cache.cxx:96-132). -/
def Entry.setFs (e : Entry) (fs : Fs) : Entry := { e with fs, trace := fs :: e.trace }

/-- Writing a file from the front: all the prefixes (longest first).
Used by `Entry.compress_` (libbuild2/file-cache.cxx:96-132). -/
def prefixes (x : Bytes) : List Bytes := (List.range (x.length + 1)).reverse.map x.take

/-- `compress` (libbuild2/file-cache.cxx:96-132). The compressed file is created (truncated) and
grows; on failure it is removed, if possible. -/
def Entry.compress_ (C : Codec) (e : Entry) (f : Faults) : Bool × Entry :=
  match e.fs.u with
  | none => (false, e.setFs { e.fs with c := none })       -- opening the input fails
  | some x =>
    let z := C.comp x
    match f.compress with
    | none =>
        (true, { e with fs := { e.fs with c := some z }
                        trace := (prefixes z).map (fun p => { e.fs with c := some p }) ++ e.trace })
    | some (k, rm) =>
        let e1 := { e with fs := { e.fs with c := some (z.take k) }
                           trace := (prefixes (z.take k)).map (fun p => { e.fs with c := some p }) ++ e.trace }
        (false, if rm then e1.setFs { e1.fs with c := none } else e1)

/-- `preempt` (libbuild2/file-cache.cxx:66-94); only called in the states `uncomp` and `decomp`. -/
def Entry.preempt (C : Codec) (e : Entry) (f : Faults) : Entry :=
  let rm (e : Entry) : Entry :=
    if f.remove then e else { e.setFs { e.fs with u := none } with st := .comp }
  match e.st with
  | .uncomp =>
      match e.compress_ C f with
      | (false, e) => e
      | (true, e) => rm { e with st := .decomp }
  | .decomp => rm e
  | _ => e                                                   -- assert (false)

/-- `pin` (libbuild2/file-cache.ixx:15-19). -/
def Entry.pin_ (e : Entry) : Entry := { e with pin := e.pin + 1 }

/-- `unpin` (libbuild2/file-cache.ixx:21-28). The count is a `size_t` (a 64-bit number), so
unpinning too often wraps around. -/
def Entry.unpin (C : Codec) (e : Entry) (f : Faults) : Entry :=
  let e := { e with pin := if e.pin = 0 then 2 ^ 64 - 1 else e.pin - 1 }
  if e.pin = 0 ∧ e.compress ∧ (e.st = .uncomp ∨ e.st = .decomp) then e.preempt C f else e

/-- `decompress` (libbuild2/file-cache.cxx:134-153); `false` if it fails. -/
def Entry.decompress_ (C : Codec) (e : Entry) (f : Faults) : Bool × Entry :=
  match e.fs.c with
  | none => (false, e)
  | some z =>
    match C.decomp z, f.decompress with
    | none, _ => (false, e.setFs { e.fs with u := some [] })
    | some x, none =>
        (true, { e with fs := { e.fs with u := some x }
                        trace := (prefixes x).map (fun p => { e.fs with u := some p }) ++ e.trace })
    | some x, some k =>
        (false, { e with fs := { e.fs with u := some (x.take k) }
                         trace := (prefixes (x.take k)).map (fun p => { e.fs with u := some p }) ++ e.trace })

/-- `open` (libbuild2/file-cache.ixx:30-43); `false` if it fails. -/
def Entry.open_ (C : Codec) (e : Entry) (f : Faults) : Bool × Entry :=
  let r := if e.st = .comp then
             match e.decompress_ C f with
             | (true, e) => (true, { e with st := .decomp })
             | (false, e) => (false, e)
           else (true, e)
  if r.1 then (true, { r.2.pin_ with readers := r.2.readers + 1 }) else (false, r.2)

/-- Destruction of a read handle (libbuild2/file-cache.ixx:126-131). -/
def Entry.closeRead (C : Codec) (e : Entry) (f : Faults) : Entry :=
  ({ e with readers := e.readers - 1 }).unpin C f

/-- A new entry (libbuild2/file-cache.ixx:51-58 and `init_new`, file-cache.cxx:18-38): the
content `x` is written to the file, the write handle is closed and destroyed
(file-cache.ixx:98-109). The entry was created pinned and remains so. `old` is what the
file system contains, `rmOk` whether a stale compressed file can be removed. -/
def create (compress : Bool) (x : Bytes) (old : Fs) (rmOk : Bool) : Entry :=
  let fs : Fs := { u := some x, c := if compress && rmOk then none else old.c }
  { st := .uncomp, compress, pin := 1, fs, trace := [fs], readers := 0 }

/-- `init_existing` (libbuild2/file-cache.cxx:40-64) of a new entry; `none` if it fails. -/
def existing (compress : Bool) (fs : Fs) (rmOk : Bool) : Option Entry :=
  let mk (st : St) (fs : Fs) : Entry := { st, compress, pin := 1, fs, trace := [fs], readers := 0 }
  if compress then
    match fs.u, fs.c with
    | some _, c => some (mk .uncomp { fs with c := if rmOk then none else c })
    | none, some _ => some (mk .comp fs)
    | none, none => none
  else some (mk .uncomp fs)

/-- Operations of the user of an entry.
Puts together `Entry.closeRead` (libbuild2/file-cache.ixx:126-131) and what goes with it; no function of its own in the code. -/
inductive Op where
  | pin
  | unpin (f : Faults)
  | open (f : Faults)
  | closeRead (f : Faults)

/-- An operation.
Puts together `Entry.closeRead` (libbuild2/file-cache.ixx:126-131) and what goes with it; no function of its own in the code. -/
def Entry.op (C : Codec) (e : Entry) : Op → Entry
  | .pin => e.pin_
  | .unpin f => e.unpin C f
  | .open f => (e.open_ C f).2
  | .closeRead f => e.closeRead C f

/-- The use of an operation is legal: pins and handles are given back at most once, and the
pin that belongs to a read handle is only given back by destroying the handle.
Built on `Entry.closeRead` (libbuild2/file-cache.ixx:126-131). -/
def Entry.legal (e : Entry) : Op → Prop
  | .pin => True
  | .open _ => True
  | .unpin _ => e.readers < e.pin
  | .closeRead _ => 0 < e.readers

/-- A history of legal operations. -/
inductive Reach (C : Codec) (e0 : Entry) : Entry → Prop
  | refl : Reach C e0 e0
  | step {e : Entry} (o : Op) : Reach C e0 e → e.legal o → Reach C e0 (e.op C o)

end Verif.FileCache
