import Verif.SetRead.Spec

/-!
# Reading elements from the output of a command: model of the code

libbuild2/script/run.cxx: `stream_reader` (1006-1292), `read` (1469-1715).

The stream is what becomes available in it: some data at a time or nothing yet. Deadlines and
reading of the diagnostics of the commands at the same time are left out (see Verif/Timeout for
these), as are errors of the operating system.
-/

namespace Verif.SetRead

/-- What there is in the stream next: data, or it would block. An empty portion is no portion. In the end it is closed.
Used by `pull` (libbuild2/script/run.cxx 1150-1292). -/
inductive Ev
  | data (c : Text) | block
  deriving DecidableEq

/-- run.cxx:1176, 1180: `strchr (sep, *p) != nullptr`, which is also the case for 0. -/
def isSep (c : Char) : Bool :=
  c == ' ' || c == '\n' || c == '\r' || c == '\t' || c == Char.ofNat 0

/-- 1235-1236. -/
def stripCr (s : Text) : Text := (s.reverse.dropWhile (· == '\r')).reverse

/-- 1174-1208: the whitespace mode. The result is the substring, and what is left in the buffer
if it is complete. -/
def scanWords (ss p : Text) : Text × Option Text :=
  match p.dropWhile isSep with
  | [] => (ss, none)
  | c :: q =>
    match (c :: q).dropWhile (fun c => !isSep c) with
    | [] => (ss ++ (c :: q).takeWhile (fun c => !isSep c), none)
    | _ :: r => (ss ++ (c :: q).takeWhile (fun c => !isSep c), some r)

/-- 1209-1255: the newline mode or no splitting. -/
def scanLines (newline : Bool) : Text → Text → Text × Option Text
  | ss, [] => (ss, none)
  | ss, c :: p =>
    if c = '\n' then
      if newline then (stripCr ss, some p) else scanLines newline (stripCr ss ++ ['\n']) p
    else scanLines newline (ss ++ [c]) p

/-- 1174: by mode. Used by `pull` (libbuild2/script/run.cxx 1150-1292). -/
def scan (m : Mode) (ss p : Text) : Text × Option Text :=
  match m with
  | .words => scanWords ss p
  | .lines => scanLines true ss p
  | .whole => scanLines false ss p

/-- The stream and the state of `stream_reader`: what is in the buffer, what will be, `exact_` and
`empty_`. Used by `next` (libbuild2/script/run.cxx 1095-1292). -/
structure St where
  cur   : Text
  evs   : List Ev
  exact : Bool
  empty : Bool
  deriving DecidableEq

/-- What `next` comes to: a substring, the end of the stream (`eofbit`), or false, with the
substring so far. Used by `pull` (libbuild2/script/run.cxx 1150-1292). -/
inductive Next
  | str (s : Text) (st : St) | eof (st : St) | again (s : Text) (st : St)

/-- 1274-1287: the last substring. -/
def last (m : Mode) (ss : Text) : Text :=
  if m = .whole ∧ ss.getLast? = some '\n' then ss.dropLast else ss

/-- 1150-1292 with nothing in the buffer. -/
def pull (m : Mode) (exact : Bool) : Bool → List Ev → Text → Next
  | empty, [], ss =>
    if ss ≠ [] ∨ (exact = true ∧ empty = false) then
      .str (if exact then ss else last m ss) ⟨[], [], false, empty⟩
    else .eof ⟨[], [], exact, empty⟩
  | empty, .block :: evs, ss => .again ss ⟨[], evs, exact, empty⟩
  | empty, .data c :: evs, ss =>
    if c = [] then pull m exact empty evs ss
    else match scan m ss c with
      | (ss', some c') => .str ss' ⟨c', evs, exact, false⟩
      | (ss', none) => pull m exact false evs ss'

/-- 1095-1292 `next`. -/
def next (m : Mode) (st : St) (ss : Text) : Next :=
  if st.cur = [] then pull m st.exact st.empty st.evs ss
  else match scan m ss st.cur with
    | (ss', some c') => .str ss' ⟨c', st.evs, st.exact, false⟩
    | (ss', none) => pull m st.exact false st.evs ss'

/-- 1057-1062 `skip`, with 1162-1167: whether the stream has ended. -/
def skip (st : St) : List Ev → Bool × St
  | [] => (true, { st with cur := [], evs := [] })
  | .block :: evs => (false, { st with cur := [], evs := evs })
  | .data _ :: evs => skip st evs

/-- 1633-1714: the loop of `read`, where `f` is the callback given what it has been called with
so far. The result is also what is left in the stream. Waiting for data is going on. -/
def read (m : Mode) (f : List Text → Bool) :
    Nat → Bool → St → Text → List Text → Option (List Text × St)
  | 0, _, _, _, _ => none
  | n + 1, true, st, s, d =>
    match next m st s with
    | .eof st' => some (d, st')
    | .str s' st' => if f (d ++ [s']) then read m f n true st' [] (d ++ [s'])
        else read m f n false st' s' (d ++ [s'])
    | .again s' st' => read m f n true st' s' d
  | n + 1, false, st, s, d =>
    match skip st st.evs with
    | (true, st') => some (d, st')
    | (false, st') => read m f n false st' s d

/-- 1494, 1633: how it starts. Built on `read` (libbuild2/script/run.cxx 1633-1714). -/
def readAll (m : Mode) (exact : Bool) (f : List Text → Bool) (n : Nat) (evs : List Ev) :
    Option (List Text × St) :=
  read m f n true ⟨[], evs, exact, true⟩ [] []

end Verif.SetRead
