import Verif.InSubst.Spec

/-!
# Substitutions in `.in` files: model

`libbuild2/in/rule.cxx`, the `in` rule itself (so without what the derived rules override).

Simplifications:

* Values of variables are given, together with whether they can be converted to strings. The hash function
  is a parameter. Numbers of lines do not overflow.
* The database is as seen by its user (that this is what the code of `depdb` does is the subject of the
  `Depdb` component), so it is a list of lines and whether it is complete.
* Comparison of timestamps is given as two flags. IO errors are not modelled.
-/

namespace Verif.InSubst

/-- How an update may fail. -/
inductive Err where
  /-- Unterminated symbol (rule.cxx 523). -/
  | unterminated
  /-- Null value (rule.cxx 657, 675). -/
  | null
  /-- The value is not a string (rule.cxx 693). -/
  | conversion
  /-- Undefined variable (rule.cxx 698). -/
  | undefined
  /-- The assertion (rule.cxx 268). -/
  | assertion
deriving DecidableEq

/-- A variable: null, or the result of the conversion to string.
Used by `Env` (rule.cxx 101-137). -/
inductive Var where
  | null
  | value (s : Option Str)
deriving DecidableEq

/-- What an update depends on other than the contents of the file (rule.cxx 101-137). -/
structure Env where
  rule : Str
  sym : Char
  strict : Bool
  path : Str
  smap : Str → Option (Option Str)
  vars : Str → Option Var
  null : Option Str

/-- The mode (rule.cxx 115-124): that of the rule unless changed by the variable. There is no value if the
variable is invalid. -/
def mode (rule : Bool) (var : Option Str) : Option Bool :=
  match var with
  | none => some rule
  | some s => if s = "lax".toList then some false else if s ≠ "strict".toList then none else some rule

/-- `rule::lookup()` (rule.cxx 633-699). -/
def lookup (e : Env) (n : Str) : Except Err Str :=
  match e.smap n with
  | some (some v) => .ok v
  | some none =>
    match e.null with
    | some v => .ok v
    | none => .error .null
  | none =>
    match e.vars n with
    | none => .error .undefined
    | some .null =>
      match e.null with
      | some v => .ok v
      | none => .error .null
    | some (.value (some v)) => .ok v
    | some (.value none) => .error .conversion

/-- The scan of the name in the lax mode (rule.cxx 608-628). The first argument is whether this is the first
character. -/
def scan : Bool → Str → Bool
  | _, [] => true
  | f, c :: r =>
    if c = '_' ∨ (if f then c.isAlpha else c.isAlphanum) then scan false r
    else if c = '.' ∧ r ≠ [] then scan false r
    else false

/-- `rule::substitute()` that does not save (rule.cxx 599-631). -/
def substitute (e : Env) (n : Str) : Except Err (Option Str) :=
  if !e.strict && !scan true n then .ok none
  else
    match lookup e n with
    | .error x => .error x
    | .ok v => .ok (some v)

/-! ## The database -/

/-- An open database: the accepted lines, the one that was read last, and those that are left with whether
they are complete, unless the database has been switched to writing (as `View` in `Depdb/Spec.lean`).
Used by `View.more` (depdb.hxx 215). -/
structure View where
  done : List Str
  cur : Option Str
  rest : Option (List Str × Bool)
deriving DecidableEq

/-- `depdb::read()`. Used by `View.expect` (depdb.hxx 266-303). -/
def View.read (v : View) : Option Str × View :=
  match v.rest with
  | none => (none, v)
  | some ([], true) => (none, ⟨v.done ++ v.cur.toList, none, v.rest⟩)
  | some ([], false) => (none, ⟨v.done ++ v.cur.toList, none, none⟩)
  | some (l :: ls, b) => (some l, ⟨v.done ++ v.cur.toList, some l, some (ls, b)⟩)

/-- `depdb::more()` (depdb.hxx 215). -/
def View.more (v : View) : Bool :=
  match v.rest with
  | none => false
  | some ([], true) => false
  | some _ => true

/-- `depdb::write()` without a line (depdb.hxx 256). -/
def View.rewrite (v : View) : View :=
  match v.rest with
  | none => v
  | some _ => ⟨v.done, none, none⟩

/-- `depdb::write()`. Used by `View.expect` (depdb.hxx 266-303). -/
def View.write (v : View) (l : Str) : View := { v.rewrite with done := v.rewrite.done ++ [l] }

/-- `depdb::writing()`. Used by `update` (rule.cxx 96-454). -/
def View.writing (v : View) : Bool := v.rest.isNone

/-- `depdb::expect()` (depdb.hxx 266-303). -/
def View.expect (v : View) (l : Str) : View :=
  match v.read with
  | (none, v) => v.write l
  | (some x, v) => if x = l then v else v.write l

/-- The lines of the database if it is closed. Used by `Step` (rule.cxx 380). -/
def View.lines (v : View) : List Str := v.done ++ v.cur.toList

/-- Opening the database: the lines and whether they are complete, if it exists.
Used by `update` (rule.cxx 96-454). -/
def View.open : Option (List Str × Bool) → View
  | none => ⟨[], none, none⟩
  | some d => ⟨[], none, some d⟩

/-! ## Substitution -/

/-- A line of the database (rule.cxx 576-590) without flags, which are not used by this rule. -/
def entry (hash : Str → Str) (k : Nat) (n v : Str) : Str :=
  (Nat.repr k).toList ++ ' ' :: n ++ ' ' :: hash v

/-- What is changed during an update: the database and the number of good lines.
Used by `substituteSave` (rule.cxx 558-597). -/
structure St where
  dd : View
  skip : Nat
deriving DecidableEq

/-- `rule::substitute()` that saves (rule.cxx 558-597). -/
def substituteSave (hash : Str → Str) (e : Env) (k : Nat) (n : Str) (st : St) : St × Except Err (Option Str) :=
  match substitute e n with
  | .error x => (st, .error x)
  | .ok none => (st, .ok none)
  | .ok (some v) =>
    (if st.skip = 0 then { st with dd := st.dd.write (entry hash k n v) } else { st with skip := st.skip - 1 },
     .ok (some v))

/-- `replace_newlines()` (rule.hxx 142-159). The position is `p`. -/
def replaceNewlines (nl : Str) : Nat → Nat → Str → Str
  | 0, _, v => v
  | n + 1, p, v =>
    match (v.drop p).idxOf? '\n' with
    | none => v
    | some i =>
      let p := p + i
      if p ≠ 0 ∧ v[p - 1]? = some '\r' then
        replaceNewlines nl n (p - 1 + 2) (v.take (p - 1) ++ nl ++ v.drop (p - 1 + 2))
      else replaceNewlines nl n (p + 1) (v.take p ++ nl ++ v.drop (p + 1))

/-- The search for the other end (rule.cxx 506-518). The position is `i`. -/
def findEnd (strict : Bool) (sym : Char) : Nat → Nat → Str → Str × Option Nat
  | 0, _, s => (s, none)
  | n + 1, i, s =>
    if i = s.length then (s, none)
    else if s[i]? = some sym then
      if strict ∧ i + 1 ≠ s.length ∧ s[i + 1]? = some sym then findEnd strict sym n (i + 1) (s.eraseIdx i)
      else (s, some i)
    else findEnd strict sym n (i + 1) s

/-- `rule::process()` (rule.cxx 480-556) for line `k`. The position is `b`. -/
def process (hash : Str → Str) (e : Env) (k : Nat) (nl : Str) : Nat → Nat → Str → St → St × Except Err Str
  | 0, _, s, st => (st, .ok s)
  | f + 1, b, s, st =>
    if b = s.length then (st, .ok s)
    else if s[b]? ≠ some e.sym then process hash e k nl f (b + 1) s st
    else
      match findEnd e.strict e.sym (s.length + 1) (b + 1) s with
      | (s, none) => if e.strict then (st, .error .unterminated) else (st, .ok s)
      | (s, some i) =>
        if i - b = 1 then
          if e.strict then process hash e k nl f (b + 1) (s.eraseIdx b) st
          else process hash e k nl f (b + 1) s st
        else
          match substituteSave hash e k ((s.drop (b + 1)).take (i - b - 1)) st with
          | (st, .error x) => (st, .error x)
          | (st, .ok (some v)) =>
            let v := replaceNewlines nl (2 * v.length + 1) 0 v
            process hash e k nl f (b + v.length) (s.take b ++ v ++ s.drop (i + 1)) st
          | (st, .ok none) => process hash e k nl f (b + (i - b + 1)) s st

/-- The lines as by `getline()` (rule.cxx 394-398). -/
def getlines : Str → Str → List Str
  | [], [] => []
  | cur, [] => [cur]
  | cur, c :: r => if c = '\n' then cur :: getlines [] r else getlines (cur ++ [c]) r

/-- The loop over the lines (rule.cxx 382-438). What is written so far is `o` and the previous end of line is
`nl`. -/
def fileLoop (hash : Str → Str) (e : Env) : Nat → Str → Str → List Str → St → St × Except Err Str
  | _, o, nl, [], st => (st, .ok (o ++ nl))
  | k, o, nl, s :: ls, st =>
    let crlf := s.getLast? = some '\r'
    let s := if crlf then s.dropLast else s
    let o := if k ≠ 1 then o ++ nl else o
    let nl := if crlf then ['\r', '\n'] else ['\n']
    match process hash e k nl (s.length + 1) 0 s st with
    | (st, .error x) => (st, .error x)
    | (st, .ok s) => fileLoop hash e (k + 1) (o ++ s) nl ls st

/-! ## Update -/

/-- A line of the database as read (rule.cxx 226-257): the name and the hash. A leading space or sign before
the number, which `strtoull()` would skip, is not. A line with flags, which this rule does not write and for
which there is an assertion, is taken for a mismatch. -/
def parseEntry (s : Str) : Option (Str × Str) :=
  let r := s.dropWhile Char.isDigit
  match r with
  | ' ' :: r =>
    -- The last space.
    let h := (r.reverse.takeWhile (· ≠ ' ')).reverse
    let n := (r.reverse.dropWhile (· ≠ ' ')).reverse
    -- `n` is with the space at its end.
    if 2 ≤ n.length then
      if '/' ∈ h then none else some (n.dropLast, h)
    else none
  | _ => none

/-- The loop that checks the saved values (rule.cxx 220-293): the database, how many are good, and perhaps an
error. -/
def checkLoop (hash : Str → Str) (e : Env) : Nat → View → Nat → View × Except Err Nat
  | 0, v, k => (v, .ok k)
  | f + 1, v, k =>
    if v.more then
      match v.read with
      | (none, v) => (v, .ok k)
      | (some s, v) =>
        match parseEntry s with
        | none => (v.rewrite, .ok k)
        | some (n, h) =>
          match substitute e n with
          | .error x => (v, .error x)
          | .ok none => (v, .error .assertion)
          | .ok (some x) => if h = hash x then checkLoop hash e f v (k + 1) else (v.rewrite, .ok k)
    else (v, .ok k)

/-- The first lines of the database (rule.cxx 155-179). -/
def header (e : Env) : List Str :=
  [e.rule ++ [' ', '1'], [e.sym], if e.strict then "strict".toList else "lax".toList, e.path]

/-- What an update comes to: an error, nothing to do, or the output that is written.
Used by `perform` (rule.cxx 339-453). -/
inductive Result where
  | error (x : Err)
  | unchanged
  | updated (o : Str)
deriving DecidableEq

/-- The rest of an update after the check (rule.cxx 339-453). -/
def perform (hash : Str → Str) (e : Env) (s : Str) (st : St) : View × Result :=
  match fileLoop hash e 1 [] ['\n'] (getlines [] s) st with
  | (st, .error x) => (st.dd, .error x)
  | (st, .ok o) => (st.dd, .updated o)

/-- `rule::perform_update()` (rule.cxx 96-454). The first argument is whether the `.in` file is newer than the
output or there is no output, the second is whether the database is. -/
def update (hash : Str → Str) (stale newer : Bool) (e : Env) (s : Str) (db : Option (List Str × Bool)) : View × Result :=
  let v := (header e).foldl View.expect (View.open db)
  if stale || v.writing || newer then
    let v := if v.writing then v else v.read.2.rewrite
    perform hash e s ⟨v, 0⟩
  else
    match checkLoop hash e ((v.rest.map fun x => x.1.length).getD 0 + 1) v 0 with
    | (v, .error x) => (v, .error x)
    | (v, .ok k) => if v.writing then perform hash e s ⟨v, k⟩ else (v, .unchanged)

/-! ## History -/

/-- What is on disk: the files, whether each of them is newer than the output, whether the database is newer
than the output, the database and the output. Used by `Disk.update` (rule.cxx 141-148). -/
structure Disk where
  files : Str → Str
  stale : Str → Bool
  newer : Bool
  db : Option (List Str × Bool)
  out : Option Str

/-- An update with this environment (rule.cxx 141-148: the file is also considered to be newer if there is no
output). -/
def Disk.update (hash : Str → Str) (w : Disk) (e : Env) : View × Result :=
  InSubst.update hash (w.stale e.path || w.out.isNone) w.newer e (w.files e.path) w.db

/-- What may happen to what is on disk.

A failure removes the output if it has been opened (`auto_rmfile`, rule.cxx 380) and leaves the database without
the end marker if it has been switched to writing. A crash at this point leaves some of the lines that were to
be written and any output. A crash after closing of the database but before the last write to the output
(rule.cxx 432-440) leaves any output that is older than the database. A file is not changed while it is being
read. -/
inductive Step (hash : Str → Str) : Disk → Disk → Prop
  | edit (w : Disk) (p s : Str) : Step hash w
      { w with files := fun q => if q = p then s else w.files q, stale := fun q => if q = p then true else w.stale q }
  | removeOutput (w : Disk) : Step hash w { w with out := none }
  | removeDatabase (w : Disk) : Step hash w { w with db := none }
  | updated {w : Disk} {e : Env} {v : View} {o : Str} : w.update hash e = (v, .updated o) →
      Step hash w ⟨w.files, fun _ => false, false, some (v.lines, true), some o⟩
  | unchanged {w : Disk} {e : Env} {v : View} : w.update hash e = (v, .unchanged) → Step hash w w
  | failedEarly {w : Disk} {e : Env} {v : View} {x : Err} : w.update hash e = (v, .error x) → v.writing = false →
      Step hash w w
  | failed {w : Disk} {e : Env} {v : View} {x : Err} (newer : Bool) : w.update hash e = (v, .error x) →
      v.writing = true → Step hash w ⟨w.files, w.stale, newer, some (v.lines, false), none⟩
  | crash {w : Disk} {e : Env} {v : View} {r : Result} {ls : List Str} (stale : Str → Bool) (newer : Bool)
      (out : Option Str) : w.update hash e = (v, r) → v.writing = true → ls <+: v.lines →
      Step hash w ⟨w.files, stale, newer, some (ls, false), out⟩
  | crashLate {w : Disk} {e : Env} {v : View} {o : Str} (stale : Str → Bool) (out : Option Str) :
      w.update hash e = (v, .updated o) →
      Step hash w ⟨w.files, stale, true, some (v.lines, true), out⟩

/-- What may be on disk after any number of steps from when there were neither the output nor the database.
Built on `Step` (rule.cxx 380). -/
inductive Reachable (hash : Str → Str) : Disk → Prop
  | init (files : Str → Str) (stale : Str → Bool) (newer : Bool) : Reachable hash ⟨files, stale, newer, none, none⟩
  | step {w w' : Disk} : Reachable hash w → Step hash w w' → Reachable hash w'

end Verif.InSubst
