/-! Model of how target names are split into a name and an extension and combined again:
`target::split_name` (libbuild2/target.cxx:296-479) and `target::combine_name`
(libbuild2/target.cxx:489-585). Strings are lists of characters; the directory separator is `/`
(POSIX).

Both functions run over the string from right to left; here they run over the reversed string, so
that the rest of the list is what is to the left of the current position, and its length is the
current position `p`. When they meet a sequence of dots they look for its first dot and continue
there: here the dots already looked at are skipped one by one (`skip`). -/

namespace Verif.Name

/-- Errors reported by `split_name`. Used by `onDots` (libbuild2/target.cxx:364-387). -/
inductive Err where
  | multipleTriple | invalidSequence | invalidName | leadingTriple
  deriving DecidableEq, Repr

/-- The outcome of `split_name`: an error, a failed assertion, or the name and the extension.
Used by `finish` (libbuild2/target.cxx:422-478). -/
inductive Out where
  | err (e : Err)
  | assertFailed
  | ok (name : List Char) (ext : Option (List Char))
  deriving DecidableEq, Repr

/-- The number of dots at the beginning of a list: `for (; i != 0 && v[i - 1] == '.'; --i)`
(libbuild2/target.cxx:361-362) for a reversed string, `for (; j != n && s[j] == '.'; ++j)`
(libbuild2/target.cxx:452-453) for a string. -/
def dots : List Char → Nat
  | [] => 0
  | c :: l => if c = '.' then dots l + 1 else 0

/-- The variables of `split_name` (libbuild2/target.cxx:339-344): `edp` and `edn`, position and
length of the extension dot, `escaped` and `dot_only`. -/
structure Scan where
  edp     : Option Nat
  edn     : Nat
  escaped : Bool
  dotOnly : Bool
  deriving DecidableEq, Repr

/-- What happens for a sequence of `sn` dots at position `i` (libbuild2/target.cxx:364-387). -/
def onDots (sn i : Nat) (s : Scan) : Except Err Scan :=
  if sn = 3 then
    if s.edp ≠ none ∧ s.edn = 3 then .error .multipleTriple
    else .ok { s with edp := some i, edn := 3 }
  else if sn = 1 then
    if s.edp = none then .ok { s with edp := some i, edn := 1 } else .ok s
  else if sn % 2 = 0 then .ok { s with escaped := true }
  else .error .invalidSequence

/-- The loop of `split_name` (libbuild2/target.cxx:351-407) over the reversed string. Returns the
variables and `p`, the beginning of the leaf. -/
def scan : Nat → List Char → Scan → Except Err (Scan × Nat)
  | _, [], s => .ok (s, 0)
  | k + 1, _ :: l, s => scan k l s
  | 0, c :: l, s =>
    if c = '.' then
      let sn := dots l + 1
      match onDots sn (l.length + 1 - sn) s with
      | .error e => .error e
      | .ok s' => scan (sn - 1) l s'
    else if c = '/' then .ok (s, l.length + 1)
    else scan 0 l { s with dotOnly := false }

/-- The lambda `unescape` (libbuild2/target.cxx:442-470); `none` for the failed assertion. -/
def unescape : Nat → List Char → Option (List Char)
  | _, [] => some []
  | k + 1, _ :: l => unescape k l
  | 0, c :: l =>
    if c = '.' then
      let sn := dots l + 1
      if sn = 1 then (unescape 0 l).map ('.' :: ·)
      else if sn % 2 = 0 then
        (unescape (sn - 1) l).map (List.replicate (sn - sn / 2) '.' ++ ·)
      else none
    else (unescape 0 l).map (c :: ·)

/-- The end of `split_name` (libbuild2/target.cxx:422-478). -/
def finish (v : List Char) (edp : Option Nat) (edn : Nat) (escaped : Bool) (p : Nat) : Out :=
  let (v', r) : List Char × Option (List Char) :=
    match edp with
    | some d =>
      (v.take d,
       if d ≠ v.length - edn then some (v.drop (d + edn))
       else if edn = 1 then some []
       else none)
    | none => (v, if v.getLast? = some '.' then some [] else none)
  if !escaped then .ok v' r
  else
    match unescape 0 (v'.drop p) with
    | none => .assertFailed
    | some l =>
      match r with
      | none => .ok (v'.take p ++ l) none
      | some x =>
        match unescape 0 x with
        | none => .assertFailed
        | some x' => .ok (v'.take p ++ l) (some x')

/-- `target::split_name` (libbuild2/target.cxx:296-479). -/
def split (v : List Char) : Out :=
  if v = [] then .assertFailed
  else
    match scan 0 v.reverse { edp := none, edn := 0, escaped := false, dotOnly := true } with
    | .error e => .err e
    | .ok (s, p) =>
      if s.dotOnly then .err .invalidName
      else if s.edp = some p then
        if s.edn = 3 then .err .leadingTriple
        else finish v none s.edn s.escaped p
      else finish v s.edp s.edn s.escaped p

/-- The lambda `escape` (libbuild2/target.cxx:499-558) over the reversed string; `n` is the size of
the string. Returns the reversed result and whether there is a potential extension dot; `none` for
the failed assertion. -/
def escape (name : Bool) (n : Nat) : Nat → List Char → Option (List Char × Bool)
  | _, [] => some ([], false)
  | k + 1, c :: l => (escape name n k l).map fun (o, r) => (c :: o, r)
  | 0, c :: l =>
    if c = '.' then
      let sn := dots l + 1
      let i := l.length + 1 - sn
      let esc := decide (sn ≠ 1) || (name && decide (i = n - 1))
      let ext := decide (sn = 1) && !(name && decide (i = n - 1)) &&
        !(name && (decide (i = 0) || decide ((l.drop (sn - 1)).head? = some '/')))
      (escape name n (sn - 1) l).map fun (o, r) =>
        ((if esc then List.replicate sn '.' else []) ++ c :: o, ext || r)
    else if c = '/' then
      if name then some (c :: l, false) else none
    else (escape name n 0 l).map fun (o, r) => (c :: o, r)

/-- `target::combine_name` (libbuild2/target.cxx:489-585); `none` for a failed assertion (or the
undefined `back ()` of an empty string). -/
def combine (v : List Char) (e : Option (List Char)) (de : Bool) : Option (List Char) :=
  if v = [] then none
  else
    match escape true v.length 0 v.reverse with
    | none => none
    | some (o, ed) =>
      let v' := o.reverse
      if v'.getLast? = some '.' then
        if e = none ∨ e = some [] then some v' else none
      else
        match e with
        | some x =>
          match escape false x.length 0 x.reverse with
          | none => none
          | some (y, b) => some (v' ++ (if b then ['.', '.', '.'] else ['.']) ++ y.reverse)
        | none => if de && ed then some (v' ++ ['.', '.', '.']) else some v'

end Verif.Name
