/-! Model of the parser of make dependency declarations, libbuild2/make-parser.cxx (POSIX). The
position in the line is represented by the rest of the line. Paths are strings: the conversion to
`path`, which can fail, is not modelled. -/

namespace Verif.Make

/-- `state` (libbuild2/make-parser.hxx:28). -/
inductive St where
  | begin | targets | prereqs | fin
  deriving DecidableEq, Repr

/-- `type` (libbuild2/make-parser.hxx:46). -/
inductive Ty where
  | target | prereq
  deriving DecidableEq, Repr

/-- Outcomes other than success: the diagnostics, the assertion in `next`, and the driver's loop not
ending (which does not exist in the code). Used by `next` (libbuild2/make-parser.cxx:12-66). -/
inductive Bad where
  | endBeforeColon | colonBeforeTarget | colonAfterPrereq | incomplete | assertFailed | stuck
  deriving DecidableEq, Repr

/-- Skip spaces (libbuild2/make-parser.cxx:82,156). -/
def skip : List Char → List Char
  | [] => []
  | c :: l => if c = ' ' then skip l else c :: l

/-- The characters `strchr` finds in `escapable` (libbuild2/make-parser.cxx:73), the terminating NUL
included. -/
def found (c : Char) : Bool := c = '\\' ∨ c = ' ' ∨ c = ':' ∨ c = '#' ∨ c = '\x00'

/-- The scanning loop (libbuild2/make-parser.cxx:99-152): the string and the rest of the line. -/
def scan : List Char → List Char × List Char
  | [] => ([], [])
  | [c] =>
    if c = ' ' ∨ c = ':' ∨ c = '\\' then ([], [c]) else ([c], [])
  | c :: d :: l =>
    if c = ' ' ∨ c = ':' then ([], c :: d :: l)
    else if c = '\\' then
      if found d then (d :: (scan l).1, (scan l).2)
      else (c :: (scan (d :: l)).1, (scan (d :: l)).2)
    else if c = '$' then
      if d = '$' then (c :: (scan l).1, (scan l).2)
      else (c :: (scan (d :: l)).1, (scan (d :: l)).2)
    else (c :: (scan (d :: l)).1, (scan (d :: l)).2)

/-- The static `next` (libbuild2/make-parser.cxx:75-170): the string, whether this is the end, and
the rest of the line. -/
def lowNext (l : List Char) : List Char × Bool × List Char :=
  let (r, l) := scan (skip l)
  match skip l with
  | [] => (r, true, [])
  | [c] => if c = '\\' then (r, false, []) else (r, false, [c])
  | l => (r, false, l)

/-- The member `next` (libbuild2/make-parser.cxx:12-66). -/
def next (s : St) (l : List Char) : Except Bad (St × Ty × List Char × List Char) :=
  if s = .fin then .error .assertFailed
  else
    let t := if s = .prereqs then .prereq else .target
    let (r, e, l) := lowNext l
    let s1 : Except Bad St :=
      if e then
        if s = .begin ∧ r = [] then .ok s
        else if s ≠ .prereqs then .error .endBeforeColon
        else .ok .fin
      else if s = .begin ∧ r ≠ [] then .ok .targets
      else .ok s
    match s1 with
    | .error b => .error b
    | .ok s =>
      match l with
      | ':' :: l' =>
        match s with
        | .begin => .error .colonBeforeTarget
        | .prereqs => .error .colonAfterPrereq
        | .targets => .ok (if l' = [] then .fin else .prereqs, t, r, l')
        | .fin => .ok (.fin, t, r, l')
      | l => .ok (s, t, r, l)

/-- The recommended loop over a line (libbuild2/make-parser.test.cxx:53-64,
libbuild2/adhoc-rule-buildscript.cxx:1591-1623): empty paths are skipped. The first argument bounds
the number of iterations. -/
def parseLine : Nat → St → List Char → Except Bad (St × List (Ty × List Char))
  | 0, _, _ => .error .stuck
  | n + 1, s, l =>
    match next s l with
    | .error b => .error b
    | .ok (s, t, r, l) =>
      let out := if r = [] then [] else [(t, r)]
      if l = [] then .ok (s, out)
      else
        match parseLine n s l with
        | .error b => .error b
        | .ok (s, out') => .ok (s, out ++ out')

/-- The loop over the lines (libbuild2/adhoc-rule-buildscript.cxx:1581-1627): what was parsed, and the
lines left after the end of the declaration. -/
def parseLines : St → List (List Char) → Except Bad (List (Ty × List Char) × List (List Char))
  | _, [] => .error .incomplete
  | s, l :: ls =>
    match parseLine (l.length + 1) s l with
    | .error b => .error b
    | .ok (s, out) =>
      if s = .fin then .ok (out, ls)
      else
        match parseLines s ls with
        | .error b => .error b
        | .ok (out', rest) => .ok (out ++ out', rest)

end Verif.Make
