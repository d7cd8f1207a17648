import Verif.ModScan.Spec

/-!
# Modules of a translation unit: model of the code

libbuild2/cc/parser.cxx, and the representation in the dependency database,
libbuild2/cc/compile-rule.cxx:41-164.

Simplifications: the tokens are given as a list (`l_->next (t)` is the next one) with the end
of the list being `eos`; a failure is `none`; locations are left out. A unit of type
`module_header` does not come from the parser.
-/

namespace Verif.ModScan

open CcLex (Tok Kind Str)

/-- What has been found: `u_` and `module_marker_`.
Used by `addModule` (cc/parser.cxx:203-210). -/
structure St where
  info   : Info := ⟨.nonModular, [], []⟩
  marker : Bool := false

/-- cc/parser.cxx:317-336 (`parse_module_name` until the partition) and 348-362
`parse_module_part` after the colon. -/
def dotted : List Tok → Option (Str × List Tok)
  | [] => none
  | [t] => if t.kind ≠ .identifier ∨ t.first = true then none else some (t.value, [])
  | t :: d :: ts =>
    if t.kind ≠ .identifier ∨ t.first = true then none
    else if d.kind ≠ .dot ∨ d.first = true then some (t.value, d :: ts)
    else
      match dotted ts with
      | some (n, r) => some (t.value ++ '.' :: n, r)
      | none => none

/-- cc/parser.cxx:310-343 `parse_module_name` with `part` true. -/
def moduleName (ts : List Tok) : Option (Str × Bool × List Tok) :=
  match dotted ts with
  | none => none
  | some (n, r) =>
    match r with
    | t :: r' =>
      if t.kind = .colon ∧ t.first = false then
        match dotted r' with
        | some (p, r) => some (n ++ ':' :: p, true, r)
        | none => none
      else some (n, false, t :: r')
    | [] => some (n, false, [])

/-- cc/parser.cxx:192-201, 269-278: attributes and the semicolon. -/
def rest : List Tok → Option (List Tok)
  | [] => none
  | t :: ts =>
    if t.kind ≠ .semi ∧ t.first = false then rest ts
    else if t.kind ≠ .semi then none
    else if t.first = true then none
    else some ts

/-- cc/parser.cxx:203-210. -/
def addModule (st : St) (ex : Bool) (n : Str) (p : Bool) : Option St :=
  if st.info.name ≠ [] then none
  else some { st with info := { st.info with
    type := if p then (if ex then .intfPart else .implPart) else (if ex then .intf else .impl)
    name := n } }

/-- cc/parser.cxx:169-211 `parse_module`. -/
def parseModule (st : St) (ex : Bool) (ts : List Tok) : Option (St × List Tok) :=
  match ts with
  | [] => none
  | t :: ts' =>
    if ex = false ∧ t.kind = .semi ∧ t.first = false then some ({ st with marker := true }, ts')
    else
      match moduleName (t :: ts') with
      | none => none
      | some (n, p, r) =>
        match rest r with
        | none => none
        | some r =>
          match addModule st ex n p with
          | none => none
          | some st => some (st, r)

/-- cc/parser.cxx:287-307: duplicates. -/
def addTo (i : Import) : List Import → List Import
  | [] => [i]
  | j :: is =>
    if j.name = i.name then { j with exported := j.exported || i.exported } :: is
    else j :: addTo i is

/-- cc/parser.cxx:287-307. -/
def addImport (st : St) (i : Import) : St :=
  { st with info := { st.info with imports := addTo i st.info.imports } }

/-- cc/parser.cxx:375-391 `parse_header_name` after `<`. -/
def closing : List Tok → Option (List Tok)
  | [] => none
  | t :: ts =>
    if t.kind = .greater then some ts else if t.first = true then none else closing ts

/-- cc/parser.cxx:240-256: the name of the module for a partition. -/
def ownModule (st : St) : Option Str :=
  match st.info.type with
  | .intf => some st.info.name
  | .impl => some st.info.name
  | .intfPart => some (st.info.name.takeWhile (· ≠ ':'))
  | .implPart => some (st.info.name.takeWhile (· ≠ ':'))
  | _ => none

/-- cc/parser.cxx:213-307 `parse_import`. -/
def parseImport (st : St) (ex : Bool) (ts : List Tok) : Option (St × List Tok) :=
  match ts with
  | [] => none
  | t :: ts' =>
    match t.kind with
    | .string => (rest ts').map fun r => (st, r)
    | .less => ((closing ts').bind rest).map fun r => (st, r)
    | .colon =>
      match ownModule st with
      | none => none
      | some m =>
        match dotted ts' with
        | none => none
        | some (p, r) => (rest r).map fun r => (addImport st ⟨true, m ++ ':' :: p, ex⟩, r)
    | .identifier =>
      match dotted (t :: ts') with
      | none => none
      | some (n, r) => (rest r).map fun r => (addImport st ⟨false, n, ex⟩, r)
    | _ => none

/-- cc/parser.cxx:109-112. -/
def isModule (c : Compiler) (v : Str) : Bool :=
  v == "module".toList ||
    ((c == .msvc || c == .clang) && v == "__preprocessed_module".toList)

/-- cc/parser.cxx:123-125. -/
def isImport (c : Compiler) (v : Str) : Bool :=
  v == "import".toList || (c == .clang && v == "__preprocessed_import".toList)

/-- cc/parser.cxx:109-137: a keyword. -/
def keyword (c : Compiler) (st : St) (ex : Bool) (t : Tok) (ts : List Tok) :
    Option (St × List Tok) :=
  if isModule c t.value then
    match ts with
    | u :: us =>
      if (u.kind = .semi ∨ u.kind = .identifier) ∧ u.first = false then
        parseModule st ex (u :: us)
      else some (st, u :: us)
    | [] => some (st, [])
  else if isImport c t.value then
    match ts with
    | u :: us =>
      if (u.kind = .less ∨ u.kind = .colon ∨ u.kind = .string ∨ u.kind = .identifier) ∧
          u.first = false then
        parseImport st ex (u :: us)
      else some (st, u :: us)
    | [] => some (st, [])
  else some (st, ts)

/-- cc/parser.cxx:90-137: an identifier that is the first one on a line. -/
def atFirst (c : Compiler) (st : St) (t : Tok) (ts : List Tok) : Option (St × List Tok) :=
  if t.value = "export".toList then
    match ts with
    | u :: us =>
      if u.kind ≠ .identifier ∨ u.first = true then some (st, u :: us)
      else keyword c st true u us
    | [] => some (st, [])
  else keyword c st false t ts

/-- cc/parser.cxx:41-143: the loop, with a bound on its iterations. -/
def loop (c : Compiler) : Nat → Nat → St → List Tok → Option St
  | 0, _, _, _ => none
  | _ + 1, _, st, [] => some st
  | n + 1, bb, st, t :: ts =>
    if t.kind = .lcbrace then loop c n (bb + 1) st ts
    else if t.kind = .rcbrace then
      if bb = 0 then some st else loop c n (bb - 1) st ts
    else if t.kind = .identifier ∧ bb = 0 ∧ t.first = true then
      match atFirst c st t ts with
      | none => none
      | some (st, r) => loop c n 0 st r
    else loop c n bb st ts

/-- cc/parser.cxx:17-166 `parse`. -/
def parse (c : Compiler) (ts : List Tok) : Option Info :=
  match loop c (ts.length + 1) 0 {} ts with
  | none => none
  | some st => if st.marker = true ∧ st.info.name = [] then none else some st.info

/-- The lexer and the parser together. Built on `parse` (cc/parser.cxx:17-166). -/
def parseSource (c : Compiler) (f : CcLex.File) (s : Str) : Option Info :=
  match CcLex.lex true f s with
  | .ok (ts, _) => parse c ts
  | .error _ => none

/-! ## The dependency database -/

/-- compile-rule.cxx:85-97: imports. -/
def importsText : List Import → Bool → Str
  | [], _ => []
  | i :: is, sep =>
    (if sep then [' '] else []) ++ i.name ++ (if i.exported then ['*'] else []) ++
      importsText is true

/-- compile-rule.cxx:69-98 `to_string`. There are no imports of header units. -/
def toText (u : Info) : Str :=
  let s : Str :=
    match u.type with
    | .nonModular => []
    | .header => '"' :: u.name ++ ['"', '!']
    | .impl => u.name ++ ['+']
    | .implPart => u.name ++ ['+']
    | .intf => u.name ++ ['!']
    | .intfPart => u.name ++ ['!']
  s ++ importsText u.imports (!s.isEmpty)

/-- One of the marks. Used by `words` (compile-rule.cxx:100-164). -/
def isMark (c : Char) : Bool := c == '!' || c == '+' || c == '*'

/-- compile-rule.cxx:100-164 `to_module_info`, on what is left of the string, with a bound on
the number of words. `next_word` (libbutl) skips delimiters and returns what is before the
next one. -/
def words : Nat → Str → Info → Info
  | 0, _, u => u
  | _ + 1, [], u => u
  | n + 1, x :: xs, u =>
    let d : Char := if x = '"' then '"' else ' '
    let s := (x :: xs).dropWhile (· = d)
    if s.isEmpty then u
    else
      let w := s.takeWhile (· ≠ d)
      let r := s.dropWhile (· ≠ d)
      let c : Option Char := if d = ' ' then w.getLast? else (r.drop 1).head?
      let c : Option Char := c.filter isMark
      let w := if d = ' ' ∧ c.isSome then w.dropLast else w
      let u : Info :=
        if c = some '!' ∨ c = some '+' then
          { u with
            type :=
              if d = ' ' then
                if w.contains ':' then (if c = some '!' then .intfPart else .implPart)
                else (if c = some '!' then .intf else .impl)
              else .header
            name := w }
        else
          { u with imports := u.imports ++ [⟨w.contains ':', w, c = some '*'⟩] }
      words n (r.drop (if d = '"' then 2 else 1)) u

/-- compile-rule.cxx:100-164 `to_module_info`. -/
def ofText (s : Str) : Info := words s.length s ⟨.nonModular, [], []⟩

end Verif.ModScan
