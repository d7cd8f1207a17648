import Verif.Quote.Spec

/-! Model of how names are printed with quoting, `to_stream (ostream&, const name&)` and
`to_stream (ostream&, const names_view&)` (libbuild2/name.cxx:82-340) in the mode
`quote_mode::normal` with `escape` false, and of how the lexer reads them in the mode
`lexer_mode::value` (libbuild2/lexer.cxx).

Simplifications: strings are lists of characters. The characters the scanner rejects or translates
(control characters other than tab and newline, NUL and carriage return among them) do not occur.
Names have no project. The directory is printed as it is (`stream_verb::path` at least 1). Comments
are not modelled: they become the token `comment`. -/

namespace Verif.Quote

/-- The characters in `nsc` other than the pair character (libbuild2/name.cxx:105-111). -/
def nsc : List Char :=
  ['{', '}', '[', ']', '$', '(', ')', ' ', '\t', '\n', '#', '\\', '"', '%']

/-- The escaping inside double quotes (libbuild2/name.cxx:160-166). -/
def escapeDq : List Char → List Char
  | [] => []
  | c :: l => if c ∈ ['\\', '$', '(', '"'] then '\\' :: c :: escapeDq l else c :: escapeDq l

/-- `write_string` (libbuild2/name.cxx:87-203); the lambda `rc` (libbuild2/name.cxx:117-120) is
`regexLike`. -/
def writeString (pair : Char) (v : List Char) (pat : Option Pat) (curly : Bool) : List Char :=
  (match pat with
   | some .regex => ['~']
   | some .subst => ['^']
   | _ => []) ++
  if '\'' ∈ v then '"' :: escapeDq v ++ ['"']
  else if v.any (fun c => c ∈ nsc || c = pair) || (pat = none && v.any (· ∈ ['*', '?'])) then
    '\'' :: v ++ ['\'']
  else if (pat = none ∨ pat = some .path) ∧ ((v.head? = some '+' ∧ curly = true) ∨ regexLike v) then
    '\\' :: v
  else v

/-- `to_stream (ostream&, const name&)` (libbuild2/name.cxx:228-315). -/
def printName (pair : Char) (n : Nm) : List Char :=
  let d := n.dir ≠ []
  let v := n.value ≠ []
  let t := n.type ≠ []
  if ¬ d ∧ ¬ v ∧ ¬ t then ['\'', '\'']
  else if d ∧ v ∧ ¬ t ∧ n.pat = none then writeString pair (n.dir ++ n.value) none false
  else
    let pd := if v then n.dir else if t then n.pdir else []
    let curly : Bool := t ∨ (¬ d ∧ ¬ v)
    (if pd ≠ [] then writeString pair pd none false else []) ++
    (if curly then (if t then writeString pair n.type none false else []) ++ ['{'] else []) ++
    (if v then writeString pair n.value n.pat curly
     else if d then
       if pd ≠ [] then writeString pair n.leaf n.pat curly
       else writeString pair n.dir n.pat curly
     else []) ++
    (if curly then ['}'] else [])

/-- `to_stream (ostream&, const names_view&)` (libbuild2/name.cxx:317-339). -/
def printNames (pair : Char) : List Nm → List Char
  | [] => []
  | n :: ns =>
    printName pair n ++
    (if n.pair then [pair] else if ns ≠ [] then [' '] else []) ++
    printNames pair ns

/-! The lexer. -/

/-- `quote_type` (libbuild2/token.hxx). -/
inductive QT where
  | unquoted | single | double | mixed
  deriving DecidableEq, Repr

/-- The flags of a word: `qtype`, `qcomp` and `qfirst`.
Used by `appendQ` (libbuild2/lexer.cxx:698-711). -/
structure Q where
  qt : QT
  comp : Bool
  first : Bool
  deriving DecidableEq, Repr

/-- The top of the mode stack of the lexer: `value`, or one of the quoted modes on top of it.
Used by `appendQ` (libbuild2/lexer.cxx:698-711). -/
inductive Mode where
  | value | single | double
  deriving DecidableEq, Repr

/-- Tokens. Used by `nextValue` (libbuild2/lexer.cxx:229-485). -/
inductive Tok where
  | word (text : List Char) (q : Q)
  | lcbrace | rcbrace | pairSep | newline | eos | dollar | lparen | rparen | lsbrace
  | comment
  deriving DecidableEq, Repr

/-- The position in the text: the previous character and the rest.
Used by `wordLoop` (libbuild2/lexer.cxx:713-1035). -/
structure Pos where
  prev : Char
  rest : List Char
  deriving DecidableEq, Repr

/-- `sep_first` of the `value` mode (libbuild2/lexer.cxx:93-98); all are single characters. -/
def seps : List Char := [' ', '$', '(', ')', '{', '}', '#', '\t', '\n']

/-- The escapes in the double-quoted mode (libbuild2/lexer.cxx:917). -/
def dqEscapes : List Char := ['$', '(', ')', '"', '\\', '\n']

/-- The lambda `append` in `word ()` (libbuild2/lexer.cxx:698-711): the flags. -/
def appendQ (m : Mode) (escaped : Bool) (lexeme : List Char) (q : Q) : Q :=
  let q := if lexeme = [] ∧ (escaped ∨ m = .double) then { q with first := true } else q
  if m ≠ .double ∧ q.comp then { q with comp := false } else q

/-- The flags after an opening single quote (libbuild2/lexer.cxx:933-958). -/
def openSingle (lexeme : List Char) (q : Q) : Q :=
  let q := match q.qt with
    | .unquoted => { q with qt := .single, comp := decide (lexeme = []) }
    | .single => { q with comp := false }
    | .double => { q with qt := .mixed, comp := false }
    | .mixed => { q with comp := false }
  if lexeme = [] then { q with first := true } else q

/-- The flags after an opening double quote (libbuild2/lexer.cxx:975-1000). -/
def openDouble (lexeme : List Char) (q : Q) : Q :=
  let q := match q.qt with
    | .unquoted => { q with qt := .double, comp := decide (lexeme = []) }
    | .double => { q with comp := false }
    | .single => { q with qt := .mixed, comp := false }
    | .mixed => { q with comp := false }
  if lexeme = [] then { q with first := true } else q

/-- The loop of `word ()` (libbuild2/lexer.cxx:713-1035) with the mode stack `value` or a quoted mode
on top of it; in the `value` mode of a buildfile every character can be escaped (`escapes` is
`nullptr`). Returns the mode, the text, the flags and the position, or `none` for an error. -/
def wordLoop (pair : Char) : Mode → List Char → Q → Char → List Char →
    Option (Mode × List Char × Q × Pos)
  | m, lexeme, q, prev, [] => if m = .value then some (m, lexeme, q, ⟨prev, []⟩) else none
  | .single, lexeme, q, _, c :: l =>
    if c = '\'' then wordLoop pair .value lexeme q c l
    else wordLoop pair .single (lexeme ++ [c]) q c l
  | .double, lexeme, q, prev, c :: l =>
    if c = '\\' then
      match l with
      | p :: l' =>
        if p ∈ dqEscapes then
          if p ≠ '\n' then wordLoop pair .double (lexeme ++ [p]) (appendQ .double true lexeme q) p l'
          else wordLoop pair .double lexeme q p l'
        else wordLoop pair .double (lexeme ++ [c]) (appendQ .double false lexeme q) c (p :: l')
      | [] => none
    else if c = '$' ∨ c = '(' then some (.double, lexeme, { q with comp := false }, ⟨prev, c :: l⟩)
    else if c = '"' then wordLoop pair .value lexeme q c l
    else wordLoop pair .double (lexeme ++ [c]) (appendQ .double false lexeme q) c l
  | .value, lexeme, q, prev, c :: l =>
    if c = '\\' then
      match l with
      | p :: l' =>
        if p ≠ '\n' then wordLoop pair .value (lexeme ++ [p]) (appendQ .value true lexeme q) p l'
        else wordLoop pair .value lexeme q p l'
      | [] => none
    else if c = pair ∨ c ∈ seps then some (.value, lexeme, q, ⟨prev, c :: l⟩)
    else if c = '\'' then wordLoop pair .single lexeme (openSingle lexeme q) c l
    else if c = '"' then wordLoop pair .double lexeme (openDouble lexeme q) c l
    else wordLoop pair .value (lexeme ++ [c]) (appendQ .value false lexeme q) c l

/-- `skip_spaces ()` (libbuild2/lexer.cxx:1061-1180) in the `value` mode: whether something was
skipped, and the position. `start`: the position was at the beginning of a line. -/
def skipSpaces (start : Bool) : Bool → Char → List Char → Bool × Pos
  | r, prev, [] => (r, ⟨prev, []⟩)
  | r, prev, c :: l =>
    if c = ' ' ∨ c = '\t' then skipSpaces start true c l
    else if c = '\n' then
      if start then skipSpaces start false c l else (r, ⟨prev, c :: l⟩)
    else if c = '\\' then
      match l with
      | d :: l' => if d = '\n' then skipSpaces start r d l' else (r, ⟨prev, c :: d :: l'⟩)
      | [] => (r, ⟨prev, [c]⟩)
    else (r, ⟨prev, c :: l⟩)

/-- `next ()` in the `value` mode (libbuild2/lexer.cxx:229-485); `lsb` enables the recognition of
`[`. Returns the token, whether it is separated, the mode and the position. -/
def nextValue (pair : Char) (lsb : Bool) (p : Pos) : Option (Tok × Bool × Mode × Pos) :=
  let (sep, p) := skipSpaces (p.prev = '\n') false p.prev p.rest
  match p.rest with
  | [] => some (.eos, sep, .value, p)
  | c :: l =>
    if lsb ∧ c = '[' then some (.lsbrace, sep, .value, ⟨c, l⟩)
    else if c = '#' then some (.comment, sep, .value, ⟨c, l⟩)
    else if c = pair then some (.pairSep, sep, .value, ⟨c, l⟩)
    else if c = '\n' then some (.newline, true, .value, ⟨c, l⟩)
    else if c = '$' then some (.dollar, sep, .value, ⟨c, l⟩)
    else if c = ')' then some (.rparen, sep, .value, ⟨c, l⟩)
    else if c = '(' then some (.lparen, sep, .value, ⟨c, l⟩)
    else if c = '{' then some (.lcbrace, sep, .value, ⟨c, l⟩)
    else if c = '}' then some (.rcbrace, sep, .value, ⟨c, l⟩)
    else
      match wordLoop pair .value [] ⟨.unquoted, false, false⟩ p.prev p.rest with
      | none => none
      | some (m, t, q, p') => some (.word t q, sep, m, p')

/-- The tokens of a line, read with `next ()` until (and with) the newline, after which the `value`
mode expires. Each token comes with whether it is separated. If reading ends in another mode, because
of an expansion inside double quotes, then the rest is not modelled and there is no derivation.
Built on `nextValue` (libbuild2/lexer.cxx:229-485). -/
inductive Line (pair : Char) : Bool → Pos → List (Tok × Bool) → Prop
  | newline {lsb p s m p'} : nextValue pair lsb p = some (.newline, s, m, p') →
      Line pair lsb p [(.newline, s)]
  | tok {lsb p t s p' ts} : nextValue pair lsb p = some (t, s, .value, p') → t ≠ .newline →
      t ≠ .eos → Line pair false p' ts → Line pair lsb p ((t, s) :: ts)

/-- What the parser takes for a pattern (libbuild2/parser.cxx:9231-9397, the `preserve` mode; for the
path pattern only the test whether there is a wildcard character); the lambda `regex_pattern`
(libbuild2/parser.cxx:9254-9258) is `regexLike`. -/
def recognise (text : List Char) (q : Q) : Option Pat :=
  if !q.first && regexLike text then (if text.head? = some '~' then some .regex else some .subst)
  else if q.qt = .unquoted && text.any (· ∈ ['*', '?', '[']) then some .path
  else none

/-- What the parser takes for the beginning of a pattern in curly braces
(libbuild2/parser.cxx:9282-9283). -/
def leadingPlus (text : List Char) (q : Q) : Bool :=
  !q.first && text.head? = some '+'

/-- The token is as it should be. Built on `leadingPlus` (libbuild2/parser.cxx:9282-9283). -/
def Agrees : Tok × Bool → View × Bool → Prop
  | (.word t q, s), (.word t' cl curly, s') =>
    s = s' ∧ t = t' ∧
    ∀ p, cl = some p → recognise t q = p ∧ (curly = true → leadingPlus t q = false)
  | (.lcbrace, s), (.lcbrace, s') => s = s'
  | (.rcbrace, s), (.rcbrace, s') => s = s'
  | (.pairSep, s), (.pairSep, s') => s = s'
  | _, _ => False

/-- The tokens, one by one, are as they should be. -/
inductive AllAgree : List (Tok × Bool) → List (View × Bool) → Prop
  | nil : AllAgree [] []
  | cons {t v ts vs} : Agrees t v → AllAgree ts vs → AllAgree (t :: ts) (v :: vs)

end Verif.Quote
