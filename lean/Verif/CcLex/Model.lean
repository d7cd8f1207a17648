import Verif.CcLex.Spec

/-!
# C and C++ tokens: model

The lexer that computes the checksum of a translation unit, `libbuild2/cc/lexer.cxx`.

Simplifications, throughout:

- The input has no line continuations (a backslash before a newline or a carriage return): `peek()`
  (lexer.cxx 46-91) removes them outside of raw string literals.
- Scans of the buffer (for example, 452-482) are the same as repeated `get()`.
- The line is the logical line (`log_line_`) if it has been set and the physical one otherwise: both are
  incremented by each newline (`get()`, 119-129, and 1125-1129). The column is only whether it is 1, the
  position is not modelled.
- `skip_spaces()` returns the character that it has stopped at and here that character is still in the
  input. So `unget()` (361, 1035) is to leave the input as it is.
- The state of the hash is what has been appended to it.
-/

namespace Verif.CcLex

/-- Failures. -/
inductive Err where
  /-- Unterminated comment (lexer.cxx 1102). -/
  | comment
  /-- Unterminated literal (lexer.cxx 661, 694). -/
  | unterminated
  /-- Invalid raw string literal (lexer.cxx 765, 784). -/
  | raw
  /-- Unexpected include directive (lexer.cxx 237). -/
  | include
  /-- Line number expected (lexer.cxx 251). -/
  | lineNumber
  /-- The exception thrown by `stoull()` (lexer.cxx 844), which is not handled. -/
  | overflow
  /-- Unterminated file name (lexer.cxx 870). -/
  | fileName
  /-- Unsupported escape sequence (lexer.cxx 885). -/
  | escape
  /-- Invalid path (lexer.cxx 956). -/
  | path
  /-- The model ran out of steps. -/
  | steps
deriving DecidableEq

/-- Where `skip_spaces()` is. Used by `skip` (lexer.cxx 1038-1168). -/
inductive Mode where
  /-- Between comments. -/
  | code
  /-- In a comment to the end of line. -/
  | line
  /-- At the second character of the beginning of a block comment. -/
  | opening
  /-- In a block comment. -/
  | block
  /-- At the second character of the end of a block comment. -/
  | closing
deriving DecidableEq

/-- `lexer::skip_spaces()` (lexer.cxx 1038-1168): whether the token that follows is the first on its line,
the line and the rest of the input. -/
def skip (nl : Bool) : Mode → Bool → UInt64 → Str → Except Err (Bool × UInt64 × Str)
  | .block, _, _, [] => .error .comment
  | .opening, _, _, [] => .error .comment
  | .closing, _, _, [] => .error .comment
  | _, f, l, [] => .ok (f, l, [])
  | .code, f, l, c :: r =>
    if c = '\n' then
      if nl then skip nl .code true (plus l 1) r else .ok (f, l, c :: r)
    else if isSpace c then skip nl .code f l r
    else if c = '/' ∧ r.head? = some '/' then skip nl .line f l r
    else if c = '/' ∧ r.head? = some '*' then skip nl .opening f l r
    else .ok (f, l, c :: r)
  | .line, f, l, c :: r =>
    if c = '\n' then
      if nl then skip nl .code true (plus l 1) r else .ok (f, l, c :: r)
    else skip nl .line f l r
  | .opening, f, l, _ :: r => skip nl .block f l r
  | .block, f, l, c :: r =>
    if c = '*' ∧ r.head? = some '/' then skip nl .closing f l r
    else if c = '\n' then skip nl .block f (plus l 1) r
    else skip nl .block f l r
  | .closing, f, l, _ :: r => skip nl .code f l r

/-- A token: its kind, the characters that are hashed and the rest of the input.
Used by `quoted` (lexer.cxx 648-681). -/
structure Lexed where
  kind : Kind
  text : Str
  rest : Str
deriving DecidableEq

/-- `lexer::number_literal()` (lexer.cxx 546-646) after the first character. The first argument is whether
the previous character was that of an exponent (620-628). -/
def number : Bool → Str → Str × Str
  | _, [] => ([], [])
  | e, c :: r =>
    if e && isSign c then (c :: (number false r).1, (number false r).2)
    else if endsNumber c then ([], c :: r)
    else (c :: (number (isExp c) r).1, (number (isExp c) r).2)

/-- `lexer::char_literal()` (lexer.cxx 648-681) and `string_literal()` (683-730) until the closing quote,
which is included. The second argument is the previous character. -/
def literal (q : Char) : Char → Str → Option (Str × Str)
  | _, [] => none
  | p, c :: r =>
    if c = '\n' then none
    else if c = q ∧ p ≠ '\\' then some ([c], r)
    else (literal q (if c = '\\' ∧ p = '\\' then '\x00' else c) r).map fun x => (c :: x.1, x.2)

/-- The check for a suffix (lexer.cxx 677-678, 726-727, 802-803) and `lexer::literal_suffix()` (809-817). -/
def suffix (s : Str) : Str × Str :=
  match s with
  | [] => ([], [])
  | c :: r => if c = '_' ∨ c.isAlpha then (c :: r.takeWhile isWord, r.dropWhile isWord) else ([], s)

/-- The delimiter of a raw string literal (lexer.cxx 755-771), without the parenthesis. -/
def delimiter : Str → Option (Str × Str)
  | [] => none
  | c :: r =>
    if c = ')' ∨ c = '\\' ∨ c = ' ' then none
    else if c = '(' then some ([], r)
    else (delimiter r).map fun x => (c :: x.1, x.2)

/-- The next position to match in a raw string literal (lexer.cxx 786-793). -/
def position (d : Str) (i : Nat) (c : Char) : Nat :=
  let i := if d[i]? ≠ some c ∧ i ≠ 0 then 0 else i
  if d[i]? = some c then i + 1 else i

/-- The characters of a raw string literal until the closing delimiter (lexer.cxx 776-795), which is
included. -/
def rawBody (d : Str) : Nat → Str → Option (Str × Str)
  | _, [] => none
  | i, c :: r =>
    if position d i c = d.length then some ([c], r)
    else (rawBody d (position d i c) r).map fun x => (c :: x.1, x.2)

/-- How many characters of an identifier before a quote are those of a prefix, and whether it is one for a
raw string literal (lexer.cxx 490-520). -/
def prefixed (q : Char) (id : Str) : Nat × Bool :=
  if id.head? = some 'u' ∨ id.head? = some 'L' ∨ id.head? = some 'U' then
    let i := if id.head? = some 'u' ∧ id[1]? = some '8' then 2 else 1
    if q = '"' ∧ id[i]? = some 'R' then (i + 1, true) else (i, false)
  else if id.head? = some 'R' then
    if q = '"' then (1, true) else (0, false)
  else (0, false)

/-- `lexer::char_literal()` (lexer.cxx 648-681) and `string_literal()` (683-730). The text before is `p`,
with the quote. -/
def quoted (q : Char) (k : Kind) (p r : Str) : Except Err Lexed :=
  match literal q q r with
  | none => .error .unterminated
  | some (b, r) => .ok ⟨k, p ++ b ++ (suffix r).1, (suffix r).2⟩

/-- `lexer::raw_string_literal()` (lexer.cxx 732-806). -/
def rawString (p r : Str) : Except Err Lexed :=
  match delimiter r with
  | none => .error .raw
  | some (d, r) =>
    match rawBody (')' :: d ++ ['"']) 0 r with
    | none => .error .raw
    | some (b, r) => .ok ⟨.string, p ++ d ++ ['('] ++ b ++ (suffix r).1, (suffix r).2⟩

/-- A literal after its opening quote (lexer.cxx 523-541). -/
def literalToken (raw : Bool) (p : Str) (q : Char) (r : Str) : Except Err Lexed :=
  if q = '\'' then quoted q .character p r
  else if raw then rawString p r
  else quoted q .string p r

/-- Identifiers and literals with a prefix (lexer.cxx 429-521). -/
def identifier (c : Char) (r : Str) : Except Err Lexed :=
  let id := c :: r.takeWhile isWord
  match r.dropWhile isWord with
  | [] => .ok ⟨.identifier, id, []⟩
  | q :: r =>
    if (q = '\'' ∨ q = '"') ∧ (prefixed q id).1 = id.length then
      literalToken (prefixed q id).2 (id ++ [q]) q r
    else .ok ⟨.identifier, id, q :: r⟩

/-- `lexer::next()` for the first character `c` of a token (lexer.cxx 183-543), which is not the `#` of a
directive. -/
def lexeme (c : Char) (r : Str) : Except Err Lexed :=
  if c = ';' then .ok ⟨.semi, [c], r⟩
  else if c = '{' then .ok ⟨.lcbrace, [c], r⟩
  else if c = '}' then .ok ⟨.rcbrace, [c], r⟩
  else if c ∈ ['#', '(', ')', '[', ']', ',', '?', '~', '\\'] then .ok ⟨.punctuation, [c], r⟩
  else if c = '.' then
    match r with
    | [] => .ok ⟨.dot, [c], r⟩
    | p :: r' =>
      if p = '*' then .ok ⟨.punctuation, [c, p], r'⟩
      else if p.isDigit then .ok ⟨.number, c :: (number false r).1, (number false r).2⟩
      else if p = '.' ∧ r'.head? = some '.' then .ok ⟨.punctuation, [c, p, '.'], r'.tail⟩
      else .ok ⟨.dot, [c], r⟩
  else if c ∈ ['=', '!', '*', '/', '%', '^'] then
    if r.head? = some '=' then .ok ⟨.punctuation, [c, '='], r.tail⟩ else .ok ⟨.punctuation, [c], r⟩
  else if c = '<' ∨ c = '>' then
    if r.head? = some c then
      if r.tail.head? = some '=' then .ok ⟨.punctuation, [c, c, '='], r.tail.tail⟩
      else .ok ⟨.punctuation, [c, c], r.tail⟩
    else if r.head? = some '=' then .ok ⟨.punctuation, [c, '='], r.tail⟩
    else .ok ⟨if c = '<' then .less else .greater, [c], r⟩
  else if c = '+' ∨ c = '-' then
    if r.head? = some c ∨ r.head? = some '=' then .ok ⟨.punctuation, c :: r.take 1, r.tail⟩
    else if c = '-' ∧ r.head? = some '>' then
      if r.tail.head? = some '*' then .ok ⟨.punctuation, [c, '>', '*'], r.tail.tail⟩
      else .ok ⟨.punctuation, [c, '>'], r.tail⟩
    else .ok ⟨.punctuation, [c], r⟩
  else if c = '&' ∨ c = '|' then
    if r.head? = some c ∨ r.head? = some '=' then .ok ⟨.punctuation, c :: r.take 1, r.tail⟩
    else .ok ⟨.punctuation, [c], r⟩
  else if c = ':' then
    if r.head? = some ':' then .ok ⟨.scope, [c, ':'], r.tail⟩ else .ok ⟨.colon, [c], r⟩
  else if c.isDigit then .ok ⟨.number, c :: (number false r).1, (number false r).2⟩
  else if isWord c then identifier c r
  else if c = '\'' ∨ c = '"' then literalToken false [c] c r
  else .ok ⟨.other, [c], r⟩

/-- A token as returned (lexer.hxx 63-82). The value is only meaningful for identifiers, here it is the text
for all. -/
structure Tok where
  kind : Kind
  first : Bool
  line : UInt64
  value : Str
deriving DecidableEq

/-- The lexer (lexer.hxx 179-193): the line, the file, what is hashed and what is left. -/
structure St where
  inp : Str
  line : UInt64
  file : File
  cs : List Hashed
deriving DecidableEq

/-- A token in a directive (lexer.cxx 228, 265, with 171-172 and 183-543): its line and characters are
hashed. -/
def nested (s : St) (c : Char) (r : Str) : Except Err (Lexed × St) :=
  match lexeme c r with
  | .error e => .error e
  | .ok t => .ok (t, { s with inp := t.rest, line := plus s.line (newlines t.text),
                              cs := s.cs ++ [.line s.line] ++ t.text.map .char })

/-- The tail of a directive until the end of the line (lexer.cxx 207-266 other than for the first token). -/
def args : Nat → St → Except Err St
  | 0, _ => .error .steps
  | n + 1, s =>
    match skip false .code false s.line s.inp with
    | .error e => .error e
    | .ok (_, l, []) => .ok { s with inp := [], line := l }
    | .ok (_, l, c :: r) =>
      if c = '\n' then .ok { s with inp := r, line := plus l 1 }
      else
        match nested { s with line := l } c r with
        | .error e => .error e
        | .ok (_, s) => args n s

/-- The file name of a line directive (lexer.cxx 863-921) after the opening quote. The first argument is
whether the previous character was a backslash. -/
def fileName : Bool → Str → Except Err (Str × Str)
  | _, [] => .error .fileName
  | e, c :: r =>
    if c = '\n' then .error .fileName
    else if e then
      if c = '\\' ∨ c = '\'' ∨ c = '"' then (fileName false r).map fun x => (c :: x.1, x.2)
      else .error .escape
    else if c = '\\' then fileName true r
    else if c = '"' then .ok ([], r)
    else (fileName false r).map fun x => (c :: x.1, x.2)

/-- The path without the trailing slashes and whether there are any (libbutl's `path`, which is not in the
repository). The root directory is with its slash. Used by `switch` (lexer.cxx 923-984). -/
def toPath (s : Str) : File :=
  if s.getLast? = some '/' then
    let t := (s.reverse.dropWhile (· = '/')).reverse
    .path (if t = [] then ['/'] else t) true
  else .path s false

/-- The file name is applied (lexer.cxx 923-984). What is hashed is the path as it is now, so without the
trailing slashes, if it is not for a directory. -/
def switch (f : File) (s : Str) : Except Err (List Hashed × File) :=
  if s = [] then .error .path
  else if s.head? = some '<' ∧ s.getLast? = some '>' then
    if f = .name s then .ok ([], f) else .ok ([.file s], .name s)
  else
    if f = .path s true ∨ f = .path s false then .ok ([], f)
    else
      match toPath s with
      | .path t true => .ok ([], .path t true)
      | .path t false => .ok ([.file t], .path t false)
      | .name t => .ok ([.file t], .name t)

/-- `stoull()` of digits. Used by `lineDirective` (lexer.cxx 819-1036). -/
def stoull (ds : Str) : Option UInt64 :=
  if value ds < 2 ^ 64 then some (UInt64.ofNat (value ds)) else none

/-- `lexer::line_directive()` (lexer.cxx 819-1036). Enters at the first digit. -/
def lineDirective (s : St) : Except Err St :=
  match stoull (s.inp.takeWhile Char.isDigit) with
  | none => .error .overflow
  | some n =>
    match skip false .code false (n - 1) (s.inp.dropWhile Char.isDigit) with
    | .error e => .error e
    | .ok (_, l, []) => .ok { s with inp := [], line := l }
    | .ok (_, l, c :: r) =>
      if c = '"' then
        match fileName false r with
        | .error e => .error e
        | .ok (n, r) =>
          match switch s.file n with
          | .error e => .error e
          | .ok (hs, f) => .ok { s with inp := r, line := l, file := f, cs := s.cs ++ hs }
      else .ok { s with inp := c :: r, line := l }

/-- The beginning of a directive (lexer.cxx 207-263) after its `#`. -/
def directive (pre : Bool) (s : St) : Except Err St :=
  match skip false .code false s.line s.inp with
  | .error e => .error e
  | .ok (_, l, []) => .ok { s with inp := [], line := l }
  | .ok (_, l, c :: r) =>
    if c = '\n' then .ok { s with inp := r, line := plus l 1 }
    else if c.isDigit then
      match lineDirective { s with inp := c :: r, line := l } with
      | .error e => .error e
      | .ok s => args (s.inp.length + 1) s
    else
      match nested { s with line := l } c r with
      | .error e => .error e
      | .ok (t, s) =>
        if t.kind = .identifier ∧ t.text = "line".toList then
          match skip false .code false s.line s.inp with
          | .error e => .error e
          | .ok (_, l, r) =>
            if (r.head?.map Char.isDigit).getD false then
              match lineDirective { s with inp := r, line := l } with
              | .error e => .error e
              | .ok s => args (s.inp.length + 1) s
            else .error .lineNumber
        else if pre ∧ t.kind = .identifier ∧ t.text = "include".toList then .error .include
        else args (s.inp.length + 1) s

/-- Calls to `lexer::next()` until the end (lexer.cxx 146-544, as by parser.cxx 43): the tokens and the
state at the end. The second argument is whether the column is 1. -/
def run (pre : Bool) : Nat → Bool → St → Except Err (List Tok × St)
  | 0, _, _ => .error .steps
  | n + 1, v, s =>
    match skip true .code v s.line s.inp with
    | .error e => .error e
    | .ok (_, l, []) => .ok ([], { s with inp := [], line := l })
    | .ok (f, l, c :: r) =>
      if c = '#' then
        match directive pre { s with inp := r, line := l, cs := s.cs ++ [.line l, .char c] } with
        | .error e => .error e
        | .ok s => run pre n true s
      else
        match lexeme c r with
        | .error e => .error e
        | .ok t =>
          match run pre n false { s with inp := t.rest, line := plus l (newlines t.text),
                                         cs := s.cs ++ [.line l] ++ t.text.map .char } with
          | .error e => .error e
          | .ok (ts, s) => .ok (⟨t.kind, f, l, t.text⟩ :: ts, s)

/-- The lexer (lexer.hxx 88-95) applied to a source: its tokens and what its checksum is of. The physical line
starts at 1. -/
def lex (pre : Bool) (f : File) (s : Str) : Except Err (List Tok × List Hashed) :=
  match run pre (s.length + 1) true ⟨s, 1, f, []⟩ with
  | .error e => .error e
  | .ok (ts, s) => .ok (ts, s.cs)

end Verif.CcLex
