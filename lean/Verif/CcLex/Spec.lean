/-!
# C and C++ tokens: specification

What tokens there are in a (preprocessed) C or C++ source, on which lines, and which of that takes part
in the checksum that is used to decide whether the source has changed. Characters are bytes.
-/

namespace Verif.CcLex

/-- A text. -/
abbrev Str := List Char

/-- The kinds of tokens. -/
inductive Kind where
  | dot | semi | colon | scope | less | greater | lcbrace | rcbrace | punctuation
  | identifier | number | character | string | other
deriving DecidableEq

/-- Lines are counted modulo 2^64. -/
def plus (l : UInt64) (k : Nat) : UInt64 := l + UInt64.ofNat k

/-- The number of newlines. -/
def newlines (t : Str) : Nat := t.count '\n'

/-- A space other than the newline. -/
def isSpace (c : Char) : Bool := [' ', '\t', '\r', '\x0c', '\x0b'].contains c

/-- A character of an identifier. -/
def isWord (c : Char) : Bool := c.isAlphanum || c == '_'

/-! ## Between tokens -/

/-- Spaces and comments between tokens, with (`nl`) or without newlines outside of comments: what is
before and after, how many newlines are passed, and whether some of them are outside of comments. A
comment to the end of the line does not include the newline. -/
inductive Gap (nl : Bool) : Str → Str → Nat → Bool → Prop
  | nil {s : Str} : Gap nl s s 0 false
  | space {c : Char} {s r : Str} {k : Nat} {b : Bool} : isSpace c = true → Gap nl s r k b →
      Gap nl (c :: s) r k b
  | newline {s r : Str} {k : Nat} {b : Bool} : nl = true → Gap nl s r k b →
      Gap nl ('\n' :: s) r (k + 1) true
  | line {t s r : Str} {k : Nat} {b : Bool} : '\n' ∉ t → (s = [] ∨ s.head? = some '\n') →
      Gap nl s r k b → Gap nl ('/' :: '/' :: (t ++ s)) r k b
  | block {t s r : Str} {k : Nat} {b : Bool} :
      (∀ a x, t ++ ['*', '/'] = a ++ '*' :: '/' :: x → x = []) → Gap nl s r k b →
      Gap nl ('/' :: '*' :: (t ++ '*' :: '/' :: s)) r (newlines t + k) b

/-- There is nothing to skip. -/
def Stop (nl : Bool) (r : Str) : Prop :=
  (∀ c, r.head? = some c → isSpace c = false ∧ (nl = true → c ≠ '\n')) ∧
  (∀ t, r ≠ '/' :: '/' :: t) ∧ (∀ t, r ≠ '/' :: '*' :: t)

/-! ## Tokens -/

/-- The punctuation. -/
def puncts : List (Str × Kind) :=
  (["#", "(", ")", "[", "]", ",", "?", "~", "\\", ".*", "...", "=", "==", "!", "!=", "*", "*=", "/", "/=",
    "%", "%=", "^", "^=", "<=", "<<", "<<=", ">=", ">>", ">>=", "+", "++", "+=", "-", "--", "-=", "->",
    "->*", "&", "&&", "&=", "|", "||", "|="].map fun p => (p.toList, .punctuation)) ++
  [([';'], .semi), (['{'], .lcbrace), (['}'], .rcbrace), (['.'], .dot), (['<'], .less), (['>'], .greater),
   ([':'], .colon), ([':', ':'], .scope)]

/-- A character that ends a number. -/
def endsNumber (c : Char) : Bool :=
  isSpace c || c == '\n' ||
  ("#;{}()[],?~=!*/%^><&|:+-\"\\@$`".toList).contains c

/-- A character that starts an exponent. -/
def isExp (c : Char) : Bool := c == 'e' || c == 'E' || c == 'p' || c == 'P'

/-- A sign. -/
def isSign (c : Char) : Bool := c == '+' || c == '-'

/-- The rest of a number and what follows: a sign only after an exponent. -/
inductive NumberTail : Str → Str → Prop
  | nil {r : Str} : (∀ c, r.head? = some c → endsNumber c = true) → NumberTail [] r
  | exp {c d : Char} {t r : Str} : isExp c = true → isSign d = true → NumberTail t r →
      NumberTail (c :: d :: t) r
  | char {c : Char} {t r : Str} : endsNumber c = false →
      (isExp c = true → ∀ d, (t ++ r).head? = some d → isSign d = false) → NumberTail t r →
      NumberTail (c :: t) r

/-- What is between the quotes. -/
inductive Body (q : Char) : Str → Prop
  | nil : Body q []
  | char {c : Char} {t : Str} : c ≠ q → c ≠ '\\' → c ≠ '\n' → Body q t → Body q (c :: t)
  | escape {c : Char} {t : Str} : c ≠ '\n' → Body q t → Body q ('\\' :: c :: t)

/-- The suffix of a literal and what follows. -/
def Suffix (t r : Str) : Prop :=
  (∀ c ∈ t, isWord c = true) ∧ (∀ c, t.head? = some c → c.isDigit = false) ∧
  (t = [] → ∀ c, r.head? = some c → isWord c = true → c.isDigit = true) ∧
  (t ≠ [] → ∀ c, r.head? = some c → isWord c = false)

/-- Prefixes of literals. -/
def prefixes : List Str := [[], ['u'], ['u', '8'], ['U'], ['L']]

/-- Prefixes of raw literals. -/
def rawPrefixes : List Str := [['R'], ['u', 'R'], ['u', '8', 'R'], ['U', 'R'], ['L', 'R']]

/-- The first token, what it is and what follows. -/
inductive Lexeme : Str → Kind → Str → Str → Prop
  | punct {p : Str} {k : Kind} {r : Str} : (p, k) ∈ puncts →
      (∀ q k', (q, k') ∈ puncts → q <+: p ++ r → q.length ≤ p.length) →
      (p = ['.'] → ∀ c, r.head? = some c → c.isDigit = false) →
      Lexeme (p ++ r) k p r
  | number {c : Char} {t r : Str} : c.isDigit = true → NumberTail t r →
      Lexeme (c :: (t ++ r)) .number (c :: t) r
  | fraction {c : Char} {t r : Str} : c.isDigit = true → NumberTail (c :: t) r →
      Lexeme ('.' :: c :: (t ++ r)) .number ('.' :: c :: t) r
  | word {t r : Str} : t ≠ [] → (∀ c ∈ t, isWord c = true) →
      (∀ c, t.head? = some c → c.isDigit = false) →
      (∀ c, r.head? = some c → isWord c = false) →
      (r.head? = some '\'' → t ∉ prefixes) → (r.head? = some '"' → t ∉ prefixes ++ rawPrefixes) →
      Lexeme (t ++ r) .identifier t r
  | character {p b t r : Str} : p ∈ prefixes → Body '\'' b → Suffix t r →
      Lexeme (p ++ '\'' :: b ++ '\'' :: t ++ r) .character (p ++ '\'' :: b ++ '\'' :: t) r
  | string {p b t r : Str} : p ∈ prefixes → Body '"' b → Suffix t r →
      Lexeme (p ++ '"' :: b ++ '"' :: t ++ r) .string (p ++ '"' :: b ++ '"' :: t) r
  | raw {p d b t r : Str} : p ∈ rawPrefixes →
      (∀ c ∈ d, c ≠ '(' ∧ c ≠ ')' ∧ c ≠ '\\' ∧ c ≠ ' ') →
      (∀ a x, b ++ (')' :: d ++ ['"']) = a ++ (')' :: d ++ ['"']) ++ x → x = []) → Suffix t r →
      Lexeme (p ++ '"' :: d ++ '(' :: b ++ (')' :: d ++ ['"']) ++ t ++ r) .string
        (p ++ '"' :: d ++ '(' :: b ++ (')' :: d ++ ['"']) ++ t) r
  | other {c : Char} {r : Str} : isWord c = false → c ≠ '\'' → c ≠ '"' →
      (∀ q k, (q, k) ∈ puncts → q.head? ≠ some c) → Lexeme (c :: r) .other [c] r

/-! ## Sources -/

/-- What is in a source. -/
inductive Item where
  /-- A token on this line, perhaps the first one. -/
  | tok (line : UInt64) (first : Bool) (kind : Kind) (text : Str)
  /-- The `#` of a directive. -/
  | hash (line : UInt64)
  /-- A token in a directive. -/
  | arg (line : UInt64) (text : Str)
  /-- A change of the file by a line directive. -/
  | file (name : Str)
deriving DecidableEq

/-- The file as set by line directives: a path, perhaps to a directory, or a special name. -/
inductive File where
  | path (s : Str) (dir : Bool)
  | name (s : Str)
deriving DecidableEq

/-- Tokens until the end of the line. Starts on this line and ends on the other. -/
inductive Args : UInt64 → Str → List Item → UInt64 → Str → Prop
  | newline {l : UInt64} {s r : Str} {k : Nat} {b : Bool} : Gap false s ('\n' :: r) k b →
      Args l s [] (plus l (k + 1)) r
  | eos {l : UInt64} {s : Str} {k : Nat} {b : Bool} : Gap false s [] k b → Args l s [] (plus l k) []
  | tok {l l' : UInt64} {s r r' r'' t : Str} {k : Nat} {b : Bool} {d : Kind} {is : List Item} :
      Gap false s r k b → Stop false r → r.head? ≠ some '\n' → Lexeme r d t r' →
      Args (plus l (k + newlines t)) r' is l' r'' → Args l s (.arg (plus l k) t :: is) l' r''

/-- A file name in quotes and what it is. -/
inductive Quoted : Str → Str → Prop
  | nil : Quoted [] []
  | char {c : Char} {t s : Str} : c ≠ '"' → c ≠ '\\' → c ≠ '\n' → Quoted t s → Quoted (c :: t) (c :: s)
  | escape {c : Char} {t s : Str} : c = '\\' ∨ c = '\'' ∨ c = '"' → Quoted t s →
      Quoted ('\\' :: c :: t) (c :: s)

/-- The number. -/
def value (ds : Str) : Nat := ds.foldl (fun n c => 10 * n + (c.toNat - '0'.toNat)) 0

/-- A special name, such as `<stdin>`. -/
def Special (s : Str) : Prop := s.head? = some '<' ∧ s.getLast? = some '>'

/-- The file that a name is for. A trailing slash is for a directory. -/
inductive Names : Str → File → Prop
  | special {s : Str} : Special s → Names s (.name s)
  | file {s : Str} : s ≠ [] → ¬ Special s → s.getLast? ≠ some '/' → Names s (.path s false)
  | dir {s : Str} {t : Str} {n : Nat} : s = t ++ List.replicate (n + 1) '/' →
      t.getLast? ≠ some '/' → Names s (.path (if t = [] then ['/'] else t) true)

/-- The file is known by this name. -/
def File.Is (f : File) (s : Str) : Prop :=
  (Special s ∧ f = .name s) ∨ (¬ Special s ∧ ∃ d, f = .path s d)

/-- Changing the file. The new name is noted unless it is the same or is that of a directory. -/
inductive Switch : File → Str → List Item → File → Prop
  | same {f g : File} {s : Str} : Names s g → f.Is s → Switch f s [] f
  | file {f g : File} {s : Str} : Names s g → ¬ f.Is s → (∀ t, g ≠ .path t true) →
      Switch f s [.file s] g
  | dir {f : File} {s t : Str} : Names s (.path t true) → ¬ f.Is s → Switch f s [] (.path t true)

/-- A line number and perhaps a file. The number is that of the next line. -/
inductive Line : File → Str → List Item → UInt64 → File → Str → Prop
  | number {f : File} {ds s r r' : Str} {k : Nat} {b : Bool} {is : List Item} {l : UInt64} :
      ds ≠ [] → (∀ c ∈ ds, c.isDigit = true) → (∀ c, s.head? = some c → c.isDigit = false) →
      value ds < 2 ^ 64 → Gap false s r k b → Stop false r → r.head? ≠ some '"' →
      Args (plus (UInt64.ofNat (value ds) - 1) k) r is l r' → Line f (ds ++ s) is l f r'
  | file {f f' : File} {ds s q n r r' : Str} {k : Nat} {b : Bool} {is js : List Item} {l : UInt64} :
      ds ≠ [] → (∀ c ∈ ds, c.isDigit = true) → (∀ c, s.head? = some c → c.isDigit = false) →
      value ds < 2 ^ 64 → Gap false s ('"' :: (q ++ '"' :: r)) k b → Quoted q n → Switch f n js f' →
      Args (plus (UInt64.ofNat (value ds) - 1) k) r is l r' → Line f (ds ++ s) (js ++ is) l f' r'

/-- A directive after its `#`. A line directive changes the line and the file. An include directive is
not expected in a preprocessed source (`pre`). -/
inductive Directive (pre : Bool) : UInt64 → File → Str → List Item → UInt64 → File → Str → Prop
  | empty {l : UInt64} {f : File} {s r : Str} {k : Nat} {b : Bool} : Gap false s ('\n' :: r) k b →
      Directive pre l f s [] (plus l (k + 1)) f r
  | eos {l : UInt64} {f : File} {s : Str} {k : Nat} {b : Bool} : Gap false s [] k b →
      Directive pre l f s [] (plus l k) f []
  | number {l l' : UInt64} {f f' : File} {s r r' : Str} {k : Nat} {b : Bool} {is : List Item} :
      Gap false s r k b → (∃ c, r.head? = some c ∧ c.isDigit = true) →
      Line f r is l' f' r' → Directive pre l f s is l' f' r'
  | line {l l' : UInt64} {f f' : File} {s r r' r'' r''' : Str} {k k' : Nat} {b b' : Bool} {is : List Item} :
      Gap false s r k b → Lexeme r .identifier "line".toList r' → Gap false r' r'' k' b' →
      (∃ c, r''.head? = some c ∧ c.isDigit = true) →
      Line f r'' is l' f' r''' →
      Directive pre l f s (.arg (plus l k) "line".toList :: is) l' f' r'''
  | other {l l' : UInt64} {f : File} {s r r' r'' t : Str} {k : Nat} {b : Bool} {d : Kind}
      {is : List Item} :
      Gap false s r k b → Stop false r → (∀ c, r.head? = some c → c ≠ '\n' ∧ c.isDigit = false) →
      Lexeme r d t r' → ¬ (d = .identifier ∧ t = "line".toList) →
      ¬ (pre = true ∧ d = .identifier ∧ t = "include".toList) →
      Args (plus l (k + newlines t)) r' is l' r'' →
      Directive pre l f s (.arg (plus l k) t :: is) l' f r''

/-- What is in a source. The first argument is whether this is the beginning of a line. -/
inductive Source (pre : Bool) : Bool → UInt64 → File → Str → List Item → Prop
  | eos {v : Bool} {l : UInt64} {f : File} {s : Str} {k : Nat} {b : Bool} : Gap true s [] k b →
      Source pre v l f s []
  | tok {v : Bool} {l : UInt64} {f : File} {s r r' t : Str} {k : Nat} {b : Bool} {d : Kind}
      {is : List Item} :
      Gap true s r k b → Stop true r → r.head? ≠ some '#' → Lexeme r d t r' →
      Source pre false (plus l (k + newlines t)) f r' is →
      Source pre v l f s (.tok (plus l k) (v || b) d t :: is)
  | directive {v : Bool} {l l' : UInt64} {f f' : File} {s r r' : Str} {k : Nat} {b : Bool}
      {is js : List Item} :
      Gap true s ('#' :: r) k b → Directive pre (plus l k) f r is l' f' r' →
      Source pre true l' f' r' js → Source pre v l f s (.hash (plus l k) :: (is ++ js))

/-! ## The checksum -/

/-- What takes part in the checksum: lines, characters and file names. -/
inductive Hashed where
  | line (n : UInt64)
  | char (c : Char)
  | file (s : Str)
deriving DecidableEq

/-- For each token its line and its text. -/
def Item.hashed : Item → List Hashed
  | .tok l _ _ t => .line l :: t.map .char
  | .hash l => [.line l, .char '#']
  | .arg l t => .line l :: t.map .char
  | .file s => [.file s]

/-- The bytes of a number, starting with the least significant. -/
def bytes : Nat → Nat → List Nat
  | 0, _ => []
  | k + 1, n => n % 256 :: bytes k (n / 256)

/-- The bytes: a line is 8 of them and a string is with the trailing zero. -/
def Hashed.bytes : Hashed → List Nat
  | .line n => CcLex.bytes 8 n.toNat
  | .char c => [c.toNat]
  | .file s => s.map Char.toNat ++ [0]

end Verif.CcLex
