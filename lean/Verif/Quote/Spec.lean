/-! Specification of the round trip of printed names (C28): what tokens a list of names should read
back as, and which tokens the parser takes for patterns. -/

namespace Verif.Quote

/-- Kinds of name patterns (libbuild2/name.hxx, `name::pattern_type`). -/
inductive Pat where
  | path | regex | subst
  deriving DecidableEq, Repr

/-- A name as it is printed, without a project. `pdir` and `leaf` are the representations of the
parent of the directory and of its last component: the directory is `pdir ++ leaf`. If there is no
directory then both are empty. `pair` says that the next name is the second half of a pair. -/
structure Nm where
  pdir  : List Char
  leaf  : List Char
  type  : List Char
  value : List Char
  pat   : Option Pat
  pair  : Bool
  deriving DecidableEq, Repr

/-- The representation of the directory. -/
def Nm.dir (n : Nm) : List Char := n.pdir ++ n.leaf

/-- What is inside the braces if there is a type, and the last component otherwise. -/
def Nm.last (n : Nm) : List Char := if n.value = [] then n.leaf else n.value

/-- What is before the braces (without the type). -/
def Nm.before (n : Nm) : List Char := if n.value = [] then n.pdir else n.dir

/-- `alnum ()` for ASCII. -/
def alnum (c : Char) : Bool :=
  ('a' ≤ c && c ≤ 'z') || ('A' ≤ c && c ≤ 'Z') || ('0' ≤ c && c ≤ '9')

/-- A string that looks like a regular expression: an introducer followed by a delimiter. -/
def regexLike : List Char → Bool
  | c :: d :: _ => (c = '~' || c = '^') && !alnum d
  | _ => false

/-- The characters that are special in the quoting mode `normal` (libbuild2/name.hxx:186-191), apart
from the quotes. -/
def special : List Char :=
  ['{', '}', '[', ']', '$', '(', ')', ' ', '\t', '\n', '#', '\\', '"', '%']

/-- What a token is, whatever quotes were used to write it. For a word: its text, and, if something
is claimed about it, the pattern it is (`some none`: it is not one), and whether it is in braces. -/
inductive View where
  | word (text : List Char) (claim : Option (Option Pat)) (curly : Bool)
  | lcbrace | rcbrace | pairSep | newline
  deriving DecidableEq, Repr

/-- A regular expression is written with its introducer. -/
def intro : Option Pat → List Char
  | some .regex => ['~']
  | some .subst => ['^']
  | _ => []

/-- What kind of pattern the name should read as. A name that is not a pattern should not become one,
in all cases. A pattern should stay one if it is not an untyped pattern in a directory, if a path
pattern has no special characters (but has a wildcard character) and a regular expression has a
delimiter. -/
def Nm.claim (pair : Char) (n : Nm) : Option (Option Pat) :=
  match n.pat with
  | none => some none
  | some p =>
    if n.type = [] ∧ n.dir ≠ [] then none
    else if p = .path then
      if n.last.all (fun c => c ∉ special && c ≠ pair && c ≠ '\'') && n.last.any (· ∈ ['*', '?'])
      then some (some p) else none
    else if regexLike (intro n.pat ++ n.last) then some (some p)
    else none

/-- The tokens of one name: `dir/value` or `dir/type{value}`. -/
def Nm.views (pair : Char) (n : Nm) : List View :=
  if n.type = [] then [.word (n.dir ++ intro n.pat ++ n.value) (n.claim pair) false]
  else [.word (n.before ++ n.type) none false, .lcbrace] ++
    (if n.last = [] then [] else [.word (intro n.pat ++ n.last) (n.claim pair) true]) ++ [.rcbrace]

/-- The first token with the given flag, the others not separated. -/
def withSep (sep : Bool) : List View → List (View × Bool)
  | [] => []
  | v :: vs => (v, sep) :: vs.map (·, false)

/-- The tokens of a list of names, with for each whether it is separated by a space from the previous
one: the first token of a name is (unless it is the first name or the second half of a pair), the
others are not. -/
def views (pair : Char) : Bool → List Nm → List (View × Bool)
  | _, [] => []
  | sep, n :: ns =>
    withSep sep (n.views pair) ++
    (if n.pair then (.pairSep, false) :: views pair false ns else views pair true ns)

/-- A name: the directory has a last component, a regular expression has a value. -/
def Nm.Valid (n : Nm) : Prop :=
  (n.leaf = [] → n.pdir = []) ∧ (n.value = [] → n.pat = none ∨ n.pat = some .path)

/-- Pairs are complete. -/
def Complete : List Nm → Prop
  | [] => True
  | [n] => n.pair = false
  | _ :: ns => Complete ns

/-- A character that can separate the halves of a pair, such as `@`. -/
def PairOk (pair : Char) : Prop :=
  pair ∉ [' ', '$', '(', ')', '{', '}', '#', '\t', '\n', '\\', '\'', '"', '[', '~', '^']

end Verif.Quote
