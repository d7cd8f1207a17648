/-!
# Substitutions in `.in` files: specification

What an `.in` file consists of, what the output is for given values, and what is noted about it in order to
know when to update the output. Characters are bytes.
-/

namespace Verif.InSubst

/-- A text. -/
abbrev Str := List Char

/-- A piece of a line: a character that is copied or a name whose value is substituted. -/
inductive Seg where
  | lit (c : Char)
  | sub (n : Str)
deriving DecidableEq

/-- The name with each symbol doubled. -/
def escape (sym : Char) (n : Str) : Str := n.flatMap fun c => if c = sym then [c, c] else [c]

/-- A name that looks like that of a variable: letters, digits, underscores and dots, does not start with a
digit and does not end with a dot. -/
def IsVar (n : Str) : Prop :=
  (∀ c ∈ n, c = '_' ∨ c = '.' ∨ c.isAlphanum = true) ∧ (∀ c, n.head? = some c → c.isDigit = false) ∧
  n.getLast? ≠ some '.'

/-- The pieces of a line in the strict mode, and whether every symbol has its other end. A doubled symbol is
an escape. Of several adjacent ones, the first starts a substitution. -/
inductive Strict (sym : Char) : Str → List Seg → Bool → Prop
  | nil : Strict sym [] [] true
  | char {c : Char} {s : Str} {gs : List Seg} {ok : Bool} : c ≠ sym → Strict sym s gs ok →
      Strict sym (c :: s) (.lit c :: gs) ok
  | escape {s : Str} {gs : List Seg} {ok : Bool} : s.head? ≠ some sym → Strict sym s gs ok →
      Strict sym (sym :: sym :: s) (.lit sym :: gs) ok
  | sub {n s : Str} {gs : List Seg} {ok : Bool} : n ≠ [] → s.head? ≠ some sym → Strict sym s gs ok →
      Strict sym (sym :: (escape sym n ++ sym :: s)) (.sub n :: gs) ok
  | unterminated {n : Str} : Strict sym (sym :: escape sym n) [] false

/-- The pieces of a line in the lax mode. What is between two symbols is substituted if it looks like a
name of a variable. -/
inductive Lax (sym : Char) : Str → List Seg → Prop
  | nil : Lax sym [] []
  | char {c : Char} {s : Str} {gs : List Seg} : c ≠ sym → Lax sym s gs → Lax sym (c :: s) (.lit c :: gs)
  | double {s : Str} {gs : List Seg} : Lax sym (sym :: s) gs → Lax sym (sym :: sym :: s) (.lit sym :: gs)
  | sub {n s : Str} {gs : List Seg} : n ≠ [] → sym ∉ n → IsVar n → Lax sym s gs →
      Lax sym (sym :: (n ++ sym :: s)) (.sub n :: gs)
  | other {n s : Str} {gs : List Seg} : n ≠ [] → sym ∉ n → ¬ IsVar n → Lax sym s gs →
      Lax sym (sym :: (n ++ sym :: s)) ((sym :: (n ++ [sym])).map .lit ++ gs)
  | unterminated {s : Str} : sym ∉ s → Lax sym (sym :: s) ((sym :: s).map .lit)

/-- The pieces of a line. -/
def Reads (strict : Bool) (sym : Char) (s : Str) (gs : List Seg) (ok : Bool) : Prop :=
  if strict then Strict sym s gs ok else Lax sym s gs ∧ ok = true

/-- The ends of lines. -/
inductive Eol where
  | lf | crlf
deriving DecidableEq

/-- The characters. -/
def Eol.str : Eol → Str
  | .lf => ['\n']
  | .crlf => ['\r', '\n']

/-- The value with this end of line. -/
def newlines (nl : Eol) : Str → Str
  | [] => []
  | '\r' :: '\n' :: v => nl.str ++ newlines nl v
  | '\n' :: v => nl.str ++ newlines nl v
  | c :: v => c :: newlines nl v

/-- A line and its end. -/
structure Line where
  text : Str
  eol : Eol
deriving DecidableEq

/-- The lines of a file. The last one may lack its newline. -/
inductive Lines : Str → List Line → Prop
  | nil : Lines [] []
  | last {s : Str} : s ≠ [] → '\n' ∉ s → s.getLast? ≠ some '\r' → Lines s [⟨s, .lf⟩]
  | lastCr {s : Str} : '\n' ∉ s → Lines (s ++ ['\r']) [⟨s, .crlf⟩]
  | lf {s r : Str} {ls : List Line} : '\n' ∉ s → s.getLast? ≠ some '\r' → Lines r ls →
      Lines (s ++ '\n' :: r) (⟨s, .lf⟩ :: ls)
  | crlf {s r : Str} {ls : List Line} : '\n' ∉ s → Lines r ls →
      Lines (s ++ '\r' :: '\n' :: r) (⟨s, .crlf⟩ :: ls)

/-- The pieces of the lines up to the first one that cannot be read, each line with its end, and whether
there is no such line. -/
inductive Doc (strict : Bool) (sym : Char) : List Line → List (List Seg × Eol) → Bool → Prop
  | nil : Doc strict sym [] [] true
  | line {l : Line} {ls : List Line} {gs : List Seg} {d : List (List Seg × Eol)} {ok : Bool} :
      Reads strict sym l.text gs true → Doc strict sym ls d ok →
      Doc strict sym (l :: ls) ((gs, l.eol) :: d) ok
  | bad {l : Line} {ls : List Line} {gs : List Seg} : Reads strict sym l.text gs false →
      Doc strict sym (l :: ls) [(gs, l.eol)] false

/-- The pieces of a file. -/
def Source (strict : Bool) (sym : Char) (s : Str) (d : List (List Seg × Eol)) (ok : Bool) : Prop :=
  ∃ ls, Lines s ls ∧ Doc strict sym ls d ok

/-- The output for a line. -/
def lineOut (val : Str → Str) (nl : Eol) (gs : List Seg) : Str :=
  gs.flatMap fun g => match g with
    | .lit c => [c]
    | .sub n => newlines nl (val n)

/-- The output for a file. If there are no lines at all, then it is just the newline. -/
def output (val : Str → Str) (d : List (List Seg × Eol)) : Str :=
  if d = [] then Eol.lf.str else d.flatMap fun x => lineOut val x.2 x.1 ++ x.2.str

/-- The names in a line. -/
def lineNames (gs : List Seg) : List Str :=
  gs.filterMap fun g => match g with
    | .lit _ => none
    | .sub n => some n

/-- The names in a file with their lines, which are counted from `k`. -/
def names : Nat → List (List Seg × Eol) → List (Nat × Str)
  | _, [] => []
  | k, x :: d => (lineNames x.1).map (fun n => (k, n)) ++ names (k + 1) d

end Verif.InSubst
