/-! Specification of make dependency declarations (C29): how paths are written and how a declaration
is laid out over lines. -/

namespace Verif.Make

/-- The characters that can be escaped with a backslash. -/
def escapable : List Char := ['\\', ' ', ':', '#']

/-- How a path can be written: a space and a colon must be escaped, `#` can be, `$` can be doubled,
and a backslash can be written as it is unless it would then be taken for an escape. -/
inductive Written : List Char → List Char → Prop
  | nil : Written [] []
  | plain {c w l} : c ∉ [' ', ':', '\\', '$'] → Written w l → Written (c :: w) (c :: l)
  | escaped {c w l} : c ∈ escapable → Written w l → Written ('\\' :: c :: w) (c :: l)
  | dollars {w l} : Written w l → Written ('$' :: '$' :: w) ('$' :: l)
  | dollar {w l} : w.head? ≠ some '$' → Written w l → Written ('$' :: w) ('$' :: l)
  | backslash {d w l} : d ∉ escapable → d ≠ '\x00' → Written (d :: w) l →
      Written ('\\' :: d :: w) ('\\' :: l)

/-- What is on a line: a written path, or the colon. -/
inductive Item where
  | path (text : List Char) (path : List Char)
  | colon
  deriving DecidableEq, Repr

def Item.text : Item → List Char
  | .path w _ => w
  | .colon => [':']

/-- The items with the number of spaces after each. -/
def body : List (Item × Nat) → List Char
  | [] => []
  | (i, k) :: l => i.text ++ List.replicate k ' ' ++ body l

/-- A line: leading spaces, items, and whether it is continued on the next line. -/
structure Line where
  lead : Nat
  items : List (Item × Nat)
  cont : Bool
  deriving DecidableEq, Repr

def Line.text (l : Line) : List Char :=
  List.replicate l.lead ' ' ++ body l.items ++ (if l.cont then ['\\'] else [])

/-- Two paths on the same line are separated by a space. -/
def Separated : List (Item × Nat) → Prop
  | (.path _ _, k) :: (.path w p, k') :: l => k ≥ 1 ∧ Separated ((.path w p, k') :: l)
  | _ :: l => Separated l
  | [] => True

/-- All lines but the last are continued. -/
def Continued : List Line → Prop
  | [] => False
  | [l] => l.cont = false
  | l :: ls => l.cont = true ∧ Continued ls

/-- A declaration of the prerequisites `ps` of the targets `ts`. -/
structure Declares (ls : List Line) (ts ps : List (List Char)) : Prop where
  continued : Continued ls
  separated : ∀ l ∈ ls, Separated l.items
  written : ∀ l ∈ ls, ∀ w p k, (.path w p, k) ∈ l.items → Written w p ∧ p ≠ []
  items : ∃ is1 is2, (ls.flatMap (·.items)).map (·.1) = is1 ++ .colon :: is2 ∧
    is1.map (fun | .path _ p => some p | .colon => none) = ts.map some ∧
    is2.map (fun | .path _ p => some p | .colon => none) = ps.map some
  targets : ts ≠ []

end Verif.Make
