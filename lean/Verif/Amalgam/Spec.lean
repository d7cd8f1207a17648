/-!
# Amalgamation: specification

A project in a subdirectory of another one is normally amalgamated by it: loading the former also
loads the latter and what amalgamates this in turn. A directory is the list of its components,
innermost first; the root of the file system is the empty list. So a directory is in another one (or
is it) if the latter is a suffix.
-/

namespace Verif.Amalgam

abbrev Dir := List String

/-- A relative directory: a number of `..` followed by components (innermost first). -/
structure Rel where
  up : Nat
  down : List String
  deriving DecidableEq, Repr

/-- What the value of the variable `amalgamation` is in `bootstrap.build`: not set or null, empty, a
relative directory, an absolute one. -/
inductive Setting
  | unset | disabled | to (r : Rel) | absolute
  deriving DecidableEq, Repr

/-- What is on disk: the directories with `bootstrap.build`, those with `src-root.build` (and the
source directory that it specifies), and the user's home directory, if any. -/
structure Disk where
  boot : Dir → Option Setting
  conf : Dir → Option Dir
  home : Option Dir

/-- The directory is the output directory of a project, as far as can be told from what is on disk. -/
def Disk.Marked (k : Disk) (d : Dir) : Prop := (k.boot d).isSome ∨ (k.conf d).isSome

/-- The nearest project outside: the innermost marked directory strictly outside; home and beyond are
not considered, nor is the root of the file system. -/
def Disk.Outside (k : Disk) (out d : Dir) : Prop :=
  d <:+ out ∧ d ≠ out ∧ d ≠ [] ∧ k.Marked d ∧
  (∀ x, d <:+ x → x <:+ out → x ≠ out → k.home ≠ some x) ∧
  ∀ x, d <:+ x → x <:+ out → x ≠ out → k.Marked x → x = d

/-- A project that is loaded: its output and source directories, whether it is a simple one, the
value of `amalgamation`, and the project by which it is strongly amalgamated (if it is). -/
structure Proj where
  out : Dir
  src : Dir
  simple : Bool
  amalg : Option Rel
  strong : Option Dir
  deriving DecidableEq, Repr

inductive Err
  /-- The value is absolute. -/
  | absolute
  /-- The project outside is not in this directory. -/
  | incorrect
  /-- Too many `..` -/
  | path
  /-- The depth of recursion is exceeded. -/
  | depth
  /-- The project is not loaded. -/
  | assertion
  deriving DecidableEq, Repr

/-- The directory a relative one refers to. -/
def Rel.Refers (r : Rel) (b d : Dir) : Prop := ∃ a c, b = a ++ c ∧ a.length = r.up ∧ d = r.down ++ c

/-- The amalgamation of a project is another one that is loaded. -/
def In (st : List Proj) (p o : Proj) : Prop :=
  p ∈ st ∧ o ∈ st ∧ ∃ r, p.amalg = some r ∧ r.Refers p.out o.out

/-- The projects that amalgamate one another from this one outwards, up to the last, which isn't. -/
inductive Chain (st : List Proj) : Dir → List Dir → Prop
  | last {p} : p ∈ st → p.amalg = none → Chain st p.out [p.out]
  | next {p o c} : In st p o → Chain st o.out c → Chain st p.out (p.out :: c)

/-- The project that amalgamates strongly: as far out as sources are within one another. -/
inductive Strong (st : List Proj) : Dir → Dir → Prop
  | last {p} : p ∈ st → p.amalg = none → Strong st p.out p.out
  | apart {p o} : In st p o → ¬ o.src <:+ p.src → Strong st p.out p.out
  | within {p o d} : In st p o → o.src <:+ p.src → Strong st o.out d → Strong st p.out d

/-- The amalgamation that the project in the given directories wants, from what is on disk only. -/
def Wants (k : Disk) (out src : Dir) (a : Option Rel) : Prop :=
  match k.boot src with
  | none => a = none
  | some .disabled => a = none
  | some .absolute => False
  | some (.to r) => a = some r
  | some .unset => (∃ r d, a = some r ∧ r.Refers out d ∧ r.down = [] ∧ k.Outside out d) ∨
      (a = none ∧ ∀ d, ¬ k.Outside out d)

/-- The project that is loaded can be told from what is on disk: it is marked and home is not inside;
or it is a simple one, is not marked, and is not inside of one that is. -/
def Proper (k : Disk) (a : Proj) : Prop :=
  (a.simple = false ∧ k.Marked a.out ∧ a.out ≠ [] ∧ ∀ h, k.home = some h → ¬ a.out <:+ h) ∨
  (a.simple = true ∧ ¬ k.Marked a.out ∧ ∀ d, ¬ k.Outside a.out d)

end Verif.Amalgam
