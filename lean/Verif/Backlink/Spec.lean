/-!
# Backlinks: specification

When a configuration is forwarded, files that are updated in the output directory are made available in
the source directory. A path is the list of its components, outermost first.
-/

namespace Verif.Backlink

abbrev Path := List String

/-- A file system entry: directory, regular file with what is in it, or symbolic link. -/
inductive Node
  | dir
  | reg (content : Nat)
  | sym (target : Path)
  deriving DecidableEq, Repr

abbrev Fs := Path → Option Node

inductive Mode
  | link | symbolic | hard | copy | overwrite
  deriving DecidableEq, Repr

/-- A file in the output directory and where it is to be in the source directory. -/
structure Link where
  target : Path
  path : Path
  mode : Mode
  deriving DecidableEq, Repr

/-- What is read from the path through so many symbolic links. -/
inductive Reads (fs : Fs) : Path → Nat → Nat → Prop
  | reg {p c} : fs p = some (.reg c) → Reads fs p 0 c
  | sym {p q k c} : fs p = some (.sym q) → Reads fs q k c → Reads fs p (k + 1) c

/-- Reading the path involves the other one. -/
inductive Through (fs : Fs) : Path → Path → Prop
  | here {p} : Through fs p p
  | sym {p r q} : fs p = some (.sym r) → Through fs r q → Through fs p q

/-- There is no such file. -/
def Missing (fs : Fs) (p : Path) : Prop := ∀ k c, ¬ Reads fs p k c

/-- None of the files to be linked is, or is read through, something where links are to be. -/
def Apart (fs : Fs) (ls : List Link) : Prop :=
  ∀ l ∈ ls, ∀ l' ∈ ls, ¬ Through fs l.target l'.path

/-- Files to be overwritten aren't links. -/
def Plain (fs : Fs) (ls : List Link) : Prop :=
  ∀ l ∈ ls, l.mode = .overwrite → ∀ q, fs l.path ≠ some (.sym q)

/-- Links to different places. -/
def Distinct (ls : List Link) : Prop := (ls.map (·.path)).Nodup

/-- What is known about a target when it is decided whether it is linked. -/
structure Cond where
  /-- The operation is plain update or clean, not for another one. -/
  plain : Bool
  /-- It is in the output directory. -/
  inOut : Bool
  file : Bool
  /-- It is a group with members. -/
  members : Bool
  project : Bool
  /-- The source directory is the output directory. -/
  inSource : Bool
  forwarded : Bool
  deriving DecidableEq, Repr

/-- It can be linked. -/
def Cond.Can (c : Cond) : Prop :=
  c.plain = true ∧ c.inOut = true ∧ (c.file = true ∨ c.members = true) ∧ c.project = true ∧
    c.inSource = false ∧ c.forwarded = true

/-- The word for a mode; that of the group only where there is one. -/
inductive Spells : Option Mode → String → Option Mode → Prop
  | yes {g} : Spells g "true" (some .link)
  | symbolic {g} : Spells g "symbolic" (some .symbolic)
  | hard {g} : Spells g "hard" (some .hard)
  | copy {g} : Spells g "copy" (some .copy)
  | overwrite {g} : Spells g "overwrite" (some .overwrite)
  | no {g} : Spells g "false" none
  | group {m} : Spells (some m) "group" (some m)

/-- The value of the variable: mode and, optionally, whether to print. -/
inductive Means : Option Mode → List String → Option (Mode × Bool) → Prop
  | one {g s m} : Spells g s m → Means g [s] (m.map (·, true))
  | printed {g s m} : Spells g s m → Means g [s, "true"] (m.map (·, true))
  | silent {g s m} : Spells g s m → Means g [s, "false"] (m.map (·, false))

/-- A member of a group: its file, if it has one, and the value of the variable set on it, if any. -/
structure Member where
  path : Option Path
  value : Option (List String)
  deriving DecidableEq, Repr

end Verif.Backlink
