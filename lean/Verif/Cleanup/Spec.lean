/-!
# Cleaning up after scripts: the specification
-/

namespace Verif.Cleanup

/-- An absolute normalized path, as its components. -/
abbrev Path := List String

/-- Files also stand for symbolic links. -/
inductive Kind where
  | file
  | dir
deriving DecidableEq, Repr

/-- The filesystem entries other than the root directory. -/
abbrev FS := List (Path × Kind)

/-- What is there. -/
def FS.at (fs : FS) (p : Path) : Option Kind := (fs.find? fun e => e.1 = p).map (·.2)

/-- There is nothing twice and everything is in a directory. -/
def FS.Valid (fs : FS) : Prop :=
  (fs.map (·.1)).Nodup ∧
  ∀ p a k, fs.at (p ++ [a]) = some k → p = [] ∨ fs.at p = some .dir

/-- Strictly inside of. -/
def Below (p d : Path) : Prop := d <+: p ∧ p ≠ d

instance (p d : Path) : Decidable (Below p d) := by unfold Below; infer_instance

/-- Nothing but these entries is missing and nothing has been added. -/
def Removed (fs fs' : FS) (gone : Path → Prop) : Prop :=
  ∀ p, (fs'.at p = fs.at p) ∨ (gone p ∧ fs'.at p = none)

/-- `&foo`, `&?foo` and `&!foo`. -/
inductive When where
  | always
  | maybe
  | never
deriving DecidableEq, Repr

/-- Registered: a path, whether it has a trailing slash and how. -/
structure Entry where
  type : When
  path : Path
  toDir : Bool
deriving DecidableEq, Repr

/-- What it says it is. -/
def Entry.kind (c : Entry) : Kind := if c.toDir then .dir else .file

/-- What scripts do: register explicitly, redirect output to a file, create
with a builtin (`touch`, `mkdir`, `cp`, `ln`), move and remove with a builtin,
or run a program. -/
inductive Op where
  | register (c : Entry)
  | redirect (p : Path)
  | create (p : Path) (k : Kind) (cleanup : Bool)
  | move (source dest : Path) (cleanup force : Bool)
  | remove (p : Path) (recursive force : Bool)
  | program (fs : FS)

end Verif.Cleanup
