/-!
# Removing links of a forwarded configuration: specification

When forwarding is disfigured, links in the source directory that lead into the output directory are
removed. A path is the list of its components, outermost first.
-/

namespace Verif.Disfigure

abbrev Path := List String

/-- What a symbolic link has: whether it is absolute, whether it is normalized, and the path. -/
structure Target where
  abs : Bool
  norm : Bool
  path : Path
  deriving DecidableEq, Repr

/-- Entries of a directory, one after another, and of its subdirectories. -/
inductive Entries
  | nil
  | file (name : String) (rest : Entries)
  | link (name : String) (target : Target) (rest : Entries)
  | dir (name : String) (sub : Entries) (rest : Entries)
  deriving DecidableEq, Repr

/-- What is at a path. -/
inductive Kind
  | file
  | link (target : Target)
  | dir
  deriving DecidableEq, Repr

/-- What there is at the path, relative to the directory. -/
inductive At : Entries → Path → Kind → Prop
  | file {n es} : At (.file n es) [n] .file
  | link {n t es} : At (.link n t es) [n] (.link t)
  | dir {n s es} : At (.dir n s es) [n] .dir
  | sub {n s es p k} : At s p k → At (.dir n s es) (n :: p) k
  | afterFile {n es p k} : At es p k → At (.file n es) p k
  | afterLink {n t es p k} : At es p k → At (.link n t es) p k
  | afterDir {n s es p k} : At es p k → At (.dir n s es) p k

/-- What is at the path is a link such as is made to files in the output directory. -/
def Into (out : Path) (k : Kind) : Prop :=
  ∃ t, k = .link t ∧ t.abs = true ∧ t.norm = true ∧ out <+: t.path

/-- Directories that version control and tools have, and other entries with such names. -/
def Ignored (n : String) : Prop :=
  ".git".toList <+: n.toList ∨ n = ".bdep" ∨ n = ".bpkg" ∨ n = ".build2"

end Verif.Disfigure
