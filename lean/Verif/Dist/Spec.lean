/-!
# Distribution: specification

What is copied into the directory of the package and where. A directory is the list of its
components, outermost first, so that one is in another (or is it) if the latter is a prefix.
-/

namespace Verif.Dist

abbrev Dir := List String

/-- The value of the variable `dist` of a target: `false`, `true`, any other simple name, or a path:
absolute or relative, its components (which may be `.` or `..`) and the name if it is one of a file. -/
inductive Val
  | no | yes | simple
  | remap (abs : Bool) (dir : List String) (name : Option String)
  deriving DecidableEq, Repr

/-- A file: directory, name, what is in it, and the value of `dist`, if any. -/
structure File where
  dir : Dir
  name : String
  content : Nat
  dist : Option Val
  deriving DecidableEq, Repr

/-- A target that is known: a file (which may be a member of a see-through group), a see-through group
with the members that it is found to have when it is updated (if it can be), or another one. -/
inductive Tgt
  | file (f : File) (member : Bool)
  | group (dist : Option Val) (members : Option (List File))
  | other
  deriving DecidableEq, Repr

/-- The project: its source and output directories. -/
structure Proj where
  src : Dir
  out : Dir
  deriving DecidableEq, Repr

inductive Err
  /-- A simple name other than `true` and `false`. -/
  | value
  /-- The path is outside of the project. -/
  | outside
  /-- Too many `..`. -/
  | path
  /-- The members of a group are not known. -/
  | group
  /-- Two files have the same destination. -/
  | duplicate
  deriving DecidableEq, Repr

/-- The value is there and isn't `false`. -/
def Marked (v : Option Val) : Prop := ∃ x, v = some x ∧ x ≠ .no

/-- The file is to be distributed: it is in the source directory and not excluded, or in the output
directory and included explicitly. -/
def Chosen (p : Proj) (f : File) : Prop :=
  (p.src <+: f.dir ∧ f.dist ≠ some .no) ∨ (¬ p.src <+: f.dir ∧ p.out <+: f.dir ∧ Marked f.dist)

/-- The file is one of the project's: a target on its own, or a member of a group that is to be
distributed. -/
def Known (ts : List Tgt) (f : File) : Prop :=
  .file f false ∈ ts ∨ ∃ v ms, .group v (some ms) ∈ ts ∧ Marked v ∧ f ∈ ms

/-- The files of the project, one after another. -/
def listed : List Tgt → List File
  | [] => []
  | .file f false :: ts => f :: listed ts
  | .group (some .no) _ :: ts => listed ts
  | .group (some _) (some ms) :: ts => ms ++ listed ts
  | _ :: ts => listed ts

/-- The directory that components lead to from another one. -/
inductive Leads : Dir → List String → Dir → Prop
  | done {d} : Leads d [] d
  | dot {d xs e} : Leads d xs e → Leads d ("." :: xs) e
  | up {d c xs e} : Leads d xs e → Leads (d ++ [c]) (".." :: xs) e
  | down {d x xs e} : x ≠ "." → x ≠ ".." → Leads (d ++ [x]) xs e → Leads d (x :: xs) e

/-- The directory in the package: as in the source directory if it is in there, else as in the output
directory. -/
def Within (p : Proj) (d rel : Dir) : Prop :=
  (d = p.src ++ rel) ∨ (¬ p.src <+: d ∧ d = p.out ++ rel)

/-- Where the file is in the package. -/
def Dest (p : Proj) (f : File) (r : Dir) : Prop :=
  match f.dist with
  | none | some .no | some .yes => ∃ rel, Within p f.dir rel ∧ r = rel ++ [f.name]
  | some .simple => False
  | some (.remap a xs n) => ∃ d rel, Leads (if a then [] else f.dir) xs d ∧ Within p d rel ∧
      r = rel ++ [n.getD f.name]

/-- No two of them that are to be distributed have the same place. -/
def Apart (p : Proj) (fs : List File) : Prop :=
  fs.Pairwise fun f g => Chosen p f → Chosen p g → ∀ r, Dest p f r → ¬ Dest p g r

/-- Something is wrong with where the file is to be. -/
def Misplaced (p : Proj) (f : File) : Prop := ∀ r, ¬ Dest p f r

/-! ## All files of the source directory -/

/-- An entry of a directory: a file (or link to one) with what is in it, a directory, or a link to a
directory. -/
inductive Entry
  | file (content : Nat)
  | dir
  | link (target : Dir)
  deriving DecidableEq, Repr

/-- What is in directories, in the order in which entries are listed. -/
abbrev Disk := Dir → List (String × Entry)

/-- Entries with these names are not distributed. -/
def Ignored (n : String) : Prop :=
  ".git".toList <+: n.toList ∨ n = ".bdep" ∨ n = ".bpkg" ∨ n = ".build2"

/-- The directories that are gone through, with those around (as they are spelled), where it actually
is, and how it is spelled. -/
inductive Visits (k : Disk) (src : Dir) : List Dir → Dir → Dir → Prop
  | root : Visits k src [] src []
  | dir {c real rel n} : Visits k src c real rel → (n, .dir) ∈ k real → ¬ Ignored n →
      Visits k src ((src ++ rel) :: c) (real ++ [n]) (rel ++ [n])
  | link {c real rel n td} : Visits k src c real rel → (n, .link td) ∈ k real → ¬ Ignored n →
      td ∉ (src ++ rel) :: c → Visits k src ((src ++ rel) :: c) td (rel ++ [n])

/-- The files in these. -/
def Has (k : Disk) (src : Dir) (r : Dir) (content : Nat) : Prop :=
  ∃ c real rel n, Visits k src c real rel ∧ (n, .file content) ∈ k real ∧ ¬ Ignored n ∧
    r = rel ++ [n]

/-- No link leads back to a directory around. -/
def NoBack (k : Disk) (src : Dir) : Prop :=
  ∀ c real rel n td, Visits k src c real rel → (n, .link td) ∈ k real → ¬ Ignored n →
    td ∉ (src ++ rel) :: c

end Verif.Dist
