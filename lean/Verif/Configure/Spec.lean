/-!
# Configuring and disfiguring an output directory: specification

A path is the list of its components, outermost first. A file system is a list of entries.
-/

namespace Verif.Configure

abbrev Path := List String

/-- What an entry is. -/
inductive Node
  | dir
  | file (content : String)
  deriving DecidableEq, Repr

/-- What is in the file system. -/
abbrev FS := List (Path × Node)

/-- What is known about a project: its source directory, whether it uses the alternative names of build
files, whether it has been loaded with the `config` module, what is written to `config.build`, and what is
written to `src-root.build`. -/
structure Proj where
  src : Path
  alt : Bool
  loaded : Bool
  config : String
  srcRoot : String
  deriving DecidableEq, Repr

/-- Subprojects, one after another: the directory in the project, the project and its own subprojects. -/
inductive Subs
  | nil
  | cons (dir : Path) (p : Proj) (subs rest : Subs)
  deriving DecidableEq, Repr

/-- A project with this output directory is among the subprojects (of one with output directory `out`), at
any depth. -/
inductive Has : Path → Subs → Path → Proj → Prop
  | here {out d p s r} : Has out (.cons d p s r) (out ++ d) p
  | sub {out d p s r o q} : Has (out ++ d) s o q → Has out (.cons d p s r) o q
  | rest {out d p s r o q} : Has out r o q → Has out (.cons d p s r) o q

/-- The project itself, or one of its subprojects at any depth. -/
def Within (out : Path) (p : Proj) (s : Subs) (o : Path) (q : Proj) : Prop :=
  (o = out ∧ q = p) ∨ Has out s o q

/-- A subproject, at any depth, which is loaded, as are those it is a subproject of. -/
inductive Loaded : Path → Subs → Path → Proj → Prop
  | here {out d p s r} : p.loaded = true → Loaded out (.cons d p s r) (out ++ d) p
  | sub {out d p s r o q} : p.loaded = true → Loaded (out ++ d) s o q → Loaded out (.cons d p s r) o q
  | rest {out d p s r o q} : Loaded out r o q → Loaded out (.cons d p s r) o q

/-- The file the configuration is in. -/
def IsConfig (o : Path) (q : Proj) (f : Path) : Prop :=
  f = o ++ (if q.alt then ["build2", "config.build2"] else ["build", "config.build"])

/-- The file that says where the source directory is. -/
def IsSrcRoot (o : Path) (q : Proj) (f : Path) : Prop :=
  f = o ++ (if q.alt then ["build2", "bootstrap", "src-root.build2"]
            else ["build", "bootstrap", "src-root.build"])

/-- A file that configuring makes. -/
def Made (out : Path) (p : Proj) (s : Subs) (f : Path) : Prop :=
  ∃ o q, Within out p s o q ∧ (IsConfig o q f ∨ (IsSrcRoot o q f ∧ o ≠ q.src))

/-- There is nothing in the directory. -/
def Empty (fs : FS) (d : Path) : Prop := ∀ c rest n, (d ++ c :: rest, n) ∉ fs

/-- No subproject, at any depth, is in the very directory of the project it is a subproject of. -/
def Subs.Proper : Subs → Prop
  | .nil => True
  | .cons d _ s r => d ≠ [] ∧ s.Proper ∧ r.Proper

/-- No project, at any depth, is where a file that configuring makes is, or inside of it. -/
def Apart (out : Path) (p : Proj) (s : Subs) : Prop :=
  ∀ f o q, Made out p s f → Within out p s o q → ¬ f <+: o

end Verif.Configure
