/-!
# The clean operation: specification

What is on disk, what belongs to a target, and which targets are cleaned.
-/

namespace Verif.Clean

/-- A path, as components from the root of the filesystem. -/
abbrev Path := List String

/-- A filesystem: files with contents, and directories. -/
structure FS where
  files : List (Path × Nat)
  dirs  : List Path

/-- What is in a filesystem is in directories. -/
structure FS.Ok (s : FS) : Prop where
  file : ∀ p c, (p, c) ∈ s.files → p ≠ [] ∧ p.dropLast ∈ s.dirs
  dir  : ∀ d, d ∈ s.dirs → d ≠ [] → d.dropLast ∈ s.dirs
  both : ∀ p c, (p, c) ∈ s.files → p ∉ s.dirs

/-- Whether there is something in a directory. -/
def FS.Inside (s : FS) (d : Path) : Prop :=
  (∃ p c, (p, c) ∈ s.files ∧ p ≠ [] ∧ p.dropLast = d) ∨
  ∃ e, e ∈ s.dirs ∧ e ≠ [] ∧ e.dropLast = d

/-- The same filesystem, other than in the order of what is listed. -/
def FS.Same (s s' : FS) : Prop :=
  (∀ x, x ∈ s.files ↔ x ∈ s'.files) ∧ ∀ d, d ∈ s.dirs ↔ d ∈ s'.dirs

/-- What a target is for. Extra files and directories are as derived from the path of the
target or of the member. `remove` is the value of the `clean` variable. -/
inductive Kind
  /-- A file that nothing makes. -/
  | source
  | alias
  | fsdir
  /-- A file (unless it has no path) with its extra files and directories, and ad hoc members
  with theirs. -/
  | file (path : Option Path) (extraFiles extraDirs : List Path)
      (members : List (Path × List Path × List Path)) (remove : Bool)
  /-- A group with its members (all of them) and extra files. -/
  | group (extraFiles : List Path) (members : List Path) (remove : Bool)

/-- A target, in a directory and with the root directory of its project, and prerequisites with
whether they are included in the operation (see `clean=false`). -/
structure Target where
  kind : Kind
  dir  : Path
  root : Path
  pre  : List (Nat × Bool)

/-- Targets with the one for each directory, where the output is (what is in a project and not
in the source directory), and the working directory. -/
structure Graph where
  target : Nat → Target
  fsdir  : Path → Nat
  out    : Path → Bool
  cwd    : Path

/-- The directory that a target is in. -/
def Graph.holder (g : Graph) (t : Nat) : Path :=
  match (g.target t).kind with
  | .fsdir => (g.target t).dir.dropLast
  | _ => (g.target t).dir

/-- Cleaning a target involves cleaning another: its directory (if it is where the output is or
is a prerequisite), and what it is made from if it is in the same project. Something that only
stands for other targets involves all of them. -/
def Graph.Involves (g : Graph) (t u : Nat) : Prop :=
  (g.target t).kind ≠ .source ∧
  ((u = g.fsdir (g.holder t) ∧ (g.out (g.holder t) = true ∨ ∃ i, (u, i) ∈ (g.target t).pre)) ∨
   ((u, true) ∈ (g.target t).pre ∧
    ((g.target t).kind = .alias ∨ (g.target t).root <+: (g.target u).dir)))

/-- What is cleaned. -/
inductive Graph.Cleaned (g : Graph) (roots : List Nat) : Nat → Prop
  | root {t} : t ∈ roots → g.Cleaned roots t
  | pre {t u} : g.Cleaned roots t → g.Involves t u → g.Cleaned roots u

/-- The files that belong to a target. Extra files (dependency databases and such) do so even if
the target is not to be removed. -/
def Target.Owns (t : Target) (p : Path) : Prop :=
  match t.kind with
  | .file f ef ed ms r =>
    (f ≠ none ∧ (p ∈ ef ∨ ∃ d ∈ ed, d <+: p)) ∨
    (∃ m ∈ ms, (p ∈ m.2.1 ∨ ∃ d ∈ m.2.2, d <+: p) ∨ (r = true ∧ p = m.1)) ∨
    (r = true ∧ f = some p)
  | .group ef ms r => p ∈ ef ∨ (r = true ∧ p ∈ ms)
  | _ => False

/-- The directories that belong to a target. -/
def Target.OwnsDir (t : Target) (d : Path) : Prop :=
  match t.kind with
  | .fsdir => d = t.dir
  | .file f _ ed ms _ =>
    (f ≠ none ∧ ∃ e ∈ ed, e <+: d) ∨ ∃ m ∈ ms, ∃ e ∈ m.2.2, e <+: d
  | _ => False

/-- There is one target for each directory. What belongs to a target and is directly in a
directory that is cleaned has this directory as the one of the target, and it is where the
output is. -/
structure Graph.Placed (g : Graph) (roots : List Nat) : Prop where
  fsdir  : ∀ t, g.Cleaned roots t → (g.target t).kind = .fsdir → t = g.fsdir (g.target t).dir
  inside : ∀ t, g.Cleaned roots t → ∀ u, g.Cleaned roots u → (g.target u).kind = .fsdir →
    ∀ p, p ≠ [] → p.dropLast = (g.target u).dir →
      ((g.target t).Owns p ∨ (g.target t).OwnsDir p) →
      g.holder t = (g.target u).dir ∧ g.out (g.holder t) = true

/-- The working directory is not in an extra directory. -/
def Graph.Away (g : Graph) (roots : List Nat) : Prop :=
  ∀ t, g.Cleaned roots t → (g.target t).kind ≠ .fsdir → ¬ (g.target t).OwnsDir g.cwd

/-- Targets do not depend on each other in a cycle. -/
def Graph.Acyclic (g : Graph) : Prop := ∃ rank : Nat → Nat, ∀ t u, g.Involves t u → rank u < rank t

/-- What updating (parts of) targets, successfully or not, makes of a filesystem: it creates or
changes what belongs to targets. -/
structure Made (g : Graph) (roots : List Nat) (s s' : FS) : Prop where
  ok   : s'.Ok
  kept : ∀ x, x ∈ s.files → x ∈ s'.files ∨ ∃ t, g.Cleaned roots t ∧ (g.target t).Owns x.1
  file : ∀ x, x ∈ s'.files → x ∈ s.files ∨ ∃ t, g.Cleaned roots t ∧ (g.target t).Owns x.1
  keptDir : ∀ d, d ∈ s.dirs → d ∈ s'.dirs
  dir  : ∀ d, d ∈ s'.dirs → d ∈ s.dirs ∨ ∃ t, g.Cleaned roots t ∧ (g.target t).OwnsDir d

end Verif.Clean
