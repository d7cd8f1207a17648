/-!
# Importation: specification

Where an imported target comes from, and what the subprojects of a project are.
-/

namespace Verif.Import

/-- Strings. -/
abbrev Str := List Char

/-- A path: absolute or not, its components, written with a trailing separator or not. -/
structure Path where
  abs : Bool
  comps : List Str
  dir : Bool
  deriving DecidableEq, Repr

/-- The empty path. -/
def Path.empty (p : Path) : Bool := !p.abs && p.comps.isEmpty

/-- A directory below another. -/
def Path.sub (p : Path) (d : List Str) : Path := { p with comps := p.comps ++ d }

/-- A target name: the project that qualifies it, if any (it may be empty), the directory, the type
(empty if untyped) and the value. -/
structure Tgt where
  proj : Option Str
  dir : Path
  type : Str
  value : Str
  deriving DecidableEq, Repr

/-- No directory. -/
def noDir : Path := ⟨false, [], true⟩

/-- Where the target was found: nowhere (it is up to the rules to find it), outside of any project,
in the project with the given root. -/
inductive Where
  | nowhere
  | adhoc
  | project (d : Path)
  deriving DecidableEq, Repr

/-- What is imported: the target, or null; where it was found; the path with which a target was
entered outside of any project. -/
structure Res where
  tgt : Option Tgt
  loc : Where
  entered : Option Path := none
  deriving DecidableEq, Repr

/-- What can be wrong. -/
inductive Err
  | unnamedProject
  | absoluteDir
  | emptyPath
  | nullValue
  | unknownType
  | badSubproject
  | duplicateSubproject
  | assertion
  deriving DecidableEq, Repr

/-- A project that is loaded: its root, name (empty if unnamed) and subprojects, and whether it is
amalgamated by the one around it. -/
structure Root where
  out : Path
  name : Str
  subs : List (Str × List Str)
  amalgamated : Bool

/-- Names of projects and of configuration variables: whether two names are the same (names are
compared ignoring case), the name as part of the name of a variable, and any other string as such a
part. These are functions of the libraries that build2 uses. -/
structure Lib where
  same : Str → Str → Bool
  varName : Str → Str
  sanitize : Str → Str
  lower : Char → Char

/-- What is assumed of these. -/
structure Lib.Ok (l : Lib) : Prop where
  refl : ∀ a, l.same a a = true
  symm : ∀ a b, l.same a b = true → l.same b a = true
  trans : ∀ a b c, l.same a b = true → l.same b c = true → l.same a c = true
  varName : ∀ a, '.' ∉ l.varName a
  sanitize : ∀ a, '.' ∉ l.sanitize a

/-- The circumstances: configuration variables (undefined, null, or a path), `import.build2`, the
base directory, the importing project and those around it, and whether a type is known and has a
path. -/
structure Env where
  lib : Lib
  cfg : Str → Option (Option Path)
  build2 : Option Path
  base : List Str
  roots : List Root
  kind : Tgt → Option Bool

/-- A project has the name of the imported one or has it as a subproject; the importing project
itself (0) is not considered for the former. -/
def Provides (l : Lib) (p : Str) (i : Nat) (r : Root) (d : Path) : Prop :=
  if i ≠ 0 ∧ l.same r.name p = true then d = r.out
  else ∃ s ∈ r.subs, l.same s.1 p = true ∧ d = r.out.sub s.2

/-- The nearest project around that provides the imported one, for as long as each is amalgamated
by the next. -/
def Nearest (l : Lib) (p : Str) (roots : List Root) (d : Path) : Prop :=
  ∃ i r, roots[i]? = some r ∧ Provides l p i r d ∧
    ∀ j q, j < i → roots[j]? = some q → q.amalgamated = true ∧ ∀ d', ¬ Provides l p j q d'

/-- The last project that is loaded is not amalgamated. -/
def Closed (roots : List Root) : Prop := ∃ r ∈ roots, r.amalgamated = false

/-- The name of the configuration variable of a project that is a tool. -/
def toolVar (l : Lib) (p : Str) : Str := "config.".toList ++ l.varName p

/-- The name of the configuration variable of a project. -/
def projVar (l : Lib) (p : Str) : Str := "config.import.".toList ++ l.varName p

/-- The name of the configuration variable of a target name in a project. -/
def nameVar (l : Lib) (p n : Str) : Str := projVar l p ++ '.' :: l.sanitize n

/-- The name of the configuration variable of a target of a type in a project. -/
def typeVar (l : Lib) (p n t : Str) : Str := nameVar l p n ++ '.' :: l.sanitize t

/-- The target is a tool with the name of the project. -/
def IsTool (l : Lib) (p : Str) (t : Tgt) : Prop :=
  t.type = "exe".toList ∧ (l.varName p).map l.lower = (l.sanitize t.value).map l.lower

/-- What a user says about this very target, in the order of precedence: the variables that are
considered (and whether `false` stands for null). -/
inductive Says (e : Env) (p : Str) (t : Tgt) : Option Path → Bool → Prop
  | tool {v} : IsTool e.lib p t → e.cfg (toolVar e.lib p) = some v → Says e p t v true
  | type {v} : t.type ≠ [] → (IsTool e.lib p t → e.cfg (toolVar e.lib p) = none) →
      e.cfg (typeVar e.lib p t.value t.type) = some v → Says e p t v (t.type = "exe".toList)
  | name {v} : (IsTool e.lib p t → e.cfg (toolVar e.lib p) = none) →
      (t.type ≠ [] → e.cfg (typeVar e.lib p t.value t.type) = none) →
      e.cfg (nameVar e.lib p t.value) = some v → Says e p t v false

/-- An entry of a directory: its name, whether it is a directory, and if it is a configured project
or the source of one, the project's name (`none` if that cannot be determined). -/
structure Entry where
  leaf : Str
  isDir : Bool
  outRoot : Option (Option Str)
  srcRoot : Option (Option Str)

/-- The entry is a subproject with the given name. In the source directory, only sources are
considered. -/
def Entry.Is (e : Entry) (out : Bool) (n : Option Str) : Prop :=
  e.isDir = true ∧ e.leaf ≠ [] ∧ e.leaf.head? ≠ some '.' ∧
    ((out = true ∧ e.outRoot = some n) ∨ ((out = false ∨ e.outRoot = none) ∧ e.srcRoot = some n))

/-- The name under which a subproject is known: unnamed ones have that of their directory followed
by a separator. -/
def keyOf (n : Str) (leaf : Str) : Str := if n = [] then leaf ++ ['/'] else n

/-- There is a subproject with the given key and name of the directory. -/
def HasSub (out src : Option (List Entry)) (k leaf : Str) : Prop :=
  ∃ e n, e.leaf = leaf ∧ k = keyOf n leaf ∧
    ((∃ es, out = some es ∧ e ∈ es ∧ e.Is true (some n)) ∨
     (∃ es, src = some es ∧ e ∈ es ∧ e.Is false (some n)))

/-- There is one the name of which cannot be determined. -/
def HasBad (out src : Option (List Entry)) : Prop :=
  ∃ e : Entry, (∃ es, out = some es ∧ e ∈ es ∧ e.Is true none) ∨
     (∃ es, src = some es ∧ e ∈ es ∧ e.Is false none)

end Verif.Import
