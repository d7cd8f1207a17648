/-!
# Installing and uninstalling: the specification

What a filesystem is, what a target installs, and what is meant by a
directory that has nothing but what was installed.
-/

namespace Verif.Install

/-- An absolute and normalized path, the innermost component first: `x :: p`
is `x` in the directory `p`, and `[]` is the root of the filesystem. -/
abbrev Path := List String

/-- A filesystem entry. -/
inductive Entry where
  | dir
  | file (content : String)
  | link (target : String)
deriving DecidableEq, Repr

/-- A filesystem. -/
abbrev FS := List (Path × Entry)

/-- The entry with this path. The root is always there. -/
def get (fs : FS) (p : Path) : Option Entry :=
  if p = [] then some .dir else (fs.find? fun e => e.1 = p).map (·.2)

/-- Everything is in a directory. -/
def Wf (fs : FS) : Prop :=
  ∀ x p, get fs (x :: p) ≠ none → get fs p = some .dir

/-- `d` is `p` or one of the directories that `p` is in. -/
def Above (d p : Path) : Prop := ∃ s, p = s ++ d

/-- What a target installs: the leading directories (from the outermost one
to the one where the files go), the name of the file that is copied and the
one it has in the build, the name it is given if any, its content, and the
links with their targets. -/
structure Item where
  dirs : List Path
  src : String
  orig : String
  name : Option String
  content : String
  links : List (String × String)
deriving DecidableEq, Repr

/-- The outermost leading directory. -/
def Item.root (t : Item) : Path := t.dirs.head?.getD []

/-- The directory where the files go. -/
def Item.dest (t : Item) : Path := t.dirs.getLast?.getD []

/-- The name that the file is installed with. -/
def Item.leaf (t : Item) : String := t.name.getD t.orig

/-- The kinds of entries that filters tell apart. -/
inductive Kind where
  | regular
  | symlink
deriving DecidableEq, Repr

/-- What to install: directories, and files in directories. -/
structure Filter where
  dir : Path → Bool
  ent : Path → String → Kind → Bool

/-- The files and links that a target installs. -/
def Item.puts (flt : Filter) (t : Item) : List (Path × Entry) :=
  (if flt.ent t.dest t.leaf .regular then [(t.leaf :: t.dest, .file t.content)] else []) ++
  (t.links.filter fun l => flt.ent t.dest l.1 .symlink).map fun l => (l.1 :: t.dest, .link l.2)

/-- The paths of the files and links of these targets. -/
def Installed (flt : Filter) (ts : List Item) (p : Path) : Prop :=
  ∃ t ∈ ts, ∃ e, (p, e) ∈ t.puts flt

/-- A leading directory of one of the targets, or one in between. -/
def Covered (ts : List Item) (d : Path) : Prop :=
  ∃ t ∈ ts, Above t.root d ∧ Above d t.dest

/-- Every leading directory is the previous one or inside of it. -/
def Nested : List Path → Prop
  | [] => True
  | [_] => True
  | a :: b :: ds => Above a b ∧ Nested (b :: ds)

/-- The leading directories are nested, and the filter lets all of them
through. -/
def Regular (flt : Filter) (t : Item) : Prop :=
  t.dirs ≠ [] ∧ Nested t.dirs ∧ ∀ d, Above t.root d → Above d t.dest → flt.dir d = true

/-- A directory that has, at any depth, nothing but what these targets
install, and that can be removed with all that is inside. -/
def Hollow (flt : Filter) (ok : Path → Bool) (ts : List Item) (fs : FS) (d : Path) : Prop :=
  get fs d = some .dir ∧
  ∀ p e, Above d p → get fs p = some e →
    if e = .dir then Covered ts p ∧ ok p = true else Installed flt ts p

/-- No target has its outermost directory inside of a leading directory of
another one. -/
def SameRoots (ts : List Item) : Prop :=
  ∀ s ∈ ts, ∀ t ∈ ts, ∀ x d, t.root = x :: d → ¬ (Above s.root d ∧ Above d s.dest)

/-- Nothing is in the way: what must be a directory is not something else,
and what must be a file or link is not a directory, neither in the
filesystem nor because of another target. -/
def Compatible (flt : Filter) (fs : FS) (ts : List Item) : Prop :=
  (∀ t ∈ ts, ∀ d, Above d t.dest → get fs d = none ∨ get fs d = some .dir) ∧
  (∀ p, Installed flt ts p → get fs p ≠ some .dir) ∧
  (∀ p, Installed flt ts p → ∀ t ∈ ts, ¬ Above p t.dest)

/-- The last one of the targets that installs something there wins. -/
def lastPut (flt : Filter) (ts : List Item) (p : Path) : Option Entry :=
  ((ts.flatMap (Item.puts flt)).reverse.find? fun e => e.1 = p).map (·.2)

/-! ## Filters, as in the manual -/

/-- The key of a filter, resolved; a component is a name or a pattern. -/
inductive Key where
  | leaf (m : String → Bool)
  | dir (d : List (String → Bool))
  | ent (d : List (String → Bool)) (m : String → Bool)

/-- An element of `config.install.filter`. -/
structure Rule where
  key : Key
  value : Bool
  symlink : Bool

/-- The components that the directory begins with match. -/
def Inside (d : List (String → Bool)) (base : Path) : Prop :=
  ∃ xs rest, base.reverse = xs ++ rest ∧ xs.length = d.length ∧
    ∀ mx ∈ d.zip xs, mx.1 mx.2 = true

/-- A filter matches an entry (for a directory the name is empty). -/
def Rule.Matches (r : Rule) (base : Path) (leaf : String) (link : Bool) : Prop :=
  (r.symlink = true → link = true) ∧
  match r.key with
  | .leaf m => m leaf = true
  | .dir d => Inside d base
  | .ent d m => Inside d base ∧ m leaf = true

/-- A directory that is included: what is inside is matched against the
filters that follow. -/
def Rule.Opens (r : Rule) (n : Nat) : Prop := ∃ d, r.key = .dir d ∧ r.value = true ∧ d.length = n

/-- One of the filters determines the outcome given those before it: it
matches, and if it is for a directory, then it excludes it, and it is for
one inside of those included before. -/
def Rule.Decides (pre : List Rule) (r : Rule) (base : Path) (leaf : String) (link : Bool) : Prop :=
  r.Matches base leaf link ∧
  ∀ d, r.key = .dir d → r.value = false ∧
    ∀ o ∈ pre, o.Matches base leaf link → ∀ n, o.Opens n → n < d.length

end Verif.Install
