/-!
# What target a prerequisite refers to: specification
-/

namespace Verif.Search

/-- Components of a normalized absolute path. -/
abbrev Path := List String

/-- A path with some (relative) components after it, without `.` and `..`. -/
def complete : Path → List String → Path
  | b, [] => b
  | b, c :: r => complete (if c = "." then b else if c = ".." then b.dropLast else b ++ [c]) r

/-- Target types, with whether their targets can be files in the source tree. -/
structure Ty where
  num  : Nat
  file : Bool
  deriving DecidableEq

/-- The scope of a buildfile: the project and where it is in the project. -/
structure Scope where
  rootOut : Path
  rootSrc : Path
  leaf    : Path
  deriving DecidableEq

def Scope.out (s : Scope) : Path := s.rootOut ++ s.leaf
def Scope.src (s : Scope) : Path := s.rootSrc ++ s.leaf

inductive Dir
  | abs (d : Path) | rel (r : List String)
  deriving DecidableEq

/-- The directory, where relative ones are to this one. -/
def Dir.from (b : Path) : Dir → Path
  | abs d => d
  | rel r => complete b r

/-- A prerequisite as it is written: `type{dir/name.ext}@out`, and the extension that is the
default for the type in this scope. -/
structure Pre where
  type  : Ty
  scope : Scope
  dir   : Dir
  out   : Option Dir
  name  : String
  ext   : Option String
  defaultExt : Option String
  deriving DecidableEq

/-- The identity of a target without the extension; those in a separate source tree have the
corresponding output directory. -/
structure Id where
  type : Ty
  dir  : Path
  out  : Option Path
  name : String
  deriving DecidableEq

/-- A target with its extension if known. -/
structure Key where
  id  : Id
  ext : Option String
  deriving DecidableEq

/-- Extensions that can be of the same target. -/
def Compatible (x y : Option String) : Prop := x = none ∨ y = none ∨ x = y

/-- The target at the place that is written, which is in the output tree if this is not specified. -/
def Pre.here (p : Pre) : Id :=
  match p.out with
  | none => ⟨p.type, p.dir.from p.scope.out, none, p.name⟩
  | some o =>
    ⟨p.type, p.dir.from p.scope.src,
      if o.from p.scope.out = p.dir.from p.scope.src then none else some (o.from p.scope.out), p.name⟩

/-- The target in the source tree that corresponds to it. -/
inductive Pre.InSrc (p : Pre) : Id → Prop
  | mk {r} : p.type.file = true → p.out = none → p.dir = .rel r → p.scope.out ≠ p.scope.src →
      p.InSrc ⟨p.type, complete p.scope.src r, some (complete p.scope.out r), p.name⟩

/-- The name of a file. -/
def fileName (name ext : String) : String := if ext = "" then name else name ++ "." ++ ext

/-- The target for an existing file in the source tree of the project. -/
inductive Pre.Existing (p : Pre) (files : Path → Prop) : Key → Prop
  /-- Where the place is not specified: the corresponding output directory. -/
  | found {l e} : p.type.file = true → p.out = none → p.dir.from p.scope.src = p.scope.rootSrc ++ l →
      p.ext.or p.defaultExt = some e → files (p.scope.rootSrc ++ l ++ [fileName p.name e]) →
      p.Existing files ⟨⟨p.type, p.scope.rootSrc ++ l,
        if p.scope.out = p.scope.src then none else some (p.scope.rootOut ++ l), p.name⟩, some e⟩
  | foundAt {l e o} : p.type.file = true → p.out = some o →
      p.dir.from p.scope.src = p.scope.rootSrc ++ l →
      p.ext.or p.defaultExt = some e → files (p.scope.rootSrc ++ l ++ [fileName p.name e]) →
      p.Existing files ⟨p.here, some e⟩

/-- Whether a new target can be there, that is, it is not (only) in a source tree. -/
def Pre.New (p : Pre) (source : Path → Prop) : Prop :=
  p.out = none ∧ ∀ d, p.dir = .abs d → ¬ source d

/-- There is a declared target at this place. -/
def Declared (ks : List Key) (p : Pre) (i : Id) : Prop :=
  ∃ k ∈ ks, k.id = i ∧ Compatible k.ext p.ext

/-- What target a prerequisite refers to: a declared one in the output tree, or else in the source
tree, or else an existing file, or else a new one, if it is possible. -/
inductive Refers (ks : List Key) (files source : Path → Prop) (p : Pre) : Option Id → Prop
  | declared : Declared ks p p.here → Refers ks files source p (some p.here)
  | declaredSrc {i} : ¬ Declared ks p p.here → p.InSrc i → Declared ks p i →
      Refers ks files source p (some i)
  | existing {k} : ¬ Declared ks p p.here → (∀ i, p.InSrc i → ¬ Declared ks p i) →
      p.Existing files k → Refers ks files source p (some k.id)
  | new : ¬ Declared ks p p.here → (∀ i, p.InSrc i → ¬ Declared ks p i) →
      (∀ k, ¬ p.Existing files k) → p.New source → Refers ks files source p (some p.here)
  | error : ¬ Declared ks p p.here → (∀ i, p.InSrc i → ¬ Declared ks p i) →
      (∀ k, ¬ p.Existing files k) → ¬ p.New source → Refers ks files source p none

/-- At most one extension is used for the same target. -/
def OneExt (ks : List Key) (files : Path → Prop) (ps : List Pre) : Prop :=
  ∃ E : Id → Option String,
    (∀ k ∈ ks, k.ext = none ∨ k.ext = E k.id) ∧
    (∀ p ∈ ps, p.ext = none ∨ p.ext = E p.here) ∧
    (∀ p ∈ ps, ∀ i, p.InSrc i → p.ext = none ∨ p.ext = E i) ∧
    ∀ p ∈ ps, ∀ k, p.Existing files k → k.ext = E k.id

/-- References are consistent: the same target is always meant with the same extension, and what
is referred to but is not declared is not in the way of something else. -/
structure Consistent (ks : List Key) (files source : Path → Prop) (ps : List Pre) : Prop where
  ext : OneExt ks files ps
  /-- Declared targets are different ones. -/
  declared : (ks.map Key.id).Nodup
  /-- If what one refers to is where another is looked for, then they refer to the same. -/
  way : ∀ p ∈ ps, ∀ q ∈ ps, ∀ i, Refers ks files source q (some i) → i ∉ ks.map Key.id →
    (i = p.here → Refers ks files source p (some i)) ∧
    (p.InSrc i → ¬ Declared ks p p.here → Refers ks files source p (some i))

/-- The common case: buildfiles of one project where prerequisites are written relative to the
buildfile, without leaving the project, or as absolute ones in the source tree, with the same
extension (or default) for the same file. -/
structure Tidy (ks : List Key) (files source : Path → Prop) (ps : List Pre) (rootOut rootSrc : Path) :
    Prop where
  ext : OneExt ks files ps
  declared : (ks.map Key.id).Nodup
  project : ∀ p ∈ ps, p.scope.rootOut = rootOut ∧ p.scope.rootSrc = rootSrc ∧ p.out = none
  dir : ∀ p ∈ ps,
    (∃ r l, p.dir = .rel r ∧ ∀ b, complete (b ++ p.scope.leaf) r = b ++ l) ∨
    (∃ l, p.dir = .abs (rootSrc ++ l) ∧ rootOut ≠ rootSrc ∧ source (rootSrc ++ l) ∧
      ¬ rootOut <+: rootSrc ++ l)
  same : ∀ p ∈ ps, ∀ q ∈ ps, p.type = q.type → p.name = q.name →
    p.dir.from p.scope.src = q.dir.from q.scope.src → p.ext.or p.defaultExt = q.ext.or q.defaultExt

end Verif.Search
