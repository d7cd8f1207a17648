/-!
# Header dependencies: the specification
-/

namespace Verif.Headers

abbrev Path := String
abbrev Content := String

/-- What a preprocessor does with a source file: it includes headers in some
order, where what it does next depends on the contents of those before, and
checks whether files exist. The latter is what `__has_include` does and also
the search for a header in several directories: every directory but the one
where it is found is an existence check. -/
inductive Source where
  | done
  | error
  | incl (p : Path) (k : Option Content → Source)
  | test (p : Path) (k : Bool → Source)

/-- The contents of files. -/
abbrev Files := Path → Option Content

/-- The headers that are included, in order, up to the first one that is
missing. -/
def headers : Source → Files → List Path
  | .done, _ => []
  | .error, _ => []
  | .incl p k, f =>
    match f p with
    | some c => p :: headers (k (some c)) f
    | none => []
  | .test p k, f => headers (k (f p).isSome) f

/-- Whether nothing is missing and there are no errors. -/
def compiles : Source → Files → Bool
  | .done, _ => true
  | .error, _ => false
  | .incl p k, f =>
    match f p with
    | some c => compiles (k (some c)) f
    | none => false
  | .test p k, f => compiles (k (f p).isSome) f

/-- The first header that is missing. -/
def missing : Source → Files → Option Path
  | .done, _ => none
  | .error, _ => none
  | .incl p k, f =>
    match f p with
    | some c => missing (k (some c)) f
    | none => some p
  | .test p k, f => missing (k (f p).isSome) f

/-- No file whose existence is checked is added or removed. -/
def Stable (before after : Files) : Source → Prop
  | .done => True
  | .error => True
  | .incl _ k => ∀ c, Stable before after (k c)
  | .test p k => (before p).isSome = (after p).isSome ∧ ∀ b, Stable before after (k b)

/-- There are no errors other than missing headers. -/
def NoError : Source → Prop
  | .done => True
  | .error => False
  | .incl _ k => ∀ c, NoError (k c)
  | .test _ k => ∀ b, NoError (k b)

/-- A file and when it was last modified. -/
structure File where
  content : Content
  mtime : Nat
deriving DecidableEq, Repr

/-- What a build starts with: the files, what the generated headers that are
out of date will be after they are updated, and which of them are updated at
what time on behalf of other targets that are built in parallel. -/
structure World where
  old : Path → Option File
  rule : Path → Option Content
  others : Nat → List Path

/-- The files at the beginning of the build. -/
def World.before (w : World) : Files := fun p => (w.old p).map (·.content)

/-- The files with everything up to date. -/
def World.after (w : World) : Files := fun p => (w.rule p).or (w.before p)

end Verif.Headers
