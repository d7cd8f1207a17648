import Verif.Cleanup.Spec
/-!
# Cleaning up after scripts: the model
-/

namespace Verif.Cleanup

/-- What a script is run with: the working directory, the directory that it
should not get out of, if any, and the current directory of the build system
(libbuild2/script/script.hxx 480-492). Matching of patterns is given: which
components have wildcards, what paths a path with some of them matches and
what is found for it, in the depth-first order (`path_search` in libbutl). -/
structure Env where
  work : Path
  sandbox : Option Path
  cwd : Path
  wild : String → Bool
  hit : Path → Path → Bool
  search : Path → Bool → FS → List (Path × Kind)

/-- Why cleaning up fails. Used by `rmFound` (libbuild2/script/run.cxx 3627-3683). -/
inductive Fault where
  | doesNotExist (p : Path)
  | notEmpty (p : Path)
  | system (p : Path)
  | noMatch (p : Path)
deriving DecidableEq, Repr

/-- libbutl `rmfile_status` and `rmdir_status`, or a system error.
Used by `rmfile` (libbuild2/script/run.cxx 3515-3530). -/
inductive Status where
  | success
  | notExist
  | notEmpty
  | error
deriving DecidableEq, Repr

/-- `path::sub ()` in libbutl: the same or inside of.
Used by `rmdir` (libbuild2/script/run.cxx 3532-3549). -/
def sub (p d : Path) : Bool := d.isPrefixOf p

/-- libbuild2/script/run.cxx 3515-3530 `rmfile`. -/
def rmfile (fs : FS) (p : Path) : FS × Status :=
  match fs.at p with
  | none => (fs, .notExist)
  | some .file => (fs.filter fun e => e.1 ≠ p, .success)
  | some .dir => (fs, .error)

/-- libbuild2/script/run.cxx 3532-3549 `rmdir`. -/
def rmdir (cwd : Path) (fs : FS) (p : Path) : FS × Status :=
  if sub cwd p then (fs, .notEmpty)
  else match fs.at p with
  | none => (fs, .notExist)
  | some .file => (fs, .error)
  | some .dir =>
    if fs.any fun e => Below e.1 p then (fs, .notEmpty)
    else (fs.filter fun e => e.1 ≠ p, .success)

/-- libbuild2/script/run.cxx 3551-3573 `rmdir_r`. -/
def rmdirR (cwd : Path) (fs : FS) (p : Path) (dir : Bool) : FS × Status :=
  if sub cwd p then (fs, .notEmpty)
  else match fs.at p with
  | none => (fs, .notExist)
  | some .file => (fs, .error)
  | some .dir => (fs.filter fun e => !(sub e.1 p && (dir || e.1 ≠ p)), .success)

/-- libbuild2/script/run.cxx 3617-3618 `recursive`. -/
def recursive (c : Entry) : Bool := !c.toDir && c.path.getLast? = some "***"

/-- libbuild2/script/run.cxx 3619 `p`, with whether it is a directory. -/
def target (c : Entry) : Path × Bool :=
  if recursive c then (c.path.dropLast, true) else (c.path, c.toDir)

/-- libbuild2/script/run.cxx 3627-3683 `rm`: removes what is found for a
pattern. -/
def rmFound (env : Env) (c : Entry) : FS → List (Path × Kind) → FS × Option Fault
  | fs, [] => (fs, none)
  | fs, (p, .dir) :: es =>
    if recursive c then
      match rmdirR env.cwd fs p (p ≠ env.work) with
      | (fs, .notEmpty) => (fs, some (.notEmpty p))
      | (fs, .error) => (fs, some (.system p))
      | (fs, _) => rmFound env c fs es
    else
      match rmdir env.cwd fs p with
      | (fs, .notEmpty) => (fs, some (.notEmpty p))
      | (fs, .error) => (fs, some (.system p))
      | (fs, _) => rmFound env c fs es
  | fs, (p, .file) :: es =>
    match rmfile fs p with
    | (fs, .error) => (fs, some (.system p))
    | (fs, _) => rmFound env c fs es

/-- libbuild2/script/run.cxx 3601-3746: one registered path. -/
def clean1 (env : Env) (fs : FS) (c : Entry) : FS × Option Fault :=
  if c.type = .never then (fs, none)
  else
    let (p, toDir) := target c
    if p.any env.wild then
      let found := env.search p toDir fs
      match rmFound env c fs found with
      | (fs, some f) => (fs, some f)
      | (fs, none) =>
        if found ≠ [] ∨ c.type = .maybe then (fs, none) else (fs, some (.noMatch c.path))
    else if toDir then
      match (if recursive c then rmdirR env.cwd fs p (p ≠ env.work) else rmdir env.cwd fs p) with
      | (fs, .success) => (fs, none)
      | (fs, .notExist) => if c.type = .maybe then (fs, none) else (fs, some (.doesNotExist p))
      | (fs, .notEmpty) => (fs, some (.notEmpty p))
      | (fs, .error) => (fs, some (.system p))
    else
      match rmfile fs p with
      | (fs, .notExist) => if c.type = .always then (fs, some (.doesNotExist p)) else (fs, none)
      | (fs, .error) => (fs, some (.system p))
      | (fs, _) => (fs, none)

/-- The loop, given the paths in the order in which they are removed.
Used by `clean` (libbuild2/script/run.cxx 3508-3748). -/
def cleanAll (env : Env) : FS → List Entry → FS × Option Fault
  | fs, [] => (fs, none)
  | fs, c :: cs =>
    match clean1 env fs c with
    | (fs, none) => cleanAll env fs cs
    | r => r

/-- libbuild2/script/run.cxx 3508-3748 `clean`. Special files, which the script
does not know about, are left out. -/
def clean (env : Env) (fs : FS) (cs : List Entry) : FS × Option Fault :=
  cleanAll env fs cs.reverse

/-- libbuild2/test/script/runner.cxx 89-137 `leave`, unless the output is kept.
A scope other than the outermost one: the .buildignore file of the outermost
one is left out. -/
def leave (env : Env) (fs : FS) (cs : List Entry) : FS × Option Fault :=
  match clean env fs cs with
  | (fs, none) =>
    match rmdir env.cwd fs env.work with
    | (fs, .success) => (fs, none)
    | (fs, .notExist) => (fs, some (.doesNotExist env.work))
    | (fs, .notEmpty) => (fs, some (.notEmpty env.work))
    | (fs, .error) => (fs, some (.system env.work))
  | r => r

/-! ## Registering -/

/-- In the sandbox, if there is one.
Used by `register` (libbuild2/script/script.cxx 772-798). -/
def inside (env : Env) (p : Path) : Bool :=
  match env.sandbox with
  | none => true
  | some s => sub p s

/-- libbuild2/script/script.cxx 772-798 `environment::clean`, without the
assertion that an explicitly registered path has been checked. -/
def register (env : Env) (cs : List Entry) (c : Entry) (implicit : Bool) : List Entry :=
  if implicit && !inside env c.path then cs
  else if cs.any fun x => x.path = c.path then
    if implicit then cs
    else cs.map fun x => if x.path = c.path then { x with type := c.type } else x
  else cs ++ [c]

/-- libbuild2/script/run.cxx 1882-1903: an explicit cleanup of a command, if it
is in the sandbox. -/
def explicit (env : Env) (cs : List Entry) (c : Entry) : Option (List Entry) :=
  let wc := c.path.getLast? = some "*" || c.path.getLast? = some "**" ||
    c.path.getLast? = some "***"
  if inside env (if wc then c.path.dropLast else c.path) then
    some (register env cs c false)
  else none

/-- libbuild2/script/run.cxx 3074-3122: the paths that are moved, or not
anymore registered, after a move. -/
def moved (cs : List Entry) (source dest : Path) (move : Bool) : List Entry :=
  (cs.filter fun c => !sub c.path source) ++
    if move then
      (cs.filter fun c => sub c.path source).map fun c =>
        { c with path := dest ++ c.path.drop source.length }
    else []

/-! ## Scripts -/

/-- Whether there is a directory for it. -/
def hasParent (fs : FS) (p : Path) : Bool := p.length = 1 || fs.at p.dropLast = some .dir

/-- The `mv` builtin in libbutl: renames. What was there is replaced if both
are files or if both are directories and it is empty. -/
def rename (fs : FS) (source dest : Path) : Option FS :=
  if source = [] || dest = [] || sub dest source || sub source dest || !hasParent fs dest then none
  else
    let renamed := (fs.filter fun e => e.1 ≠ dest).map fun e =>
      if sub e.1 source then (dest ++ e.1.drop source.length, e.2) else e
    match fs.at source, fs.at dest with
    | none, _ => none
    | some _, none => some renamed
    | some .file, some .file => some renamed
    | some .dir, some .dir => if fs.any fun e => Below e.1 dest then none else some renamed
    | _, _ => none

/-- The filesystem and what is registered. -/
structure St where
  fs : FS
  cs : List Entry
deriving Repr

/-- One operation. If it fails, then so does the script. -/
def run (env : Env) (s : St) : Op → Option St
  -- libbuild2/script/run.cxx 1882-1903.
  | .register c =>
    match explicit env s.cs c with
    | none => none
    | some cs => some { s with cs := cs }
  -- libbuild2/script/run.cxx 2452-2466, with default_cleanup.
  | .redirect p =>
    match s.fs.at p with
    | some .dir => none
    | some .file => some { s with cs := register env s.cs ⟨.always, p, false⟩ true }
    | none =>
      if p ≠ [] && hasParent s.fs p then
        some ⟨s.fs ++ [(p, .file)], register env s.cs ⟨.always, p, false⟩ true⟩
      else none
  -- libbuild2/script/run.cxx 3008-3028 `create`. A file can be overwritten.
  | .create p k cleanup =>
    match s.fs.at p with
    | some .dir => none
    | some .file => if k = .file then some s else none
    | none =>
      if p ≠ [] && hasParent s.fs p then
        some ⟨s.fs ++ [(p, k)],
          if cleanup then register env s.cs ⟨.always, p, k = .dir⟩ true else s.cs⟩
      else none
  -- libbuild2/script/run.cxx 3030-3125 `move`.
  | .move source dest cleanup force =>
    if (!inside env source && !force) || sub env.work source || sub env.work dest then none
    else
      let mv := s.fs.at dest = none && inside env dest
      match rename s.fs source dest with
      | none => none
      | some fs => some ⟨fs, if cleanup then moved s.cs source dest mv else s.cs⟩
  -- libbuild2/script/run.cxx 3127-3147 `remove`.
  | .remove p rec force =>
    if (!inside env p && !force) || sub env.work p then none
    else match s.fs.at p with
    | none => if force then some s else none
    | some .file => some { s with fs := s.fs.filter fun e => e.1 ≠ p }
    | some .dir =>
      if rec || !s.fs.any fun e => Below e.1 p then
        some { s with fs := s.fs.filter fun e => !sub e.1 p }
      else none
  | .program fs => some { s with fs := fs }

/-- All of them.
Puts together `Env` (libbuild2/script/script.hxx 480-492) and what goes with it; no function of its own in the code. -/
def runAll (env : Env) : St → List Op → Option St
  | s, [] => some s
  | s, o :: os =>
    match run env s o with
    | none => none
    | some s => runAll env s os

end Verif.Cleanup
