import Verif.Backlink.Spec

/-!
# Backlinks: model

`libbuild2/algorithm.cxx`: `try_rmbacklink` (2206-2241), `update_backlink` (2243-2368),
`clean_backlink` (2370-2406), `backlink_test` (2451-2559), `backlink_collect` (2561-2678),
`backlink_update_post` (2686-2790), `backlink_clean_pre` (2792-2804), `execute_impl` (2806-2880).

Not modelled: directories that are linked (`fsdir` members), diagnostics, that hard links share what is
written later. Directories on the way to a path are assumed not to be links. `mkanylink` is taken to make
a symbolic link. Functions of libbutl (`cpfile`, `mksymlink`, `mkhardlink`) behave as their counterparts
in POSIX.
-/

namespace Verif.Backlink

/-- The file system with an entry changed. Used by `remove` (algorithm.cxx 2206-2241). -/
def Fs.set (fs : Fs) (p : Path) (v : Option Node) : Fs := fun q => if q = p then v else fs q

/-- Reading (and so `file_exists`, algorithm.cxx 2278) through fewer than `n` symbolic links, where `n`
is the limit of the operating system. -/
def read (fs : Fs) : Nat → Path → Option Nat
  | 0, _ => none
  | n + 1, p =>
    match fs p with
    | some (.reg c) => some c
    | some (.sym q) => read fs n q
    | _ => none

/-- Where the path leads (`open` for writing in `cpfile`, algorithm.cxx 2342). -/
def follow (fs : Fs) : Nat → Path → Option Path
  | 0, _ => none
  | n + 1, p =>
    match fs p with
    | some (.sym q) => follow fs n q
    | some .dir => none
    | _ => some p

/-- `try_rmbacklink` (algorithm.cxx 2206-2241) for a file. -/
def remove (fs : Fs) (l : Link) : Fs × Bool :=
  match l.mode with
  | .overwrite => (fs, true)
  | _ =>
    match fs l.path with
    | some .dir => (fs, false)
    | _ => (fs.set l.path none, true)

/-- The switch (algorithm.cxx 2284-2347), given what is in the file. -/
def make (n : Nat) (fs : Fs) (l : Link) (c : Nat) : Fs × Bool :=
  match l.mode with
  | .link | .symbolic => (fs.set l.path (some (.sym l.target)), true)
  | .hard | .copy => (fs.set l.path (some (.reg c)), true)
  | .overwrite =>
    match follow fs n l.path with
    | some q => (fs.set q (some (.reg c)), true)
    | none => (fs, false)

/-- `update_backlink` (algorithm.cxx 2243-2368), not in a dry run. -/
def update (n : Nat) (fs : Fs) (l : Link) : Fs × Bool :=
  match remove fs l with
  | (fs, false) => (fs, false)
  | (fs, true) =>
    match read fs n l.target with
    | none => (fs, true)
    | some c => if fs l.path.dropLast = some .dir then make n fs l c else (fs, false)

/-- The loop (algorithm.cxx 2779-2780). -/
def updates (n : Nat) : Fs → List Link → Fs × Bool
  | fs, [] => (fs, true)
  | fs, l :: ls =>
    match update n fs l with
    | (fs, false) => (fs, false)
    | (fs, true) => updates n fs ls

/-- `mkdir_p` (algorithm.cxx 2773-2774, filesystem.cxx): missing directories are made. -/
def mkdirs (fs : Fs) (d : Path) : Fs := fun q =>
  match fs q with
  | some x => some x
  | none => if q.isPrefixOf d then some .dir else none

/-- The destructors of `backlink` (algorithm.cxx 2433-2440): errors are ignored. -/
def unlink : Fs → List Link → Fs
  | fs, [] => fs
  | fs, l :: ls => unlink (remove fs l).1 ls

/-- `backlink_update_post` (algorithm.cxx 2686-2790): only the directory of the first link is made,
which is also done in a dry run. -/
def post (n : Nat) (dry : Bool) (fs : Fs) : List Link → Fs × Bool
  | [] => (fs, true)
  | l :: ls =>
    if dry then (mkdirs fs l.path.dropLast, true)
    else updates n (mkdirs fs l.path.dropLast) (l :: ls)

/-- Updating a target that is to be linked (algorithm.cxx 2806-2880): `recipe` is what `execute_recipe`
does to the file system and whether it succeeds. -/
def run (n : Nat) (dry : Bool) (recipe : Fs → Fs × Bool) (ls : List Link) (fs : Fs) : Fs × Bool :=
  match recipe fs with
  | (fs, false) => (if dry then fs else unlink fs ls, false)
  | (fs, true) =>
    match post n dry fs ls with
    | (fs, true) => (fs, true)
    | (fs, false) => (unlink fs ls, false)

/-- `backlink_clean_pre` (algorithm.cxx 2792-2804): stops at an error. -/
def clean : Fs → List Link → Fs × Bool
  | fs, [] => (fs, true)
  | fs, l :: ls =>
    match remove fs l with
    | (fs, false) => (fs, false)
    | (fs, true) => clean fs ls

/-! ## What is linked -/

/-- The loop over the word of the mode (algorithm.cxx 2463-2485): `none` if it is invalid. -/
def modeOf (g : Option Mode) (v : String) : Option (Option Mode) :=
  if v = "true" then some (some .link)
  else if v = "symbolic" then some (some .symbolic)
  else if v = "hard" then some (some .hard)
  else if v = "copy" then some (some .copy)
  else if v = "overwrite" then some (some .overwrite)
  else if v = "false" then some none
  else if v = "group" then
    match g with
    | some m => some (some m)
    | none => none
  else none

/-- `backlink_test` (algorithm.cxx 2451-2499) of a value of simple names: `none` if it is invalid. -/
def parse (g : Option Mode) (ns : List String) : Option (Option (Mode × Bool)) :=
  match ns with
  | [v] =>
    match modeOf g v with
    | none => none
    | some m => some (m.map (·, true))
  | [v, w] =>
    match modeOf g v with
    | none => none
    | some m =>
      if w = "true" then some (m.map (·, true))
      else if w = "false" then some (m.map (·, false))
      else none
  | _ => none

/-- `backlink_test` (algorithm.cxx 2501-2559) of a target, given the value that is looked up. -/
def test (c : Cond) (value : Option (List String)) : Option (Option Mode) :=
  if !c.plain then some none
  else if !c.inOut then some none
  else if !c.file && !c.members then some none
  else if !c.project || c.inSource then some none
  else if !c.forwarded then some none
  else
    match value with
    | none => some none
    | some v =>
      match parse none v with
      | none => none
      | some none => some none
      | some (some (m, print)) => if print then some (some m) else none

/-- `add` (algorithm.cxx 2570-2586). -/
def place (src out : Path) (p : Path) (m : Mode) : Link := ⟨p, src ++ p.drop out.length, m⟩

/-- `member_mode` (algorithm.cxx 2597-2606). -/
def memberMode (m : Mode) (t : Member) : Option (Option Mode) :=
  match t.value with
  | none => some (some m)
  | some v => (parse (some m) v).map fun r => r.map (·.1)

/-- The loops over members (algorithm.cxx 2627-2673): `none` if a value is invalid. -/
def collectMembers (src out : Path) (m : Mode) : List Member → Option (List Link)
  | [] => some []
  | t :: ts =>
    match t.path with
    | none => collectMembers src out m ts
    | some p =>
      match memberMode m t with
      | none => none
      | some none => collectMembers src out m ts
      | some (some mm) => (collectMembers src out m ts).map (place src out p mm :: ·)

/-- `backlink_collect` (algorithm.cxx 2561-2678): the file itself, unless there is none (or it is a
group), and members. -/
def collect (src out : Path) (m : Mode) (self : Option Path) (ts : List Member) :
    Option (List Link) :=
  match self with
  | some p => (collectMembers src out m ts).map (place src out p m :: ·)
  | none => collectMembers src out m ts

end Verif.Backlink
