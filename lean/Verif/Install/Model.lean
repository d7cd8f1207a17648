import Verif.Install.Spec
/-!
# Installing and uninstalling: the model

`install::file_rule` (`libbuild2/install/rule.cxx`), the resolution of
installation directories there, and the filter
(`libbuild2/install/utility.cxx`).

The commands `install`, `ln`, and `rmdir` are modelled after their POSIX
and GNU documentation. Paths are relative to `config.install.chroot`
(libbuild2/install/utility.hxx 103-110), which is an injective function
that keeps the nesting. Not modelled: dry run, modes, owners, symlinks to
directories as parts of paths, and removal of files that fails.
-/

namespace Verif.Install

/-- Used by `installD` (libbuild2/install/rule.cxx 1003-1097). -/
inductive Err where
  | notDirectory | isDirectory | noParent
  | emptyName | unknownName | cycle
deriving DecidableEq, Repr

/-- The entry becomes this one. Used by `installD` (libbuild2/install/rule.cxx 1003-1097). -/
def set (fs : FS) (p : Path) (e : Entry) : FS :=
  (p, e) :: fs.filter fun x => x.1 ≠ p

/-- The entry is removed. Used by `uninstallD` (libbuild2/install/rule.cxx 1393-1516). -/
def erase (fs : FS) (p : Path) : FS := fs.filter fun x => x.1 ≠ p

/-- `dir_exists ()`. Used by `installD` (libbuild2/install/rule.cxx 1003-1097). -/
def isDir (fs : FS) (p : Path) : Bool := get fs p = some .dir

/-- `file_exists (f, false)`: a regular file or a symlink.
Used by `uninstallF` (libbuild2/install/rule.cxx 1576-1620). -/
def isFile (fs : FS) (p : Path) : Bool :=
  match get fs p with
  | some .dir => false
  | some _ => true
  | none => false

/-- `dir_empty ()`. Used by `uninstallD` (libbuild2/install/rule.cxx 1393-1516). -/
def isEmpty (fs : FS) (d : Path) : Bool :=
  fs.all fun x => match x.1 with
    | [] => true
    | _ :: p => p ≠ d

/-- A file or a link is created or replaced.
Used by `installF` (libbuild2/install/rule.cxx 1099-1172). -/
def put (fs : FS) (p : Path) (e : Entry) : Except Err FS :=
  match p with
  | [] => .error .isDirectory
  | _ :: d =>
    if isDir fs p then .error .isDirectory
    else if isDir fs d then .ok (set fs p e)
    else .error .noParent

/-- `install -d <d>`: the directory and all those it is in.
Used by `installD` (libbuild2/install/rule.cxx 1003-1097). -/
def mkdirp (fs : FS) : Path → Except Err FS
  | [] => .ok fs
  | x :: d =>
    match get fs (x :: d) with
    | some .dir => .ok fs
    | some _ => .error .notDirectory
    | none => do .ok (set (← mkdirp fs d) (x :: d) .dir)

/-- `install <src> <dst>`: into the directory if it is one.
Used by `installF` (libbuild2/install/rule.cxx 1099-1172). -/
def installCmd (fs : FS) (src content : String) (dst : Path) : Except Err FS :=
  if isDir fs dst then put fs (src :: dst) (.file content)
  else put fs dst (.file content)

/-- `ln -sf <target> <dst>`: into the directory if it is one.
Used by `installL` (libbuild2/install/rule.cxx 1174-1275). -/
def lnCmd (fs : FS) (target : String) (dst : Path) : Except Err FS :=
  if isDir fs dst then put fs (target :: dst) (.link target)
  else put fs dst (.link target)

/-- libbuild2/install/rule.cxx 1003-1097 `install_d`; the directory as
`base.dir` and the one to create. -/
def installD (flt : Filter) (fs : FS) (base : Path) : Path → Except Err FS
  | [] => .ok fs -- Exists.
  | x :: pd =>
    if !flt.dir (x :: pd) then .ok fs
    else if isDir fs (x :: pd) then .ok fs
    else do
      let fs ←
        (if x :: pd ≠ base ∧ pd ≠ base then installD flt fs base pd else .ok fs)
      mkdirp fs (x :: pd)

/-- libbuild2/install/rule.cxx 1099-1172 `install_f`; `name` may be
absent. -/
def installF (flt : Filter) (fs : FS) (base : Path) (name : Option String)
    (src content : String) : Except Err FS :=
  if !flt.ent base (name.getD src) .regular then .ok fs
  else
    installCmd fs src content
      (match name with
       | none => base
       | some n => n :: base)

/-- libbuild2/install/rule.cxx 1174-1275 `install_l`. -/
def installL (flt : Filter) (fs : FS) (base : Path) (link target : String) :
    Except Err FS :=
  if !flt.ent base link .symlink then .ok fs
  else lnCmd fs target (link :: base)

/-- libbuild2/install/rule.cxx 1322-1323: the loop over the leading
directories, after the first one; each with the previous one as the base. -/
def installDs (flt : Filter) (fs : FS) (base : Path) : List Path → Except Err FS
  | [] => .ok fs
  | d :: ds => do installDs flt (← installD flt fs base d) d ds

/-- libbuild2/cc/install-rule.cxx 400-441 `install_extra`: the links. -/
def installLs (flt : Filter) (fs : FS) (base : Path) :
    List (String × String) → Except Err FS
  | [] => .ok fs
  | l :: ls => do installLs flt (← installL flt fs base l.1 l.2) base ls

/-- libbuild2/install/rule.cxx 1342-1345: the name argument. If the file
that is copied has a different name, then it is installed as the
original. -/
def nameArg (t : Item) : Option String :=
  match t.name with
  | some n => some n
  | none => if t.src ≠ t.orig then some t.orig else none

/-- libbuild2/install/rule.cxx 1289-1350: `install_target` in
`perform_install`. For the first leading directory the base is the
directory itself. -/
def installTarget (flt : Filter) (fs : FS) (t : Item) : Except Err FS :=
  match t.dirs with
  | [] => .ok fs -- Never empty.
  | d :: ds => do
    let fs ← installDs flt fs d (d :: ds)
    let fs ← installF flt fs t.dest (nameArg t) t.src t.content
    installLs flt fs t.dest t.links

/-- libbuild2/install/rule.cxx 1352-1390: targets (ad hoc members,
prerequisites) one after another; the operation is serial
(libbuild2/install/operation.cxx 376-402). -/
def install (flt : Filter) (fs : FS) : List Item → Except Err FS
  | [] => .ok fs
  | t :: ts => do install flt (← installTarget flt fs t) ts

/-- libbuild2/install/rule.cxx 1393-1516 `uninstall_d`; `ok` says which
empty directories can be removed. -/
def uninstallD (flt : Filter) (ok : Path → Bool) (fs : FS) (base : Path) :
    Path → FS
  | [] =>
    -- The root cannot be removed.
    fs
  | x :: pd =>
    if !flt.dir (x :: pd) then fs
    else if isDir fs (x :: pd) then
      if !isEmpty fs (x :: pd) then fs
      else if !ok (x :: pd) then fs
      else if x :: pd ≠ base ∧ pd ≠ base then
        uninstallD flt ok (erase fs (x :: pd)) base pd
      else erase fs (x :: pd)
    else if x :: pd ≠ base ∧ pd ≠ base then uninstallD flt ok fs base pd
    else fs

/-- libbuild2/install/rule.cxx 1576-1620 `uninstall_f`, 1623-1664
`uninstall_l`. -/
def uninstallF (flt : Filter) (fs : FS) (base : Path) (leaf : String)
    (k : Kind) : FS :=
  if !flt.ent base leaf k then fs
  else if !isFile fs (leaf :: base) then fs
  else erase fs (leaf :: base)

/-- libbuild2/install/rule.cxx 1722-1726: the loop over the leading
directories in reverse, each with the next one as the base, and the last
one with itself. -/
def uninstallDs (flt : Filter) (ok : Path → Bool) (fs : FS) : List Path → FS
  | [] => fs
  | [d] => uninstallD flt ok fs d d
  | d :: b :: ds => uninstallDs flt ok (uninstallD flt ok fs b d) (b :: ds)

/-- libbuild2/install/rule.cxx 1680-1729: `uninstall_target` in
`perform_uninstall`. -/
def uninstallTarget (flt : Filter) (ok : Path → Bool) (fs : FS) (t : Item) : FS :=
  let fs := t.links.foldl (fun fs l => uninstallF flt fs t.dest l.1 .symlink) fs
  let fs := uninstallF flt fs t.dest t.leaf .regular
  uninstallDs flt ok fs t.dirs.reverse

/-- libbuild2/install/rule.cxx 1731-1769: targets one after another. -/
def uninstall (flt : Filter) (ok : Path → Bool) (fs : FS) (ts : List Item) : FS :=
  ts.foldl (uninstallTarget flt ok) fs

/-! ## Resolution of installation directories -/

/-- The value of an `install.*` variable: an absolute path or one relative
to the directory with the name that is its first component. Components that
are relative to the enclosing directory (`..`) are left out.
Used by `resolve` (libbuild2/install/rule.cxx 795-887). -/
inductive Dir where
  | abs (p : Path)
  | rel (cs : List String)

/-- libbuild2/install/rule.cxx 795-887 `resolve`, the directories only. The
recursion is not bounded in the code (there is a TODO about cycles). -/
def resolve (vars : String → Option Dir) : Nat → Dir → Except Err (List Path)
  | 0, _ => .error .cycle
  | _ + 1, .abs p => .ok [p]
  | _ + 1, .rel [] => .error .emptyName
  | f + 1, .rel (n :: cs) =>
    match vars n with
    | none => .error .unknownName
    | some d => do
      let rs ← resolve vars f d
      .ok (rs ++ [cs.reverse ++ (rs.getLast?.getD [])])

/-! ## The filter -/

/-- libbuild2/install/utility.cxx 180-192 `path_sub`: the first components
match. -/
def subMatch : List (String → Bool) → List String → Bool
  | [], _ => true
  | _ :: _, [] => false
  | m :: ms, x :: xs => m x && subMatch ms xs

/-- libbuild2/install/utility.cxx 73-291: the loop of `filter_entry`;
`leaf` is empty for a directory. The number of components of an absolute
path includes the root. -/
def filterLoop (negate : Bool) (base : Path) (leaf : String) (link : Bool) :
    Nat → List Rule → Bool
  | _, [] => !negate
  | limit, r :: rs =>
    if r.symlink && !link then filterLoop negate base leaf link limit rs
    else
      match r.key with
      | .leaf m =>
        if m leaf then (if negate then !r.value else r.value)
        else filterLoop negate base leaf link limit rs
      | .dir d =>
        if d.length + 1 ≤ limit then filterLoop negate base leaf link limit rs
        else if !subMatch d base.reverse then filterLoop negate base leaf link limit rs
        else if r.value then filterLoop negate base leaf link (d.length + 1) rs
        else (if negate then !r.value else r.value)
      | .ent d m =>
        if subMatch d base.reverse && m leaf then (if negate then !r.value else r.value)
        else filterLoop negate base leaf link limit rs

/-- libbuild2/install/utility.cxx 39-294 `filter_entry`. -/
def filterOf (negate : Bool) (rs : List Rule) : Filter where
  dir d := if rs = [] then true else filterLoop negate d "" false 0 rs
  ent d leaf k := if rs = [] then true else filterLoop negate d leaf (k = .symlink) 0 rs

end Verif.Install
