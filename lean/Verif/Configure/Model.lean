import Verif.Configure.Spec

/-!
# Configuring and disfiguring an output directory: model

`libbuild2/config/operation.cxx`: `configure_project` (788-932) and `disfigure_project` (1255-1367);
`libbuild2/filesystem.txx`: `rmfile`, `rmdir`; `libbuild2/config/module.hxx`: `config_file`.

Not modelled: that a project that has been handled is skipped, hooks of modules, `config.config.save`,
hard links to `src-root.build`, what is in `config.build` (see `ConfigSave`), dry runs, failures of the file
system, that entries change while this is going on.
-/

namespace Verif.Configure

/-- `build_dir` (file.cxx 40, 58, 702). -/
def buildDir (alt : Bool) : Path := if alt then ["build2"] else ["build"]

/-- `root_dir` (file.cxx 41, 59, 705). -/
def rootDir (alt : Bool) : Path := buildDir alt ++ ["root"]

/-- `bootstrap_dir` (file.cxx 42, 60, 706). -/
def bootstrapDir (alt : Bool) : Path := buildDir alt ++ ["bootstrap"]

/-- `src_root_file` (file.cxx 48, 66, 711). -/
def srcRootFile (alt : Bool) : Path :=
  bootstrapDir alt ++ [if alt then "src-root.build2" else "src-root.build"]

/-- `config_file` (config/module.hxx 205-211). -/
def configFile (alt : Bool) : Path :=
  buildDir alt ++ [if alt then "config.build2" else "config.build"]

/-- `rmdir_status` of libbutl (filesystem.hxx 118). -/
inductive Status
  | success
  | notExist
  | notEmpty
  deriving DecidableEq, Repr

/-- `explicit operator bool` (filesystem.hxx 42). -/
def ok (s : Status) : Bool := s = .success

/-- A directory is there. Used by `rmdir` (filesystem.txx 49-95). -/
def isDir (fs : FS) (d : Path) : Bool := fs.contains (d, .dir)

/-- There is nothing in the directory. Used by `rmdir` (filesystem.txx 49-95). -/
def empty (fs : FS) (d : Path) : Bool := fs.all fun e => !(d.isPrefixOf e.1 && d != e.1)

/-- `rmdir` (filesystem.txx 49-95): the working directory and those it is in are not removed. Something
that isn't a directory is as if not there (in the code it is an error). -/
def rmdir (work : Path) (fs : FS) (d : Path) : FS × Status :=
  if d.isPrefixOf work then (fs, .notEmpty)
  else if !isDir fs d then (fs, .notExist)
  else if empty fs d then (fs.filter fun e => e != (d, .dir), .success)
  else (fs, .notEmpty)

/-- A file with this path. Used by `rmfile` (filesystem.txx 8-47). -/
def isFileAt (f : Path) (e : Path × Node) : Bool := e.1 == f && e.2 != .dir

/-- `rmfile` (filesystem.txx 8-47): whether there was one. -/
def rmfile (fs : FS) (f : Path) : FS × Bool :=
  if fs.any (isFileAt f) then (fs.filter fun e => !isFileAt f e, true) else (fs, false)

/-- The loop over parents of a subproject (config/operation.cxx 1292-1303), innermost first: `rev` is the
directory reversed. -/
def parents (work out : Path) : List String → FS → FS × Bool
  | [], fs => (fs, false)
  | c :: rev, fs =>
    let s := rmdir work fs (out ++ (c :: rev).reverse)
    if s.2 = .notEmpty then (s.1, false)
    else
      let r := parents work out rev s.1
      (r.1, ok s.2 || r.2)

/-- What `disfigure_project` does for the project itself (config/operation.cxx 1314-1359). -/
def disfigureOwn (work out : Path) (p : Proj) (fs : FS) : FS × Bool :=
  let a := rmfile fs (out ++ configFile p.alt)
  if out = p.src then a
  else
    let b := rmfile a.1 (out ++ srcRootFile p.alt)
    let c := rmdir work b.1 (out ++ rootDir p.alt)
    let d := rmdir work c.1 (out ++ bootstrapDir p.alt)
    let e := rmdir work d.1 (out ++ buildDir p.alt)
    let f := rmdir work e.1 out
    (f.1, a.2 || b.2 || ok c.2 || ok d.2 || ok e.2 || ok f.2)

/-- The loop over subprojects in `disfigure_project` (config/operation.cxx 1278-1306): `src` and `out` are
those of the project. -/
def disfigureSubs (work src out : Path) : Subs → FS → FS × Bool
  | .nil, fs => (fs, false)
  | .cons d p subs rest, fs =>
    let a := disfigureSubs work p.src (out ++ d) subs fs
    let b := disfigureOwn work (out ++ d) p a.1
    let c := if d.length ≠ 1 ∧ out ≠ src then parents work out d.reverse.tail b.1 else (b.1, false)
    let r := disfigureSubs work src out rest c.1
    (r.1, a.2 || b.2 || c.2 || r.2)

/-- `disfigure_project` (config/operation.cxx 1255-1367): whether anything has been done. -/
def disfigure (work out : Path) (p : Proj) (subs : Subs) (fs : FS) : FS × Bool :=
  let a := disfigureSubs work p.src out subs fs
  let b := disfigureOwn work out p a.1
  (b.1, a.2 || b.2)

/-- `mkdir` (filesystem.cxx 52-84): something that isn't a directory is kept (in the code it is an error). -/
def mkdir (fs : FS) (d : Path) : FS := if fs.any (fun e => e.1 == d) then fs else (d, .dir) :: fs

/-- `mkdir_p` (filesystem.cxx 86-118): `done` is there. -/
def mkdirP (fs : FS) (done : Path) : Path → FS
  | [] => fs
  | c :: cs => mkdirP (mkdir fs (done ++ [c])) (done ++ [c]) cs

/-- A file is written (config/operation.cxx 42-50 and `save_config`). -/
def write (fs : FS) (f : Path) (content : String) : FS :=
  (f, .file content) :: fs.filter fun e => e.1 != f

/-- What `configure_project` does for the project itself (config/operation.cxx 811-864). -/
def configureOwn (out : Path) (p : Proj) (fs : FS) : FS :=
  if out = p.src then write fs (out ++ configFile p.alt) p.config
  else
    let a := mkdirP fs [] (out ++ buildDir p.alt)
    let b := mkdir a (out ++ bootstrapDir p.alt)
    let c := write b (out ++ srcRootFile p.alt) p.srcRoot
    write c (out ++ configFile p.alt) p.config

/-- The loop over subprojects in `configure_project` (config/operation.cxx 899-931): those that aren't
loaded with the `config` module are skipped, with their own subprojects. -/
def configureSubs (out : Path) : Subs → FS → FS
  | .nil, fs => fs
  | .cons d p subs rest, fs =>
    configureSubs out rest
      (if p.loaded then configureSubs (out ++ d) subs (configureOwn (out ++ d) p fs) else fs)

/-- `configure_project` (config/operation.cxx 788-932). -/
def configure (out : Path) (p : Proj) (subs : Subs) (fs : FS) : FS :=
  configureSubs out subs (configureOwn out p fs)

end Verif.Configure
