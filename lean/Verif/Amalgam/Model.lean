import Verif.Amalgam.Spec

/-!
# Amalgamation: model

`libbuild2/file.cxx`: `find_out_root` (175-188), the part of `bootstrap_src` that determines the
amalgamation (1060-1288), `create_bootstrap_outer` (1520-1610), `create_bootstrap_inner` (1612-1735).

Not modelled: the two naming schemes, hooks, forwarding, remapping of source directories, exemplar
contexts (so `aovr` is absent) and modules; `bootstrap.build` does nothing but specify the variable.
-/

namespace Verif.Amalgam

/-- `is_src_root`, `is_out_root` (file.cxx 147-159). -/
def isRoot (k : Disk) (d : Dir) : Bool := (k.boot d).isSome || (k.conf d).isSome

/-- `find_out_root` (file.cxx 175-188). -/
def findOut (k : Disk) : Dir → Option Dir
  | [] => none
  | c :: d =>
    if k.home == some (c :: d) then none
    else if isRoot k (c :: d) then some (c :: d)
    else findOut k d

/-- `out_root / d` with `normalize ()` (file.cxx 1262-1263, 1531-1532): too many `..` are invalid. -/
def resolve (r : Rel) (b : Dir) : Except Err Dir :=
  if r.up ≤ b.length then .ok (r.down ++ b.drop r.up) else .error .path

/-- `d.relative (out_root)` (file.cxx 1234, 1280) for a directory outside. -/
def relative (d out : Dir) : Rel := ⟨out.length - d.length, []⟩

/-- A scope in the scope map that is a root (`create_root`, file.cxx 443-490). -/
def find (st : List Proj) (d : Dir) : Option Proj := st.find? (fun p => p.out == d)

/-- `rs.parent_scope ()->root_scope ()` (file.cxx 1212): the innermost root outside. -/
def outerRoot (st : List Proj) : Dir → Option Proj
  | [] => none
  | _ :: d =>
    match find st d with
    | some p => some p
    | none => outerRoot st d

/-- The amalgamation (file.cxx 1074-1092 and 1200-1286). -/
def amalgamation (k : Disk) (st : List Proj) (out : Dir) : Option Setting → Except Err (Option Rel)
  | none => .ok none
  | some .disabled => .ok none
  | some .absolute => .error .absolute
  | some (.to r) =>
    match outerRoot st out with
    | none => .ok (some r)
    | some a =>
      match resolve r out with
      | .error x => .error x
      | .ok d => if a.out.isSuffixOf d then .ok (some r) else .error .incorrect
  | some .unset =>
    let fallback : Except Err (Option Rel) :=
      match outerRoot st out with
      | some a => if a.simple then .ok none else .ok (some (relative a.out out))
      | none => .ok none
    match findOut k out.tail with
    | some d =>
      match outerRoot st out with
      | none => .ok (some (relative d out))
      | some a =>
        if d != a.out && a.out.isSuffixOf d then .ok (some (relative d out)) else fallback
    | none => fallback

/-- `bootstrap_src` (file.cxx 1052-1440) for a root that is not bootstrapped (`bootstrapped ()`). -/
def bootstrap (k : Disk) (st : List Proj) (out src : Dir) : Except Err (List Proj) :=
  match find st out with
  | some _ => .ok st
  | none =>
    match amalgamation k st out (k.boot src) with
    | .error x => .error x
    | .ok a => .ok (st ++ [⟨out, src, (k.boot src).isNone, a, none⟩])

/-- The source directory of the amalgamation (file.cxx 1555-1580): it is known if it is loaded. -/
def outerSrc (k : Disk) (st : List Proj) (r : Rel) (src out : Dir) : Except Err Dir :=
  match find st out with
  | some q => .ok q.src
  | none =>
    match k.conf out with
    | some s => .ok s
    | none => if (k.boot out).isSome then .ok out else resolve r src

/-- `irs.strong_ = …` (file.cxx 1609). -/
def setStrong (st : List Proj) (d s : Dir) : List Proj :=
  st.map fun p => if p.out == d then { p with strong := some s } else p

/-- `strong_scope` (scope.ixx 50-57). -/
def strongScope (p : Proj) : Dir := p.strong.getD p.out

/-- `create_bootstrap_outer` (file.cxx 1520-1610), with a limit on the depth of recursion. -/
def outer (k : Disk) : Nat → List Proj → Dir → Except Err (List Proj)
  | 0, _, _ => .error .depth
  | n + 1, st, i =>
    match find st i with
    | none => .error .assertion
    | some p =>
      match p.amalg with
      | none => .ok st
      | some r =>
        match resolve r i with
        | .error x => .error x
        | .ok o =>
          match outerSrc k st r p.src o with
          | .error x => .error x
          | .ok s =>
            match bootstrap k st o s with
            | .error x => .error x
            | .ok st =>
              match outer k n st o with
              | .error x => .error x
              | .ok st =>
                match find st o with
                | none => .error .assertion
                | some q =>
                  if q.src.isSuffixOf p.src then .ok (setStrong st i (strongScope q)) else .ok st

/-- A subproject in `create_bootstrap_inner` (file.cxx 1629-1722), given by its directory relative to
the project. -/
def inner (k : Disk) (st : List Proj) (root down : Dir) : Except Err (List Proj) :=
  match find st root with
  | none => .error .assertion
  | some p =>
    match outerSrc k st ⟨0, down⟩ p.src (down ++ root) with
    | .error x => .error x
    | .ok s =>
      match bootstrap k st (down ++ root) s with
      | .error x => .error x
      | .ok st =>
        match find st (down ++ root) with
        | none => .error .assertion
        | some q =>
          if q.amalg.isSome && p.src.isSuffixOf q.src then
            .ok (setStrong st (down ++ root) (strongScope p))
          else .ok st

/-- What is done to the projects that are loaded: one is bootstrapped (`main`, `import_load`,
`create_bootstrap_inner`), or what amalgamates it is (`main`, `import_load`, `load_project`).
Puts together `outer` (file.cxx 1520-1610) and what goes with it; no function of its own in the code. -/
inductive Op
  | boot (out src : Dir)
  | outer (i : Dir)
  deriving DecidableEq, Repr

/-- A step (file.cxx 1613-1735, 3140-3170; the recursion ends at some depth). -/
def step (k : Disk) (n : Nat) (st : List Proj) : Op → Except Err (List Proj)
  | .boot out src => bootstrap k st out src
  | .outer i => outer k n st i

/-- A history.
Puts together `step` (file.cxx 1613-1735, 3140-3170) and what goes with it; no function of its own in the code. -/
def run (k : Disk) (n : Nat) : List Op → List Proj → Except Err (List Proj)
  | [], st => .ok st
  | o :: os, st =>
    match step k n st o with
    | .error x => .error x
    | .ok st => run k n os st

end Verif.Amalgam
