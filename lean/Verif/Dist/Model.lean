import Verif.Dist.Spec

/-!
# Distribution: model

`libbuild2/dist/operation.cxx`: `dist_project` (219-870) from the point where targets have been
matched, `install` (958-1042), `add_subdir` (147-212).

Not modelled: which targets get entered and matched (`dist/rule.cxx`), that files are brought up to
date, callbacks, archives and checksums, permissions and timestamps.
-/

namespace Verif.Dist

/-- The lambda `collect` (operation.cxx 497-532). -/
def collect (p : Proj) (f : File) : Bool :=
  if p.src.isPrefixOf f.dir then f.dist != some .no
  else if p.out.isPrefixOf f.dir then
    match f.dist with
    | some v => v != .no
    | none => false
  else false

/-- The first pass (operation.cxx 534-576): groups are collected as such. -/
def first (p : Proj) : List Tgt → List Tgt
  | [] => []
  | .group v ms :: ts =>
    match v with
    | some x => if x != .no then .group v ms :: first p ts else first p ts
    | none => first p ts
  | .other :: ts => first p ts
  | .file f member :: ts =>
    if member then first p ts
    else if collect p f then .file f member :: first p ts
    else first p ts

/-- The second pass (operation.cxx 614-655): groups are replaced with their members. -/
def second (p : Proj) : List Tgt → Except Err (List File)
  | [] => .ok []
  | .file f _ :: ts =>
    match second p ts with
    | .error x => .error x
    | .ok fs => .ok (f :: fs)
  | .group _ none :: _ => .error .group
  | .group _ (some ms) :: ts =>
    match second p ts with
    | .error x => .error x
    | .ok fs => .ok (ms.filter (collect p) ++ fs)
  | .other :: ts => second p ts

/-- `rd.normalize ()` (operation.cxx 755) of a directory followed by components. -/
def normalize (d : Dir) : List String → Except Err Dir
  | [] => .ok d
  | x :: xs =>
    if x == "." then normalize d xs
    else if x == ".." then
      if d.isEmpty then .error .path else normalize d.dropLast xs
    else normalize (d ++ [x]) xs

/-- `leaf` (operation.cxx 731-732, 757-758): fails if it is in neither of the directories. -/
def leaf (p : Proj) (d : Dir) : Except Err Dir :=
  if p.src.isPrefixOf d then .ok (d.drop p.src.length)
  else if p.out.isPrefixOf d then .ok (d.drop p.out.length)
  else .error .outside

/-- Where the file is inside the target directory (operation.cxx 711-759, 968). -/
def place (p : Proj) (f : File) : Except Err Dir :=
  match f.dist with
  | some .simple => .error .value
  | some (.remap a xs n) =>
    match normalize (if a then [] else f.dir) xs with
    | .error x => .error x
    | .ok d =>
      match leaf p d with
      | .error x => .error x
      | .ok dl => .ok (dl ++ [n.getD f.name])
  | _ =>
    match leaf p f.dir with
    | .error x => .error x
    | .ok dl => .ok (dl ++ [f.name])

/-- `install` of files, one after another (operation.cxx 706-765, 958-1042), into what is there; if
there is a custom command then existing files are overwritten. -/
def install (p : Proj) (cmd : Bool) : List File → List (Dir × Nat) → Except Err (List (Dir × Nat))
  | [], m => .ok m
  | f :: fs, m =>
    match place p f with
    | .error x => .error x
    | .ok r =>
      if m.any (fun e => e.1 == r) then
        if cmd then install p cmd fs (m.map fun e => if e.1 == r then (r, f.content) else e)
        else .error .duplicate
      else install p cmd fs (m ++ [(r, f.content)])

/-- `dist_project` (operation.cxx 219-870): the target directory is cleaned before, so that only what
is copied is there. If it fails then it is removed (`auto_rmdir`, 698). -/
def dist (p : Proj) (cmd : Bool) (ts : List Tgt) : Except Err (List (Dir × Nat)) :=
  match second p (first p ts) with
  | .error x => .error x
  | .ok fs => install p cmd fs []

/-- What is left in the target directory, given what was there (operation.cxx 693-698, 845). -/
def directory (p : Proj) (cmd : Bool) (ts : List Tgt) (before : Option (List (Dir × Nat))) :
    Option (List (Dir × Nat)) :=
  match second p (first p ts) with
  | .error _ => before
  | .ok fs =>
    match install p cmd fs [] with
    | .error _ => none
    | .ok m => some m

/-! ## All files of the source directory -/

/-- The names that are skipped (operation.cxx 164-167). -/
def ignored (n : String) : Bool :=
  ".git".toList.isPrefixOf n.toList || n == ".bdep" || n == ".bpkg" || n == ".build2"

/-- The loop over entries of a directory (operation.cxx 159-207), given how directories are gone
through. On a link that leads back, `break` ends this loop. -/
def entries (go : Dir → Dir → Option (List (Dir × Nat))) (chain : List Dir) (real rel : Dir) :
    List (String × Entry) → Option (List (Dir × Nat))
  | [] => some []
  | (x, e) :: es =>
    if ignored x then entries go chain real rel es
    else
      match e with
      | .file c =>
        match entries go chain real rel es with
        | none => none
        | some fs => some ((rel ++ [x], c) :: fs)
      | .dir =>
        match go (real ++ [x]) (rel ++ [x]) with
        | none => none
        | some gs =>
          match entries go chain real rel es with
          | none => none
          | some fs => some (gs ++ fs)
      | .link td =>
        if chain.contains td then some []
        else
          match go td (rel ++ [x]) with
          | none => none
          | some gs =>
            match entries go chain real rel es with
            | none => none
            | some fs => some (gs ++ fs)

/-- `add_subdir` (operation.cxx 147-212), with a limit on the depth. -/
def addSubdir (k : Disk) (src : Dir) : Nat → List Dir → Dir → Dir → Option (List (Dir × Nat))
  | 0, _, _, _ => none
  | n + 1, chain, real, rel =>
    entries (addSubdir k src n ((src ++ rel) :: chain)) ((src ++ rel) :: chain) real rel (k real)

/-- `dist_project` in the bootstrap mode (operation.cxx 667-687). -/
def bootstrapDist (k : Disk) (src : Dir) (n : Nat) : Option (List (Dir × Nat)) :=
  addSubdir k src n [] src []

end Verif.Dist
