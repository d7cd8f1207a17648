import Verif.Import.Spec

/-!
# Importation: model

`libbuild2/file.cxx`: `import_search` (2469-2886), `find_subprojects` (947-1048), the part of
`bootstrap_src` that determines subprojects (1293-1437).

Not modelled: metadata, the tracking of new values of configuration variables, how their values are
looked up (a function from names), loading the export stub and what rules find (phase 2);
directories are taken as normalized.
-/

namespace Verif.Import

/-- The lambda `lookup` (file.cxx 2618-2644): not defined, null, or a path. -/
def lookupPath (e : Env) (opt : Bool) (v : Str) (exe : Bool) : Except Err (Option (Option Path)) :=
  match e.cfg v with
  | none => .ok none
  | some none => if opt then .ok (some none) else .error .nullValue
  | some (some p) =>
    if p.empty then .error .emptyPath
    else if !exe || p.dir || p != ⟨false, ["false".toList], false⟩ then .ok (some (some p))
    else if opt then .ok (some none)
    else .error .nullValue

/-- The next variable is looked up if the previous one is not defined (`if (p == nullptr)`, file.cxx
2680, 2689). -/
def orElse (r k : Except Err (Option (Option Path))) : Except Err (Option (Option Path)) :=
  match r with
  | .ok none => k
  | _ => r

/-- `config.<proj>` (file.cxx 2670-2676), if the target has the form that this is for. -/
def lookupTool (e : Env) (opt : Bool) (p : Str) (t : Tgt) : Except Err (Option (Option Path)) :=
  if t.type == "exe".toList &&
      (e.lib.varName p).map e.lib.lower == (e.lib.sanitize t.value).map e.lib.lower then
    lookupPath e opt ("config.".toList ++ e.lib.varName p) true
  else .ok none

/-- The lookup of the variables of the target (file.cxx 2660-2690). -/
def lookupTarget (e : Env) (opt : Bool) (p : Str) (t : Tgt) : Except Err (Option (Option Path)) :=
  let n := "config.import.".toList ++ e.lib.varName p
  let vv := e.lib.sanitize t.value
  orElse
    (if !t.type.isEmpty then
      orElse (lookupTool e opt p t)
        (lookupPath e opt (n ++ '.' :: (vv ++ '.' :: e.lib.sanitize t.type))
          (t.type == "exe".toList))
    else .ok none)
    (lookupPath e opt (n ++ '.' :: vv) false)

/-- What is made of a path (file.cxx 2692-2791). -/
def adhocTarget (e : Env) (proj : Str) (t : Tgt) : Option Path → Except Err Res
  | none => .ok ⟨none, .adhoc, none⟩
  | some p =>
    let t :=
      if p.dir then { t with dir := p }
      else { t with
        dir := ⟨p.abs, p.comps.dropLast, true⟩
        value := p.comps.getLast?.getD [] }
    if !p.abs then .ok ⟨some { t with proj := some proj }, .adhoc, none⟩
    else
      match e.kind t with
      | none => .error .unknownType
      | some false => .ok ⟨some { t with proj := some proj }, .adhoc, none⟩
      | some true => .ok ⟨some t, .adhoc, some p⟩

/-- The search of subprojects and amalgamations (file.cxx 2848-2876). -/
def searchRoots (l : Lib) (p : Str) : Bool → List Root → Except Err (Option Path)
  | _, [] => .error .assertion
  | own, r :: rest =>
    if !own && l.same r.name p then .ok (some r.out)
    else
      match r.subs.find? (fun s => l.same s.1 p) with
      | some s => .ok (some (r.out.sub s.2))
      | none => if r.amalgamated then searchRoots l p false rest else .ok none

/-- `import_search` (file.cxx 2469-2886). -/
def importSearch (e : Env) (opt subp : Bool) (t : Tgt) : Except Err Res :=
  match t.proj with
  | none =>
    let t :=
      if t.type.isEmpty && !t.dir.empty && t.value.isEmpty && !t.dir.abs then
        { t with dir := ⟨true, e.base ++ t.dir.comps, true⟩ }
      else t
    if t.dir.abs then .ok ⟨some t, .project t.dir, none⟩
    else
      match e.roots with
      | [] => .error .assertion
      | r :: _ =>
        if r.name.isEmpty then .error .unnamedProject
        else .ok ⟨some { t with proj := some r.name }, .project r.out, none⟩
  | some p =>
    if p.isEmpty then .ok ⟨some t, .nowhere, none⟩
    else if t.dir.abs then .error .absoluteDir
    else
      let u := { t with proj := none }
      match (if u.value.isEmpty then .ok none else lookupTarget e opt p u) with
      | .error x => .error x
      | .ok (some r) => adhocTarget e p u r
      | .ok none =>
        match e.cfg ("config.import.".toList ++ e.lib.varName p) with
        | some none => .ok ⟨some t, .nowhere, none⟩
        | some (some d) =>
          if d.empty then .ok ⟨some t, .nowhere, none⟩
          else .ok ⟨some t, .project d, none⟩
        | none =>
          match (if e.lib.same p "build2".toList then e.build2 else none) with
          | some d =>
            if d.empty then .ok ⟨some t, .nowhere, none⟩
            else .ok ⟨some t, .project d, none⟩
          | none =>
            if subp then
              match searchRoots e.lib p true e.roots with
              | .error x => .error x
              | .ok none => .ok ⟨some t, .nowhere, none⟩
              | .ok (some d) => .ok ⟨some t, .project d, none⟩
            else .ok ⟨some t, .nowhere, none⟩

/-- `subprojects::emplace` and the handling of duplicates (file.cxx 1026-1041). -/
def emplace (l : Lib) (m : List (Str × List Str)) (k : Str) (d : List Str) :
    Except Err (List (Str × List Str)) :=
  match m.find? (fun s => l.same s.1 k) with
  | none => .ok (m ++ [(k, d)])
  | some s => if d ≠ s.2 then .error .duplicateSubproject else .ok m

/-- `find_subprojects` (file.cxx 947-1048). -/
def findSubprojects (l : Lib) (out : Bool) :
    List Entry → List (Str × List Str) → Except Err (List (Str × List Str))
  | [], m => .ok m
  | e :: es, m =>
    if e.leaf.isEmpty || e.leaf.head? == some '.' then findSubprojects l out es m
    else if !e.isDir then findSubprojects l out es m
    else
      match (if out && e.outRoot.isSome then e.outRoot else e.srcRoot) with
      | none => findSubprojects l out es m
      | some none => .error .badSubproject
      | some (some n) =>
        let n := if n.isEmpty then e.leaf ++ ['/'] else n
        match emplace l m n [e.leaf] with
        | .error x => .error x
        | .ok m => findSubprojects l out es m

/-- The subprojects if they are not specified (file.cxx 1320-1345): the entries of the output
directory if it exists, and those of the source directory if it is another one. -/
def subprojects (l : Lib) (out src : Option (List Entry)) :
    Except Err (List (Str × List Str)) :=
  match findSubprojects l true (out.getD []) [] with
  | .error x => .error x
  | .ok m => findSubprojects l false (src.getD []) m

/-- The subprojects that are specified, with their names (file.cxx 1354-1431). -/
def specified (l : Lib) : List (Str × List Str) → List (Str × List Str)
  | xs => xs.foldl (fun m x =>
    if (m.find? (fun s => l.same s.1 x.1)).isSome then m else m ++ [x]) []

end Verif.Import
