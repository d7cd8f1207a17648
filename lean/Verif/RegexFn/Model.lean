import Verif.RegexFn.Spec

/-!
# Replacement in lines and lists: model

`libbuild2/functions-regex.cxx` 182-209 (`parse_replacement_flags`), 246-335 (`replace_lines`), 379-412 (`apply`),
564-613 (`merge`).

`rep` is `regex_replace_search` of libbutl with the regex and format, given the flags `icase`,
`format_first_only` and `format_no_copy`: the replacement, and whether there was a match. Not modelled: errors
in regular expressions, conversion of values to strings and of results to names.
-/

namespace Verif.RegexFn

/-- `getline` until the end of the string (functions-regex.cxx 285, 293, 313), with what has been read of the
line. A line has a newline exactly if the end isn't reached. -/
def getLines : Str → Str → List Line
  | cur, [] => if cur = [] then [] else [(cur, false)]
  | cur, c :: s => if c = '\n' then (cur, true) :: getLines [] s else getLines (cur ++ [c]) s

/-- The loop over lines (functions-regex.cxx 291-315): the names and the text so far. -/
def linesLoop (rep : Str → Str × Bool) (noFmt noCopy rls : Bool) : List Line → List Str → Str → List Str × Str
  | [], r, ls => (r, ls)
  | l :: t, r, ls =>
    if (if (rep l.1).2 then noFmt && (rep l.1).1 == [] else noCopy) then linesLoop rep noFmt noCopy rls t r ls
    else if !rls then linesLoop rep noFmt noCopy rls t (r ++ [(rep l.1).1]) ls
    else linesLoop rep noFmt noCopy rls t r
      ((if ls == [] then (rep l.1).1 else ls ++ (rep l.1).1) ++ if l.2 then ['\n'] else [])

/-- `parse_replacement_flags` (functions-regex.cxx 182-209): the first that is unknown. `first` and `empty`
whether `format_first_only` and `format_copy_empty` are supported. -/
def badFlag (first empty : Bool) (fs : List String) : Option String :=
  fs.find? fun f => !(f == "icase" || (first && f == "format_first_only") || f == "format_no_copy" ||
    (empty && f == "format_copy_empty"))

/-- `replace_lines` (functions-regex.cxx 246-335). -/
def replaceLines (rep : Bool → Bool → Bool → Str → Str × Bool) (s : Str) (noFmt : Bool) (fs : List String) :
    Except String (List Str) :=
  let rls := fs.contains "return_lines"
  let fs := fs.filter (· != "return_lines")
  match badFlag true false fs with
  | some f => .error f
  | none =>
    let noCopy := fs.contains "format_no_copy"
    let r := linesLoop (rep (fs.contains "icase") (fs.contains "format_first_only") noCopy) noFmt noCopy rls
      (getLines [] s) [] []
    .ok (if rls then r.1 ++ [r.2] else r.1)

/-- The loop of `apply` (functions-regex.cxx 395-404). -/
def applyLoop (rep : Str → Str × Bool) (copyEmpty : Bool) : List Str → List Str → List Str
  | [], r => r
  | n :: ns, r =>
    if copyEmpty || (rep n).1 != [] then applyLoop rep copyEmpty ns (r ++ [(rep n).1])
    else applyLoop rep copyEmpty ns r

/-- `apply` (functions-regex.cxx 379-412). -/
def apply (rep : Bool → Bool → Bool → Str → Str × Bool) (ns : List Str) (fs : List String) :
    Except String (List Str) :=
  match badFlag true true fs with
  | some f => .error f
  | none =>
    .ok (applyLoop (rep (fs.contains "icase") (fs.contains "format_first_only") (fs.contains "format_no_copy"))
      (fs.contains "format_copy_empty") ns [])

/-- The loop of `merge` (functions-regex.cxx 581-604). -/
def mergeLoop (rep : Str → Str × Bool) (copyEmpty : Bool) (delim : Option Str) : List Str → Bool → Str → Str
  | [], _, rs => rs
  | n :: ns, first, rs =>
    if copyEmpty || (rep n).1 != [] then
      match delim with
      | none => mergeLoop rep copyEmpty delim ns first (rs ++ (rep n).1)
      | some d =>
        if first then mergeLoop rep copyEmpty delim ns false (rs ++ (rep n).1)
        else mergeLoop rep copyEmpty delim ns first (rs ++ d ++ (rep n).1)
    else mergeLoop rep copyEmpty delim ns first rs

/-- `merge` (functions-regex.cxx 564-613). -/
def merge (rep : Bool → Bool → Bool → Str → Str × Bool) (ns : List Str) (delim : Option Str) (fs : List String) :
    Except String Str :=
  match badFlag true true fs with
  | some f => .error f
  | none =>
    .ok (mergeLoop (rep (fs.contains "icase") (fs.contains "format_first_only") (fs.contains "format_no_copy"))
      (fs.contains "format_copy_empty") delim ns true [])

end Verif.RegexFn
