import Verif.NamePat.Spec

/-!
# Name patterns: model

Models parser::expand_name_pattern() (libbuild2/parser.cxx:7945-8350) and the target type-specific
functions it calls: target_pattern_fix() and target_pattern_var() (libbuild2/target.txx:21-124) and
dir_pattern() (libbuild2/target.cxx:1670-1693).

Simplifications. path_search(), path_match() and path_pattern() (libbutl) are given (`Fs`), with the
entries that start with a dot and the .buildignore directories left out of the result of the search
(parser.cxx:8071-8083); searching does not fail. Paths are valid, with `/` as the separator, and are
compared as texts (POSIX). The default extension is given. The start directory, project, pair and
type that are added to all the names (splice_names()) are left out.
-/

namespace Verif.NamePat

open Verif.Name (split combine)

/-- Why expansion fails. Used by `splitName` (libbuild2/target.cxx:296-479). -/
inductive Err where
  | invalidName
  | emptyPattern
  | badName
  | inconsistent
  | extPattern
  /-- A failed assertion. -/
  | assertFailed
deriving DecidableEq

/-- An element of the result (parser.cxx:7998-8018): the entry, its extension, and whether it was
amended. -/
structure Rec where
  file : Str
  ext : Option Str
  amended : Bool
deriving DecidableEq

/-- target::split_name() (libbuild2/target.cxx:296-479), failing. -/
def splitName (v : Str) : Except Err (Str × Option Str) :=
  match split v with
  | .ok n x => .ok (n, x)
  | .err _ => .error .badName
  | .assertFailed => .error .assertFailed

/-- path::traits_type::is_separator (v.back ()). Used by `amend` (parser.cxx:8240-8256). -/
def isDir (v : Str) : Bool := v.getLast? == some '/'

/-- Amend the pattern or match (parser.cxx:8240-8256): whether amended, the text, the extension, and
whether it is a directory. The cases are those of the functions of the target types: none, dir_pattern()
(target.cxx:1670-1693), and target_pattern_fix() and target_pattern_var() (target.txx:36-52, 101-120). -/
def amend (k : Kind) (v : Str) : Except Err (Bool × Str × Option Str × Bool) :=
  match k with
  | .plain =>
    if isDir v then .ok (false, v, none, true)
    else
      match splitName v with
      | .ok (n, e) => .ok (false, n, e, false)
      | .error e => .error e
  | .dirs => if isDir v then .ok (false, v, none, true) else .ok (true, v ++ ['/'], none, true)
  | .ext d =>
    match splitName v with
    | .ok (n, some e) => .ok (false, n, some e, isDir n)
    | .ok (n, none) =>
      match d with
      | some e => .ok (true, n, some e, isDir n)
      | none => .ok (false, n, none, isDir n)
    | .error e => .error e

/-- Factor non-empty extension back into the name (parser.cxx:8268-8281). -/
def factor (fs : Fs) (v : Str) (e : Option Str) : Except Err Str :=
  match e with
  | some (c :: e) => if fs.wild (c :: e) then .error .extPattern else .ok (v ++ '.' :: c :: e)
  | _ => .ok v

/-- include_match (parser.cxx:8020-8032). -/
def includeMatch (r : List Rec) (m : Str) (e : Option Str) (a : Bool) : List Rec :=
  if r.any (fun x => x.file == m) then r else r ++ [⟨m, e, a⟩]

/-- The entries that are not ignored because of their extension (parser.cxx:8090-8098). -/
def kept (fs : Fs) (p : Str) (e : Option Str) : List Str :=
  (fs.found p).filter fun m => e != some [] || !fs.hasExt m

/-- include_pattern (parser.cxx:8034-8160). -/
def includePattern (fs : Fs) (r : List Rec) (p : Str) (e : Option Str) (a : Bool) : List Rec :=
  if r.isEmpty && decide (fs.recursive p ≤ 1) then r ++ (kept fs p e).map fun m => ⟨m, e, a⟩
  else (kept fs p e).foldl (fun r m => includeMatch r m e a) r

/-- exclude_match (parser.cxx:8162-8175). -/
def excludeMatch : List Rec → Str → List Rec
  | [], _ => []
  | x :: r, m => if x.file == m then r else x :: excludeMatch r m

/-- exclude_pattern (parser.cxx:8177-8186). -/
def excludePattern (fs : Fs) (r : List Rec) (p : Str) : List Rec :=
  r.filter fun x => !fs.matches_ x.file p

/-- Reduce inclusions/exclusions group and figure out if this is inclusion or exclusion
(parser.cxx:8196-8232). -/
def sign (first : Bool) (n : Nm) : Except Err Item :=
  if first then
    if n.type.length = 1 && n.type != ['+'] then .error .assertFailed
    else if (n.type.length ≠ 1 && n.type != []) || n.text.isEmpty || !n.simple then .error .invalidName
    else .ok ⟨.plus, n.text⟩
  else if n.type = ['+'] || n.type = ['-'] then
    if n.text.isEmpty || !n.simple then .error .invalidName
    else .ok ⟨if n.type = ['+'] then .plus else .minus, n.text⟩
  else if n.type != [] || n.text.isEmpty || !n.simple then .error .invalidName
  else
    match n.text with
    | '+' :: v => if v.isEmpty then .error .emptyPattern else .ok ⟨.plus, v⟩
    | '-' :: v => if v.isEmpty then .error .emptyPattern else .ok ⟨.minus, v⟩
    | _ => .error .assertFailed

/-- One iteration of the loop (parser.cxx:8188-8300) after the sign, given `dir` unless this is the
first one. -/
def step (fs : Fs) (k : Kind) (dir : Option Bool) (r : List Rec) (i : Item) :
    Except Err (Bool × List Rec) :=
  match amend k i.text with
  | .error e => .error e
  | .ok (a, v, e, d) =>
    if dir = some (!d) then .error .inconsistent
    else
      match factor fs v e with
      | .error e => .error e
      | .ok p =>
        match i.sign with
        | .plus => .ok (d, includePattern fs r p e a)
        | .minus =>
          .ok (d, if fs.wild p then excludePattern fs r p else excludeMatch r p)

/-- The loop (parser.cxx:8188-8300). -/
def loop (fs : Fs) (k : Kind) : Option Bool → List Rec → List Nm → Except Err (Option Bool × List Rec)
  | dir, r, [] => .ok (dir, r)
  | dir, r, n :: ns =>
    match sign (dir == none) n with
    | .error e => .error e
    | .ok i =>
      match step fs k dir r i with
      | .error e => .error e
      | .ok (d, r') => loop fs k (some d) r' ns

/-- Remove non-empty extension from the name (parser.cxx:8315-8329). -/
def stem (x : Rec) : Str :=
  match x.ext with
  | some (c :: e) => x.file.take (x.file.length - (c :: e).length - 1)
  | _ => x.file

/-- The name of a file (parser.cxx:8307-8344 for dir being false); none if an assertion fails. -/
def fileName (x : Rec) : Option Str :=
  if x.amended then
    match x.ext with
    | some _ => combine (stem x) none true
    | none => none
  else combine (stem x) x.ext false

/-- The name of a directory (parser.cxx:8307-8344 for dir being true), as a path with a trailing
slash. -/
def dirName (x : Rec) : Option Str :=
  if x.amended then
    if isDir x.file then some (x.file.take (x.file.length - 1) ++ ['/']) else none
  else some (if isDir x.file then x.file else x.file ++ ['/'])

/-- All the names. Used by `expand` (parser.cxx:7945-8350). -/
def names (dir : Bool) : List Rec → Option (List Str)
  | [] => some []
  | x :: r =>
    match if dir then dirName x else fileName x, names dir r with
    | some n, some ns => some (n :: ns)
    | _, _ => none

/-- expand_name_pattern() (parser.cxx:7945-8350). -/
def expand (fs : Fs) (k : Kind) (pat : List Nm) : Except Err (List Str) :=
  match loop fs k none [] pat with
  | .error e => .error e
  | .ok (none, _) => .error .assertFailed
  | .ok (some d, r) =>
    match names d r with
    | none => .error .assertFailed
    | some ns => .ok ns

end Verif.NamePat
