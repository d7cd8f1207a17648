import Verif.StrFn.Spec

/-!
# String functions: model

`libbuild2/functions-string.cxx` 11-321: `find`, `rfind`, `contains`, `starts_with`, `ends_with`, `compare`,
`replace`, `find_index`, `filter`.

Characters are compared with `==`, or with `lower` applied (`icasecmp` of libbutl, which isn't in the
repository). Not modelled: conversion of arguments to strings.
-/

namespace Verif.StrFn

variable (lower : Char → Char)

/-- The comparison of as many characters as there are in the substring (functions-string.cxx 21-23, 44-46):
`string::compare (p, n, s)` and `icasecmp (s, p, n)`. -/
def same (ic : Bool) (x y : Str) : Bool := if ic then x.map lower == y.map lower else x == y

/-- The loop of `find` (functions-string.cxx 18-25): what follows the position, and the position. -/
def findLoop (ic : Bool) (y : Str) : Str → Nat → Option Nat
  | [], _ => none
  | c :: x, p =>
    if y.length ≤ (c :: x).length ∧ same lower ic ((c :: x).take y.length) y = true then some p
    else findLoop ic y x (p + 1)

/-- `find` (functions-string.cxx 13-28). -/
def find (x : Str) (p : Nat) (y : Str) (ic : Bool) : Option Nat := findLoop lower ic y (x.drop p) p

/-- The loop of `rfind` (functions-string.cxx 41-51). -/
def rfindLoop (ic : Bool) (x y : Str) : Nat → Option Nat
  | 0 => if same lower ic (x.take y.length) y = true then some 0 else none
  | p + 1 =>
    if same lower ic ((x.drop (p + 1)).take y.length) y = true then some (p + 1) else rfindLoop ic x y p

/-- `rfind` (functions-string.cxx 32-54). -/
def rfind (x : Str) (n : Nat) (y : Str) (ic : Bool) : Option Nat :=
  if y.length ≤ n then rfindLoop lower ic x y (n - y.length) else none

/-- The exceptions: `invalid_argument` (functions-string.cxx 72, 79 and so on). -/
inductive Err
  | flag (f : String)
  | empty
  deriving DecidableEq, Repr

/-- The loops over flags (functions-string.cxx 63-73 and so on): the first that isn't one of these. -/
def badFlag (known : List String) (fs : List String) : Option String :=
  fs.find? fun f => !known.contains f

/-- `contains` (functions-string.cxx 56-86). -/
def contains (x y : Str) (fs : List String) : Except Err Bool :=
  match badFlag ["icase", "once"] fs with
  | some f => .error (.flag f)
  | none =>
    if y = [] then .error .empty
    else
      let ic := fs.contains "icase"
      let p := find lower x 0 y ic
      if fs.contains "once" ∧ p.isSome ∧ p ≠ rfind lower x x.length y ic then .ok false
      else .ok p.isSome

/-- `starts_with` (functions-string.cxx 88-111). -/
def startsWith (x y : Str) (fs : List String) : Except Err Bool :=
  match badFlag ["icase"] fs with
  | some f => .error (.flag f)
  | none =>
    if y = [] then .error .empty
    else .ok (find lower x 0 y (fs.contains "icase") = some 0)

/-- `ends_with` (functions-string.cxx 113-139). -/
def endsWith (x y : Str) (fs : List String) : Except Err Bool :=
  match badFlag ["icase"] fs with
  | some f => .error (.flag f)
  | none =>
    if y = [] then .error .empty
    else
      match rfind lower x x.length y (fs.contains "icase") with
      | none => .ok false
      | some p => .ok (p + y.length = x.length)

/-- `compare` (functions-string.cxx 176-223) with a flag other than `icase`: whether the result is 0. -/
def matchFlags (x y : Str) (fs : List String) : Bool :=
  let ic := fs.contains "icase"
  let ct := fs.contains "contains"
  let co := fs.contains "contains_once"
  let sw := fs.contains "starts_with"
  let ew := fs.contains "ends_with"
  let lp := if ct || co || sw then find lower x 0 y ic else none
  let rp := if co || ew then rfind lower x x.length y ic else none
  let r1 := if ct then lp.isSome else true
  let r2 := if co && r1 then lp.isSome && lp == rp else r1
  let r3 := if sw && r2 then lp == some 0 else r2
  if ew && r3 then (match rp with | none => false | some p => p + y.length == x.length) else r3

/-- Whether `compare` is 0 (functions-string.cxx 176-223), with flags that have been parsed. -/
def compareIs0 (x y : Str) (fs : List String) : Except Err Bool :=
  if !fs.contains "contains" && !fs.contains "contains_once" && !fs.contains "starts_with" &&
      !fs.contains "ends_with" then .ok (same lower (fs.contains "icase") x y)
  else if y = [] then .error .empty
  else .ok (matchFlags lower x y fs)

/-- The flags of `parse_compare_flags` (functions-string.cxx 157-168). -/
def compareFlags : List String := ["icase", "contains", "contains_once", "starts_with", "ends_with"]

/-- The loop of `replace` (functions-string.cxx 285-286), at most so many times. -/
def replaceLoop (ic : Bool) (y t : Str) : Nat → Str → Nat → Option Str
  | 0, _, _ => none
  | k + 1, x, p =>
    match find lower x p y ic with
    | none => some x
    | some p => replaceLoop ic y t k (x.take p ++ t ++ x.drop (p + y.length)) (p + t.length)

/-- `replace` (functions-string.cxx 233-291): there is no result if the loop is entered more often than there
are characters. -/
def replace (x y t : Str) (fs : List String) : Except Err (Option Str) :=
  match badFlag ["icase", "first_only", "last_only"] fs with
  | some f => .error (.flag f)
  | none =>
    if y = [] then .error .empty
    else if x = [] then .ok (some x)
    else
      let ic := fs.contains "icase"
      let fo := fs.contains "first_only"
      let lo := fs.contains "last_only"
      if fo || lo then
        let p := if lo then rfind lower x x.length y ic else find lower x 0 y ic
        let p := if fo && lo && p != find lower x 0 y ic then none else p
        match p with
        | none => .ok (some x)
        | some p => .ok (some (x.take p ++ t ++ x.drop (p + y.length)))
      else .ok (replaceLoop lower ic y t (x.length + 1) x 0)

/-- `find_if` in `find_index` (functions-string.cxx 296-303): the position of the first, or the size. -/
def findIndexLoop (y : Str) (fs : List String) : List Str → Except Err Nat
  | [] => .ok 0
  | x :: xs =>
    match compareIs0 lower x y fs with
    | .error e => .error e
    | .ok true => .ok 0
    | .ok false =>
      match findIndexLoop y fs xs with
      | .error e => .error e
      | .ok n => .ok (n + 1)

/-- `find_index` (functions-string.cxx 293-304). -/
def findIndex (xs : List Str) (y : Str) (fs : List String) : Except Err Nat :=
  match badFlag compareFlags fs with
  | some f => .error (.flag f)
  | none => findIndexLoop lower y fs xs

/-- The loop of `filter` (functions-string.cxx 314-318). -/
def filterLoop (y : Str) (fs : List String) (out : Bool) : List Str → Except Err (List Str)
  | [] => .ok []
  | x :: xs =>
    match compareIs0 lower x y fs with
    | .error e => .error e
    | .ok b =>
      match filterLoop y fs out xs with
      | .error e => .error e
      | .ok r => .ok (if b != out then x :: r else r)

/-- `filter` (functions-string.cxx 306-321): `$filter()`, or `$filter_out()` if `out`. -/
def filter (xs : List Str) (y : Str) (fs : List String) (out : Bool) : Except Err (List Str) :=
  match badFlag compareFlags fs with
  | some f => .error (.flag f)
  | none => filterLoop lower y fs out xs

end Verif.StrFn
