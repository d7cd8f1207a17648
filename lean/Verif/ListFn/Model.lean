import Verif.ListFn.Spec

/-!
# Sequences and sorting: model

`libbuild2/functions-integer.cxx` 76-92 (`$integer_sequence()`), 148-167 (`$sort()` of integers),
`libbuild2/functions-string.cxx` 598-632 (`$sort()` of strings), `libbuild2/functions-path.cxx` 993-1011 and
`libbuild2/functions-name.cxx` 450-460 (the same for paths and names), `libbuild2/functions-builtin.cxx` 20-36
(flags).

Not modelled: conversion of arguments, memory that is reserved.
-/

namespace Verif.ListFn

/-- The number of values of `uint64_t`, the type of what is computed with (functions-integer.cxx 78-80). -/
def max64 : Nat := 18446744073709551616

/-- The loop of `$integer_sequence()` (functions-integer.cxx 87-88), at most so many times. Addition is that of
`uint64_t`. -/
def seqLoop (e s : Nat) : Nat → Nat → Option (List Nat)
  | 0, _ => none
  | k + 1, b => if b < e then (seqLoop e s k ((b + s) % max64)).map (b :: ·) else some []

/-- What can be seen of a call: an error, or that it is undefined. -/
inductive Err
  | divideByZero
  | flag (f : String)
  deriving DecidableEq, Repr

/-- `$integer_sequence()` (functions-integer.cxx 76-92) if the loop is entered at most `k` times; the division
is in 85. -/
def integerSequence (b e : Nat) (step : Option Nat) (k : Nat) : Except Err (Option (List Nat)) :=
  if b < e then
    if step.getD 1 = 0 then .error .divideByZero else .ok (seqLoop e (step.getD 1) k b)
  else .ok (some [])

variable {α : Type}

/-- `std::unique` with the element that was kept last (functions-integer.cxx 154, functions-string.cxx
624-629). -/
def uniqueFrom (eqv : α → α → Bool) (a : α) : List α → List α
  | [] => [a]
  | b :: l => if eqv a b then uniqueFrom eqv a l else a :: uniqueFrom eqv b l

/-- `std::unique` (functions-integer.cxx 154, functions-string.cxx 624-629). -/
def unique (eqv : α → α → Bool) : List α → List α
  | [] => []
  | a :: l => uniqueFrom eqv a l

/-- `functions_sort_flags` (functions-builtin.cxx 20-36): whether there is `dedup`, or the first that is
unknown. -/
def sortFlags : List String → Except Err Bool
  | [] => .ok false
  | f :: fs =>
    if f = "dedup" then
      match sortFlags fs with
      | .error e => .error e
      | .ok _ => .ok true
    else .error (.flag f)

/-- `$sort()` (functions-integer.cxx 148-167, functions-path.cxx 993-1011, functions-name.cxx 450-460) with
`std::sort` and the comparison of elements. -/
def sort (le : α → α → Bool) (srt : List α → List α) (l : List α) (fs : List String) :
    Except Err (List α) :=
  match sortFlags fs with
  | .error e => .error e
  | .ok dd => .ok (if dd then unique (fun x y => le x y && le y x) (srt l) else srt l)

/-- The loop over the flags of `$sort()` of strings (functions-string.cxx 602-615): `icase`, `dedup`. -/
def stringFlags : List String → Except Err (Bool × Bool)
  | [] => .ok (false, false)
  | f :: fs =>
    if f = "icase" then
      match stringFlags fs with
      | .error e => .error e
      | .ok (_, dd) => .ok (true, dd)
    else if f = "dedup" then
      match stringFlags fs with
      | .error e => .error e
      | .ok (ic, _) => .ok (ic, true)
    else .error (.flag f)

/-- `$sort()` of strings (functions-string.cxx 598-632) with the two comparisons, and `std::sort` with
either. -/
def sortStrings (le leIc : α → α → Bool) (srt srtIc : List α → List α) (l : List α) (fs : List String) :
    Except Err (List α) :=
  match stringFlags fs with
  | .error e => .error e
  | .ok (ic, dd) =>
    let v := if ic then srtIc l else srt l
    .ok (if dd then
      unique (fun x y => if ic then leIc x y && leIc y x else le x y && le y x) v
    else v)

end Verif.ListFn
