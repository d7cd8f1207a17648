import Verif.Function.Spec

/-!
# Function calls: model of the code

libbuild2/function.cxx `function_map::call`, `function_map::defined` and
`function_family::insert`, libbuild2/function.hxx `function_overloads::insert` and
`function_map::insert`.

Not modelled: the diagnostics and the thunks that extract the values from the
arguments. A `size_t` rank or count is a natural number; `arg_variadic` and the
initial rank (`~0`) are `none`.
-/

namespace Verif.Function

variable {α : Type}

/-- function.cxx:137, the loop `while ((at = at->base_type) != nullptr && at != ft)`
followed by the test for NULL. -/
def derives : VType → VType → Bool
  | .root _, _ => false
  | .derived _ b, ft => if b = ft then true else derives b ft

/-- function.cxx:118-158: the loop over the parameters, with the rank so far.
`none` is no match. -/
def rankLoop (r : Nat) : List (Arg α) → List Param → Option Nat
  | a :: as, p :: ps =>
    match p with
    | none => rankLoop r as ps
    | some ft =>
      if a.type = ft then rankLoop r as ps
      else
        match a.type, ft with
        | some at', some ft' =>
          if derives at' ft' then rankLoop (if r < 1 then 1 else r) as ps else none
        | _, none => rankLoop (if r < 2 then 2 else r) as ps
        | none, some _ => none
  | _, _ => some r

/-- `count > f.arg_max` (function.cxx:110). -/
def tooMany (f : Overload) (count : Nat) : Bool :=
  match f.max with
  | none => false
  | some m => count > m

/-- function.cxx:110-158: the rank of an overload. -/
def rankOf (f : Overload) (args : List (Arg α)) : Option Nat :=
  let count := args.length
  if count < f.min || tooMany f count then none
  else rankLoop 0 args f.types

/-- function.cxx:160-173: the best rank so far and the overloads with this rank. -/
structure Cand where
  rank : Option Nat
  ovls : List Overload

/-- One iteration of the loop over the overloads (function.cxx:104-176). -/
def consider (args : List (Arg α)) (c : Cand) (f : Overload) : Cand :=
  match rankOf f args with
  | none => c
  | some r =>
    match c.rank with
    | none => ⟨some r, [f]⟩
    | some rank =>
      if r ≤ rank then
        if r < rank then ⟨some r, [f]⟩ else ⟨some rank, c.ovls ++ [f]⟩
      else c

/-- The outcome of a call. Used by `finish` (function.cxx:179-308). -/
inductive Outcome (α : Type)
  | called (f : Overload) (args : List (Arg α))
  | unmatched
  | ambiguous
  | assertion

/-- function.cxx:209-215: untypify the arguments that need it. -/
def untypifyArgs (unt : VType → α → α) : List Param → List (Arg α) → List (Arg α)
  | p :: ps, a :: as =>
    (match p, a.type with
     | some none, some t => ⟨none, unt t a.data⟩
     | _, _ => a) :: untypifyArgs unt ps as
  | _, as => as

/-- function.cxx:179-308: what is done with the overloads found. -/
def finish (unt : VType → α → α) (args : List (Arg α)) (c : Cand) : Outcome α :=
  match c.ovls with
  | [f] =>
    if c.rank = some 2 then
      if args.length ≤ f.types.length then .called f (untypifyArgs unt f.types args)
      else .assertion
    else .called f args
  | [] => .unmatched
  | _ => .ambiguous

/-- function.cxx:80-308 `function_map::call`, where `fs` are the overloads found
for the name. `unt` is `untypify()` of the data of an argument. -/
def call (unt : VType → α → α) (fs : List Overload) (args : List (Arg α)) : Outcome α :=
  finish unt args (fs.foldl (consider args) ⟨none, []⟩)

/-- The functions by name, ordered by name (function.hxx:182 `map_type`). -/
abbrev Map := List (List Char × List Overload)

/-- function.hxx:251 `function_map::find`. -/
def find (m : Map) (n : List Char) : Option (List Overload) :=
  (m.find? (·.1 == n)).map (·.2)

/-- Lexicographical order of strings (`string::compare`). Used by `add` (function.hxx:222). -/
def slt : List Char → List Char → Bool
  | [], [] => false
  | [], _ :: _ => true
  | _ :: _, [] => false
  | a :: as, b :: bs =>
    if a.toNat < b.toNat then true else if a.toNat = b.toNat then slt as bs else false

/-- function.hxx:222 `function_map::insert` and then `function_overloads::insert`:
add an overload to those with this name. -/
def add (n : List Char) (f : Overload) : Map → Map
  | [] => [(n, [f])]
  | (k, fs) :: m =>
    if slt n k then (n, [f]) :: (k, fs) :: m
    else if n = k then (k, fs ++ [f]) :: m
    else (k, fs) :: add n f m

/-- A registration: the qualification of the family, the name and the overload.
Used by `register` (function.cxx:310-336). -/
structure Reg where
  qual : List Char
  name : List Char
  ovl  : Overload

/-- function.cxx:310-336 `function_family::insert` and `entry::insert`
(function.hxx:807): `none` is a failed assertion. -/
def register (m : Map) (r : Reg) : Option Map :=
  if !r.name.contains '.' then
    let m1 := add r.name r.ovl m
    some (if r.qual.isEmpty then m1 else add (r.qual ++ ['.'] ++ r.name) r.ovl m1)
  else if r.name.head? == some '.' then
    if r.qual.isEmpty then none else some (add (r.qual ++ r.name) r.ovl m)
  else some (add r.name r.ovl m)

/-- All the registrations. Built on `register` (function.cxx:310-336). -/
def registerAll (m : Map) : List Reg → Option Map
  | [] => some m
  | r :: rs =>
    match register m r with
    | none => none
    | some m => registerAll m rs

/-- function.cxx:58-79 `function_map::defined`. `none` is a failed assertion. -/
def defined (m : Map) (name : List Char) : Option Bool :=
  if name.isEmpty then none
  else if name.getLast? != some '.' then some (m.find? (·.1 == name)).isSome
  else if name.length ≤ 1 then none
  else
    match m.find? (fun x => slt name x.1) with -- upper_bound()
    | none => some false
    | some x => some (x.1.take name.length == name)

end Verif.Function
