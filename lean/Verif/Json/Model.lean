import Verif.Json.Spec

/-!
# JSON values: model of the code

libbuild2/json.cxx `json_value::compare`, `append_numbers`, `json_value::append` and
`json_value::prepend`.

An `int` returned by a comparison is its sign. A failed assertion is `none`.
Recursion into values is bounded by a fuel parameter that is initially greater than
the depth of the value and the loop over the members of an object by the number of
members; running out of fuel is also `none`.
-/

namespace Verif.Json

/-- `a < b ? -1 : (a > b ? 1 : 0)` for unsigned numbers (json.cxx:321). -/
def ordN (a b : Nat) : Ordering := if a < b then .lt else if a > b then .gt else .eq

/-- The same for signed ones (json.cxx:358). -/
def ordI (a b : Int) : Ordering := if a < b then .lt else if a > b then .gt else .eq

/-- `string::compare`. Used by `isAfter` (json.cxx:409). -/
def strCmp : Str → Str → Ordering
  | [], [] => .eq
  | [], _ :: _ => .lt
  | _ :: _, [] => .gt
  | a :: s, b :: t => match ordN a.toNat b.toNat with | .eq => strCmp s t | r => r

/-- The type as a number, with hexadecimal numbers the same as decimal ones
(json.cxx:296-308). -/
def typeOf : Value → Nat
  | .null => 0
  | .bool _ => 1
  | .num n => if n.signed then 2 else 3
  | .str _ => 6
  | .arr _ => 7
  | .obj _ => 8

/-- json.cxx:310-339: the comparison of values of different types. -/
def cmpTypes (x y : Value) : Ordering :=
  if typeOf x = typeOf y then .eq
  else
    match x, y with
    | .num a, .num b =>
      if a.signed then
        if a.bits.toInt < 0 then .lt else ordN a.bits.toNat b.bits.toNat
      else
        if b.bits.toInt < 0 then .gt else ordN a.bits.toNat b.bits.toNat
    | _, _ => if typeOf x < typeOf y then .lt else .gt

/-- json.cxx:376-391: the comparison of arrays. -/
def arrLoop (cmp : Value → Value → Option Ordering) :
    List Value → List Value → Option Ordering
  | x :: l, y :: m =>
    match cmp x y with
    | none => none
    | some .eq => arrLoop cmp l m
    | some r => some r
  | [], [] => some .eq
  | [], _ :: _ => some .lt
  | _ :: _, [] => some .gt

/-- Whether a member comes after the previous one, if there is one
(json.cxx:409). -/
def isAfter (p : Option Str) (n : Str) : Bool :=
  match p with
  | none => true
  | some p => strCmp n p == .gt

/-- json.cxx:398-420 `next`: the member with the smallest name that is greater than
the previous one's. -/
def next (p : Option Str) (n : Option (Str × Value)) :
    List (Str × Value) → Option (Option (Str × Value))
  | [] => some n
  | i :: l =>
    if isAfter p i.1 then
      match n with
      | none => next p (some i) l
      | some n' =>
        match strCmp n'.1 i.1 with
        | .gt => next p (some i) l
        | .lt => next p n l
        | .eq => none
    else next p n l

/-- json.cxx:422-453: the comparison of objects. -/
def objLoop (cmp : Value → Value → Option Ordering) (a b : List (Str × Value)) :
    Nat → Option Str → Option Str → Option Ordering
  | 0, _, _ => none
  | f + 1, i, j =>
    match next i none a, next j none b with
    | some (some i), some (some j) =>
      match strCmp i.1 j.1 with
      | .lt => some .lt
      | .gt => some .gt
      | .eq =>
        match cmp i.2 j.2 with
        | none => none
        | some .eq => objLoop cmp a b f (some i.1) (some j.1)
        | some r => some r
    | some none, some none => some .eq
    | some none, some (some _) => some .lt
    | some (some _), some none => some .gt
    | _, _ => none

/-- json.cxx:341-456: the comparison of values of the same type (or numbers that
are equal). -/
def cmpSame (cmp : Value → Value → Option Ordering) (x y : Value) : Option Ordering :=
  match x, y with
  | .bool a, .bool b => some (if a = b then .eq else if a then .gt else .lt)
  | .num a, .num b =>
    some (if a.signed then ordI a.bits.toInt b.bits.toInt
          else ordN a.bits.toNat b.bits.toNat)
  | .str a, .str b => some (strCmp a b)
  | .arr l, .arr m => arrLoop cmp l m
  | .obj m, .obj k => objLoop cmp m k (m.length + 1) none none
  | _, _ => some .eq

/-- json.cxx:291-459 `json_value::compare`. -/
def compareF : Nat → Value → Value → Option Ordering
  | 0, _, _ => none
  | f + 1, x, y =>
    match cmpTypes x y with
    | .eq => cmpSame (compareF f) x y
    | r => some r

mutual
/-- Depth of a value. -/
def depth : Value → Nat
  | .arr l => depths l + 1
  | .obj m => depthm m + 1
  | _ => 0
/-- Depth of the deepest element. -/
def depths : List Value → Nat
  | [] => 0
  | x :: l => max (depth x) (depths l)
/-- Depth of the deepest member. -/
def depthm : List (Str × Value) → Nat
  | [] => 0
  | (_, v) :: m => max (depth v) (depthm m)
end

/-- `compareF` with enough fuel (json.cxx:292). -/
def compare (x y : Value) : Option Ordering := compareF (depth x + 1) x y

/-! ## Append and prepend -/

/-- The result of adding numbers: a number or undefined behavior.
Used by `appendTo` (json.cxx:464-498). -/
inductive NumRes
  | ok (n : Num)
  | undefined
  deriving DecidableEq, Repr

/-- json.cxx:464-498, the lambda `append`. -/
def appendTo (u s : BitVec 64) (hex : Bool) : NumRes :=
  if s.toInt < 0 then
    let a : BitVec 64 := if s ≠ BitVec.intMin 64 then -s else BitVec.intMax 64 + 1#64
    if u.toNat ≥ a.toNat then .ok ⟨false, hex, u - a⟩
    else if a - u = BitVec.intMin 64 then .undefined -- Negation overflows.
    else .ok ⟨true, hex, -(a - u)⟩
  else .ok ⟨false, hex, u + s⟩

/-- json.cxx:461-530 `append_numbers`. -/
def appendNumbers (l r : Num) : NumRes :=
  let rSigned := r.signed && !r.hex -- r.type == json_type::signed_number
  if l.signed then
    if rSigned then
      if l.bits.toInt ≥ 0 then appendTo l.bits r.bits l.hex
      else if r.bits.toInt ≥ 0 then appendTo r.bits l.bits l.hex
      else if l.bits.toInt + r.bits.toInt < -2 ^ 63 then .undefined -- Overflows.
      else .ok ⟨true, l.hex, l.bits + r.bits⟩
    else appendTo r.bits l.bits l.hex
  else
    if rSigned then appendTo l.bits r.bits l.hex
    else .ok ⟨false, l.hex, l.bits + r.bits⟩

/-- Result of append and prepend: the value after the call, whether the call has
thrown `invalid_argument`, or undefined behavior. Used by `add` (json.cxx:532-623). -/
inductive Res
  | ok (v : Value)
  | throws (v : Value)
  | undefined

/-- Add numbers and make a value. Used by `add` (json.cxx:532-623). -/
def numRes : NumRes → Res
  | .ok n => .ok (.num n)
  | .undefined => .undefined

/-- `i->value = move (m.value)` (json.cxx:611). -/
def assign (n : Str) (v : Value) (o : List (Str × Value)) : List (Str × Value) :=
  match o with
  | [] => []
  | (k, w) :: o => if n == k then (k, v) :: o else (k, w) :: assign n v o

/-- One iteration of the loop over members (json.cxx:601-612, 694-705): `front` is
whether to insert at the beginning. -/
def merge1 (front override : Bool) (o : List (Str × Value)) (m : Str × Value) :
    List (Str × Value) :=
  if o.any (fun x => m.1 == x.1) then
    if override then assign m.1 m.2 o else o
  else if front then m :: o else o ++ [m]

/-- The object branch (json.cxx:592-616, 685-709). -/
def merge (front override : Bool) (o v : List (Str × Value)) : List (Str × Value) :=
  if o.isEmpty then v else v.foldl (merge1 front override) o

/-- json.cxx:532-623 `json_value::append` (front is false) and json.cxx:625-716
`json_value::prepend` (front is true). -/
def add (front override : Bool) (x v : Value) : Res :=
  match x with
  | .null => .ok v
  | .arr l =>
    match v with
    | .arr m => .ok (.arr (if l.isEmpty then m else if front then m ++ l else l ++ m))
    | v => .ok (.arr (if front then v :: l else l ++ [v]))
  | x =>
    match v, x with
    | .null, x => .ok x
    | .bool b, .bool a => .ok (.bool (a || b))
    | .num b, .num a => numRes (appendNumbers a b)
    | .str b, .str a => .ok (.str (if front then b ++ a else a ++ b))
    | .obj b, .obj a => .ok (.obj (merge front override a b))
    | _, x => .throws x

/-- `append (v)` with the default argument (json.hxx:168). -/
def append (x v : Value) : Res := add false true x v

/-- `prepend (v)` with the default argument (json.hxx:171). -/
def prepend (x v : Value) : Res := add true false x v

end Verif.Json
