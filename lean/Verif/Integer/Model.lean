import Verif.Integer.Spec

/-!
# Integer values: model of the code

libbuild2/variable.cxx `value_traits<int64_t>::convert` and
`value_traits<uint64_t>::convert`, libbuild2/utility.cxx `to_string` and
libbuild2/functions-integer.cxx `$string()` and `$integer_sequence()`.

`std::stoll` and `std::stoull` are modelled as specified by the C and C++ standards,
with a thrown exception as `none`. `butl::wspace` is a parameter. A character past the
end of a string is the null character.
-/

namespace Verif.Integer

/-! ## Standard library -/

/-- `isspace` in the C locale. Used by `convertInt` (variable.cxx:520-558). -/
def isSpace (c : Char) : Bool :=
  c == ' ' || c == '\t' || c == '\n' || c == '\x0b' || c == '\x0c' || c == '\r'

/-- The digit with this character in the given base.
Used by `convertInt` (variable.cxx:520-558). -/
def digit (b : Nat) (c : Char) : Option Nat :=
  let d :=
    if '0'.toNat ≤ c.toNat ∧ c.toNat ≤ '9'.toNat then some (c.toNat - '0'.toNat)
    else if 'a'.toNat ≤ c.toNat ∧ c.toNat ≤ 'z'.toNat then some (c.toNat - 'a'.toNat + 10)
    else if 'A'.toNat ≤ c.toNat ∧ c.toNat ≤ 'Z'.toNat then some (c.toNat - 'A'.toNat + 10)
    else none
  match d with
  | some d => if d < b then some d else none
  | none => none

/-- The longest sequence of digits: its number, its value and what follows.
Used by `convertInt` (variable.cxx:520-558). -/
def digits (b : Nat) (count acc : Nat) : List Char → Nat × Nat × List Char
  | [] => (count, acc, [])
  | c :: t =>
    match digit b c with
    | some d => digits b (count + 1) (acc * b + d) t
    | none => (count, acc, c :: t)

/-- The sign and what follows. Used by `convertInt` (variable.cxx:520-558). -/
def sign : List Char → Bool × List Char
  | '-' :: t => (true, t)
  | '+' :: t => (false, t)
  | t => (false, t)

/-- Skip `0x` in base 16 if it is followed by a digit.
Used by `convertInt` (variable.cxx:520-558). -/
def skipPrefix (b : Nat) (t : List Char) : List Char :=
  match t with
  | '0' :: x :: c :: u =>
    if b = 16 ∧ (x = 'x' ∨ x = 'X') ∧ (digit 16 c).isSome then c :: u else t
  | t => t

/-- The common part of `strtoll` and `strtoull`: whether negative, the magnitude and
what follows the number. Used by `convertInt` (variable.cxx:520-558). -/
def strto (b : Nat) (v : List Char) : Option (Bool × Nat × List Char) :=
  let s := sign (v.dropWhile isSpace)
  let d := digits b 0 0 (skipPrefix b s.2)
  if d.1 = 0 then none else some (s.1, d.2.1, d.2.2)

/-- `std::stoll`: the result and the position of the first unconverted character.
Used by `convertInt` (variable.cxx:520-558). -/
def stoll (v : List Char) (b : Nat) : Option (BitVec 64 × Nat) :=
  match strto b v with
  | none => none
  | some (neg, m, r) =>
    if if neg then m ≤ 2 ^ 63 else m < 2 ^ 63 then
      some (BitVec.ofInt 64 (if neg then -(m : Int) else m), v.length - r.length)
    else none

/-- `std::stoull`: note that a negative number is converted modulo 2^64.
Used by `convertUint` (variable.cxx:585-623). -/
def stoull (v : List Char) (b : Nat) : Option (BitVec 64 × Nat) :=
  match strto b v with
  | none => none
  | some (neg, m, r) =>
    if m < 2 ^ 64 then
      some (if neg then -(BitVec.ofNat 64 m) else BitVec.ofNat 64 m, v.length - r.length)
    else none

/-! ## From names -/

/-- The name being converted: whether it is the first half of a pair, whether it is a
pattern, whether it is simple and its value (libbuild2/name.hxx). -/
structure Nm where
  paired  : Bool
  pattern : Bool
  simple  : Bool
  value   : List Char

/-- `v[p]`. Used by `baseOf` (variable.cxx:536, 601). -/
def at' (v : List Char) (p : Nat) : Char := v.getD p '\x00'

/-- `v[p] == '0' && (v[p + 1] == 'x' || v[p + 1] == 'X') ? 16 : 10`
(variable.cxx:536, 601). -/
def baseOf (v : List Char) (p : Nat) : Nat :=
  if at' v p = '0' ∧ (at' v (p + 1) = 'x' ∨ at' v (p + 1) = 'X') then 16 else 10

/-- `if (i == v.size ()) return r` (variable.cxx:543, 608). -/
def ifAll (v : List Char) (o : Option (BitVec 64 × Nat)) : Option (BitVec 64) :=
  match o with
  | none => none
  | some (r, i) => if i = v.length then some r else none

/-- variable.cxx:520-558 `value_traits<int64_t>::convert`. -/
def convertInt (wspace : Char → Bool) (n : Nm) : Option (BitVec 64) :=
  if !n.paired && !n.pattern && n.simple then
    let v := n.value
    let c := at' v 0
    if wspace c then none
    else
      let p := if c = '-' ∨ c = '+' then 1 else 0
      ifAll v (stoll v (baseOf v p))
  else none

/-- variable.cxx:585-623 `value_traits<uint64_t>::convert`. -/
def convertUint (wspace : Char → Bool) (n : Nm) : Option (BitVec 64) :=
  if !n.paired && !n.pattern && n.simple then
    let v := n.value
    let c := at' v 0
    if wspace c || c = '-' then none
    else
      let p := if c = '+' then 1 else 0
      ifAll v (stoull v (baseOf v p))
  else none

/-! ## To strings -/

/-- The character of a digit (utility.cxx:90 `hex_digits`). -/
def digitChar (d : Nat) : Char :=
  if d < 10 then Char.ofNat ('0'.toNat + d) else Char.ofNat ('a'.toNat + (d - 10))

/-- `std::to_string (uint64_t)`: the fuel is the number of digits.
Used by `toStringI` (variable.hxx:838). -/
def decDigits : Nat → Nat → List Char
  | 0, _ => []
  | f + 1, n => (if n < 10 then [] else decDigits f (n / 10)) ++ [digitChar (n % 10)]

/-- `std::to_string (uint64_t)`. Used by `toStringBaseU` (utility.cxx:93-133). -/
def toStringU (i : BitVec 64) : List Char := decDigits 20 i.toNat

/-- `std::to_string (int64_t)` (variable.hxx:838 `reverse`). -/
def toStringI (i : BitVec 64) : List Char :=
  if i.toInt < 0 then '-' :: decDigits 20 i.toInt.natAbs else decDigits 20 i.toInt.natAbs

/-- utility.cxx:112-121: the digits from `4 * j` bits up, without leading zeros: `r`
is what is there so far. -/
def hexLoop (i : BitVec 64) : Nat → List Char → List Char
  | 0, r => r
  | j + 1, r =>
    let d := (i >>> (4 * j)).toNat % 16
    hexLoop i j (if d ≠ 0 ∨ r.length ≠ 0 ∨ j = 0 then r ++ [digitChar d] else r)

/-- Leading zeros (utility.cxx:103-104, 123-124). -/
def pad (w : Nat) (r : List Char) : List Char :=
  if w > r.length then List.replicate (w - r.length) '0' ++ r else r

/-- utility.cxx:93-133 `to_string (uint64_t, int, size_t)`. -/
def toStringBaseU (i : BitVec 64) (b w : Nat) : Option (List Char) :=
  if b = 10 then some (pad w (toStringU i))
  else if b = 16 then some (['0', 'x'] ++ pad w (hexLoop i 16 []))
  else none

/-- utility.cxx:136-148 `to_string (int64_t, int, size_t)`. -/
def toStringBaseI (i : BitVec 64) (b w : Nat) : Option (List Char) :=
  let ui := if i = BitVec.intMin 64 then BitVec.intMax 64 + 1#64
    else BitVec.ofNat 64 i.toInt.natAbs
  match toStringBaseU ui b w with
  | none => none
  | some r => some (if i.toInt < 0 then '-' :: r else r)

/-- functions-integer.cxx:14-26: `static_cast<int> (base)` keeps the 32 low bits. -/
def stringFunction (i base : BitVec 64) (w : Nat) : Option (List Char) :=
  toStringBaseU i (base.setWidth 32).toNat w

/-! ## Sequences -/

/-- Outcome of `$integer_sequence()`. Used by `seqLoop` (functions-integer.cxx:87-88). -/
inductive Seq
  | ok (l : List Nat)
  | divByZero
  | running -- Not finished in the given number of steps.
  deriving DecidableEq, Repr

/-- functions-integer.cxx:87-88: the loop, for at most the given number of
iterations. -/
def seqLoop (e s : BitVec 64) : Nat → BitVec 64 → List Nat → Seq
  | 0, _, _ => .running
  | f + 1, b, r => if b.toNat < e.toNat then seqLoop e s f (b + s) (r ++ [b.toNat]) else .ok r

/-- functions-integer.cxx:76-92 `$integer_sequence()` with the loop run for at most
`fuel` iterations. That there is enough memory for the result is assumed. -/
def integerSequence (fuel : Nat) (b e s : BitVec 64) : Seq :=
  if b.toNat < e.toNat then
    if s = 0#64 then .divByZero else seqLoop e s fuel b []
  else .ok []

end Verif.Integer
