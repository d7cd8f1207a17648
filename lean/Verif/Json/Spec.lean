/-!
# JSON values: specification
-/

namespace Verif.Json

/-- A JSON number: whether it is signed, whether it is hexadecimal and the 64 bits
of its representation (libbuild2/json.hxx:38 `json_type` and the union members
`signed_number` and `unsigned_number`). -/
structure Num where
  signed : Bool
  hex    : Bool
  bits   : BitVec 64
  deriving DecidableEq, Repr

/-- Numeric value. -/
def Num.value (n : Num) : Int :=
  if n.signed then n.bits.toInt else n.bits.toNat

/-- A member name or a string. -/
abbrev Str := List Char

/-- libbuild2/json.hxx:64 `json_value`. -/
inductive Value
  | null
  | bool (b : Bool)
  | num (n : Num)
  | str (s : Str)
  | arr (l : List Value)
  | obj (m : List (Str × Value))

/-! "we don't assume that object members are in a sorted order (but do assume there
are no duplicates)" (json.hxx:33) -/

mutual
/-- No object has members with the same name, at any depth. -/
def WF : Value → Prop
  | .arr l => WFs l
  | .obj m => (m.map (·.1)).Nodup ∧ WFm m
  | _ => True
/-- `WF` of the elements of an array. -/
def WFs : List Value → Prop
  | [] => True
  | x :: l => WF x ∧ WFs l
/-- `WF` of the values of members. -/
def WFm : List (Str × Value) → Prop
  | [] => True
  | (_, v) :: m => WF v ∧ WFm m
end

/-- The position of a value's type in the order of types. -/
def kind : Value → Nat
  | .null => 0 | .bool _ => 1 | .num _ => 2 | .str _ => 3 | .arr _ => 4 | .obj _ => 5

/-- The value of the member with the given name. -/
def member (m : List (Str × Value)) (n : Str) : Option Value :=
  (m.find? (fun x => x.1 == n)).map (·.2)

/-- A number that some JSON number represents. -/
def Representable (v : Int) : Prop := ∃ n : Num, n.value = v

/-- Order of names: by the first differing character, a prefix comes first. -/
def NameLt (a b : Str) : Prop :=
  (∃ c s, b = a ++ c :: s) ∨
  (∃ p c d s t, a = p ++ c :: s ∧ b = p ++ d :: t ∧ c.toNat < d.toNat)

end Verif.Json
