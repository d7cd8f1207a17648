/-!
# Integer values: specification
-/

namespace Verif.Integer

/-- Decimal or hexadecimal. -/
inductive Base
  | dec
  | hex
  deriving DecidableEq, Repr

/-- `[0-9]` or `[0-9a-fA-F]`. -/
def IsDigit (b : Base) (c : Char) : Prop :=
  ('0'.toNat ≤ c.toNat ∧ c.toNat ≤ '9'.toNat) ∨
  (b = .hex ∧ (('a'.toNat ≤ c.toNat ∧ c.toNat ≤ 'f'.toNat) ∨
               ('A'.toNat ≤ c.toNat ∧ c.toNat ≤ 'F'.toNat)))

/-- The value of a digit. -/
def digitValue (c : Char) : Nat :=
  if c.toNat ≤ '9'.toNat then c.toNat - '0'.toNat
  else if c.toNat ≤ 'F'.toNat then c.toNat - 'A'.toNat + 10
  else c.toNat - 'a'.toNat + 10

/-- The radix. -/
def Base.radix : Base → Nat
  | .dec => 10
  | .hex => 16

/-- Positional value of digits. -/
def positional (b : Base) (ds : List Char) : Nat :=
  ds.foldl (fun n c => n * b.radix + digitValue c) 0

/-- The prefix of a number in the given base. -/
def Prefix (b : Base) (p : List Char) : Prop :=
  match b with
  | .dec => p = []
  | .hex => p = ['0', 'x'] ∨ p = ['0', 'X']

/-- Text is a non-empty sequence of digits, after `0x` or `0X` if hexadecimal, of the
given value. -/
def Magnitude (t : List Char) (n : Nat) : Prop :=
  ∃ b p ds, Prefix b p ∧ ds ≠ [] ∧ (∀ c ∈ ds, IsDigit b c) ∧ t = p ++ ds ∧
    n = positional b ds

/-- Text is an unsigned number, possibly with a plus. -/
def UnsignedText (t : List Char) (n : Nat) : Prop :=
  Magnitude t n ∨ ∃ m, t = '+' :: m ∧ Magnitude m n

/-- Text is a number, possibly with a sign. -/
def SignedText (t : List Char) (i : Int) : Prop :=
  (∃ n, UnsignedText t n ∧ i = n) ∨ ∃ m n, t = '-' :: m ∧ Magnitude m n ∧ i = -(n : Int)

end Verif.Integer
