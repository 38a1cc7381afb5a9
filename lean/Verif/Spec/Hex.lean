import Verif.Model.Basic
/-
Specification of hexadecimal text, independent of the tables of the code.
-/
namespace Solace.Hex

/-- Lower-case digit of a value below 16. -/
def digit (n : Nat) : Byte := if n < 10 then BitVec.ofNat 8 (48 + n) else BitVec.ofNat 8 (87 + n)

/-- Text of a byte string: for each byte the digit of its high half, then of its low half. -/
def text (bytes : List Byte) : List Byte :=
  bytes.flatMap fun b => [digit (b.toNat / 16), digit (b.toNat % 16)]

/-- Value of a hexadecimal digit character of either case. -/
def value (c : Byte) : Option Nat :=
  if 48 ≤ c.toNat ∧ c.toNat ≤ 57 then some (c.toNat - 48)
  else if 97 ≤ c.toNat ∧ c.toNat ≤ 102 then some (c.toNat - 87)
  else if 65 ≤ c.toNat ∧ c.toNat ≤ 70 then some (c.toNat - 55)
  else none

/-- `0-9`, `a-f`, `A-F` -/
def IsDigit (c : Byte) : Prop := value c ≠ none
instance (c : Byte) : Decidable (IsDigit c) := by unfold IsDigit; infer_instance

/-- `0-9`, `a-f` -/
def IsLowerDigit (c : Byte) : Prop := (48 ≤ c.toNat ∧ c.toNat ≤ 57) ∨ (97 ≤ c.toNat ∧ c.toNat ≤ 102)
instance (c : Byte) : Decidable (IsLowerDigit c) := by unfold IsLowerDigit; infer_instance

/-- Lower-case form of an ASCII character. -/
def toLower (c : Byte) : Byte := if 65 ≤ c.toNat ∧ c.toNat ≤ 90 then BitVec.ofNat 8 (c.toNat + 32) else c

/-- The byte string denoted by a text, if it is an even number of digits. -/
def parse : List Byte → Option (List Byte)
  | [] => some []
  | [_] => none
  | a :: b :: rest =>
    match value a, value b, parse rest with
    | some h, some l, some bs => some (BitVec.ofNat 8 (16 * h + l) :: bs)
    | _, _, _ => none

end Solace.Hex
