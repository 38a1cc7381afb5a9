import Verif.Model.Basic
/-
Decimal notation of natural numbers, written independently of any conversion function.
-/
namespace Solace.Decimal

/-- The digit `'0' + d`. -/
def digit (d : Nat) : Byte := BitVec.ofNat 8 (0x30 + d)

/-- The value of a digit character. -/
def digitValue? (c : Byte) : Option Nat := if 0x30 ≤ c.toNat ∧ c.toNat ≤ 0x39 then some (c.toNat - 0x30) else none

/-- The value of a text of digits, most significant first. -/
def value? (cs : List Byte) : Option Nat :=
  cs.foldlM (fun a c => (digitValue? c).map (10 * a + ·)) 0

/-- `cs` is the decimal notation of `n`: digits with that value, at least one, no leading zero unless it is the only one. -/
def IsDecimal (n : Nat) (cs : List Byte) : Prop :=
  cs ≠ [] ∧ value? cs = some n ∧ (cs.head? = some (digit 0) → cs.length = 1)

end Solace.Decimal
