import Verif.Model.Basic
/-
Specification of RFC 4648 base64, on bit strings, independent of the tables of the code.
-/
namespace Solace.Rfc4648

/-- Bits of a byte, most significant first. -/
def bits (b : Byte) : List Bool :=
  [b.getLsbD 7, b.getLsbD 6, b.getLsbD 5, b.getLsbD 4, b.getLsbD 3, b.getLsbD 2, b.getLsbD 1, b.getLsbD 0]

/-- Number written by a bit string, most significant bit first. -/
def value (bs : List Bool) : Nat := bs.foldl (fun n b => 2 * n + b.toNat) 0

/-- Values of the 6-bit groups of a bit string; the last group is filled with zero bits on the right. -/
def sextets (bs : List Bool) : List Nat :=
  match bs with
  | [] => []
  | b :: bs =>
    value (((b :: bs).take 6) ++ List.replicate (6 - (b :: bs).length) false) :: sextets (bs.drop 5)
termination_by bs.length
decreasing_by simp; omega

/-- The alphabet of section 4 (`url = false`) or section 5 (`url = true`). -/
def char (url : Bool) (n : Nat) : Byte :=
  if n < 26 then BitVec.ofNat 8 (65 + n)
  else if n < 52 then BitVec.ofNat 8 (97 + (n - 26))
  else if n < 62 then BitVec.ofNat 8 (48 + (n - 52))
  else if n = 62 then (if url then 45 else 43)
  else (if url then 95 else 47)

/-- The encoding: characters of the groups of the bit string, then `=` up to a multiple of four. -/
def text (url : Bool) (bytes : List Byte) : List Byte :=
  let cs := (sextets (bytes.flatMap bits)).map (char url)
  cs ++ List.replicate ((4 - cs.length % 4) % 4) 61

/-- The six bits of an alphabet index, most significant first. -/
def six (n : Nat) : List Bool :=
  [n.testBit 5, n.testBit 4, n.testBit 3, n.testBit 2, n.testBit 1, n.testBit 0]

/-- The bytes of a bit string; bits left over at the end are dropped. -/
def octets : List Bool → List Byte
  | a :: b :: c :: d :: e :: f :: g :: h :: rest => BitVec.ofNat 8 (value [a, b, c, d, e, f, g, h]) :: octets rest
  | _ => []

end Solace.Rfc4648
