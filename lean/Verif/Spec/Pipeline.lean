import Verif.Model.Pipeline
import Verif.Spec.Hex
import Verif.Spec.Rfc4648
/-
What chains of codecs should do, from the published texts only.
-/
namespace Solace.Pipeline

/-- The text of some bytes: hexadecimal notation, or RFC 4648. -/
def textOf : Codec → List Byte → List Byte
  | .base16, b => Hex.text b
  | .base64, b => Rfc4648.text false b
  | .base64url, b => Rfc4648.text true b

/-- How long it is. -/
def sizeOf' : Codec → Nat → Nat
  | .base16, n => 2 * n
  | _, n => 4 * ((n + 2) / 3)

/-- The text after all stages. -/
def textAll (cs : List Codec) (bytes : List Byte) : List Byte := cs.foldl (fun b c => textOf c b) bytes

/-- The sizes of the inputs of the stages, and the size at the end. -/
def sizes : List Codec → Nat → List Nat
  | [], n => [n]
  | c :: cs, n => n :: sizes cs (sizeOf' c n)

/-- Some stage encodes, with a Base64 alphabet, bytes whose number is a multiple of three: its text has no padding. -/
def Unpadded : List Codec → Nat → Prop
  | [], _ => False
  | c :: cs, n => (c ≠ .base16 ∧ n % 3 = 0) ∨ Unpadded cs (sizeOf' c n)

instance : (cs : List Codec) → (n : Nat) → Decidable (Unpadded cs n)
  | [], _ => inferInstanceAs (Decidable False)
  | c :: cs, n =>
    have := instDecidableUnpadded cs (sizeOf' c n)
    inferInstanceAs (Decidable ((c ≠ .base16 ∧ n % 3 = 0) ∨ Unpadded cs (sizeOf' c n)))

end Solace.Pipeline
