import Verif.Spec.Strings
/-
What a program that takes dial strings apart is to say about a text, without reference to how the library parses it.
-/
namespace Solace.DsParser.Spec
open Strings

/-- White space of the "C" locale. -/
def space (c : Byte) : Bool := c.toNat == 32 || (9 ≤ c.toNat && c.toNat ≤ 13)

/-- The parts of a dial string: protocol, address and service. -/
structure Parts where
  protocol : List Byte
  address : List Byte
  service : List Byte
deriving DecidableEq, Repr

/-- `Means t r`: the text `t` has the parts `r`, or is no dial string (`none`). Pieces after the third are ignored. -/
inductive Means : List Byte → Option Parts → Prop
  | empty : Means [] none
  | plain {t} : t ≠ [] → 0x3A#8 ∉ t → Means t (some ⟨[], t, []⟩)
  | long {t p q rest p'} : IsSplit [0x3A#8] t (p :: q :: rest) → IsTrim space p p' → 8 < p'.length → Means t none
  | two {t p q p' q'} : IsSplit [0x3A#8] t [p, q] → IsTrim space p p' → p'.length ≤ 8 → IsTrim space q q' →
      Means t (some ⟨p', q', []⟩)
  | three {t p q r rest p' q' r'} : IsSplit [0x3A#8] t (p :: q :: r :: rest) → IsTrim space p p' → p'.length ≤ 8 →
      IsTrim space q q' → IsTrim space r r' → Means t (some ⟨p', q', r'⟩)

/-- The characters of a text literal. -/
def chars (s : String) : List Byte := s.toList.map fun c => BitVec.ofNat 8 c.toNat

/-- A line with a quoted value. -/
def line (label : String) (value : List Byte) : List Byte := chars label ++ chars ": \"" ++ value ++ chars "\"\n"

/-- What is printed for an argument; the protocol is shown through `f`. -/
def block (f : List Byte → List Byte) : Option Parts → List Byte
  | none => []
  | some p => line "protocol" (f p.protocol) ++ line "address" p.address ++ if p.service = [] then [] else line "service" p.service

/-- What is reported for an argument, with the text of the error. -/
def report (error arg : List Byte) : Option Parts → List Byte
  | none => chars "Failed to parse \"" ++ arg ++ chars "\": " ++ error ++ chars "\n"
  | some _ => []

end Solace.DsParser.Spec
