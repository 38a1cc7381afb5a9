import Verif.Model.Basic
import Verif.Model.MemoryView
/-
The expectations of the project's own unit tests (/repo/test), put to the model. Each `#guard` evaluates a definition of the model on
the input of a test and compares with what the test expects of the library. These are tests of the model, not proofs; a failing one
fails the build. What a test expects of matters that are not modelled (compile-time traits, addresses) is left out.
-/
namespace Solace.Conformance

/-- The characters of a literal. -/
def b (s : String) : List Byte := s.toUTF8.toList.map fun c => BitVec.ofNat 8 c.toNat

/-- A C string in memory. -/
def c (s : String) : List Byte := b s ++ [0#8]

/-- A memory manager that grants every request with memory that holds other data. -/
def heap (n : Nat) : Except Err MutView := .ok ⟨false, List.replicate n 0xCD#8⟩

def ok? {ε α : Type} : Except ε α → Option α
  | .ok a => some a
  | .error _ => none

def val {α : Type} : Outcome α → Option α
  | .ok a => some a
  | _ => none

def throws {α : Type} : Outcome α → Bool
  | .throws => true
  | _ => false

end Solace.Conformance
