import Verif.Model.MemoryView
import Verif.Lemmas.String
/-
Independence of what memory held before: two memory managers that give the same answers, only with other bytes in the memory they
hand out, cannot be told apart by a function that shows none of those bytes.
-/
namespace Solace.OldMemory

/-- The same answer up to the content of the memory handed out. -/
def Alike : Except Err MutView → Except Err MutView → Prop
  | .ok v, .ok w => v.null = w.null ∧ v.bytes.length = w.bytes.length
  | .error e, .error f => e = f
  | _, _ => False

/-- Two memory managers that differ in the content of memory only. -/
def SameShape (a b : Nat → Except Err MutView) : Prop := ∀ n, Alike (a n) (b n)

/-- `f` shows nothing of the previous content of the memory it is given. -/
def Hidden {β : Type} (f : (Nat → Except Err MutView) → β) : Prop :=
  ∀ a b, Str.AllocOk a → Str.AllocOk b → SameShape a b → f a = f b

/-- What the caller sees of the string made. -/
def shown (r : Except Err Str) : Except Err (List Byte) := r.map Str.view

/-- A memory manager that always has memory, filled with `c`. -/
def filled (c : Byte) (n : Nat) : Except Err MutView := .ok ⟨false, List.replicate n c⟩

end Solace.OldMemory
