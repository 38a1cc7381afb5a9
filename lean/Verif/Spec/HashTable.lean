import Verif.Model.HashTable
/-
What a set holds after a program.
-/
namespace Solace.HashTable

/-- The key is in the set after the operations, when it was there before them or not. -/
def Present (k : Key) : Prop → List Op → Prop
  | before, [] => before
  | before, .insert x :: os => Present k (before ∨ x = k) os
  | before, .erase x :: os => Present k (before ∧ x ≠ k) os
  | before, .rehash _ :: os => Present k before os

end Solace.HashTable
