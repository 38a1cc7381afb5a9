import Verif.Spec.Ordered
/-
What sorting a part of an array is.
-/
namespace Solace.Sorting

/-- The elements between the two indices were rearranged, the others are as before. -/
structure Moved {α : Type} (xs ys : List α) (a b : Nat) : Prop where
  perm : ys.Perm xs
  outside : ∀ t, t < a ∨ b ≤ t → ys[t]? = xs[t]?
  inside : ∀ t, a ≤ t → t < b → ∃ s, a ≤ s ∧ s < b ∧ ys[t]? = xs[s]?

/-- The call sorts the range and leaves the rest alone. -/
def SortsRange {α : Type} (P : α → Prop) (lt : α → α → Prop) (heap : List α → Nat → Nat → Outcome (List α)) : Prop :=
  ∀ xs a b, (∀ x ∈ xs, P x) → a < b → b ≤ xs.length →
    ∃ ys, heap xs a b = .ok ys ∧ Moved xs ys a b ∧ ∀ s t x y, a ≤ s → s < t → t < b → ys[s]? = some x → ys[t]? = some y → ¬lt y x

end Solace.Sorting
