import Verif.Model.Ordered
/-
What the standard asks of the comparison of an ordered container, and what the container then does.
-/
namespace Solace.Ordered

/-- The comparison answers for all keys of the kind `P`, and the answers are those of a strict weak order ([alg.sorting]): no key is before itself, and "not
before" is transitive as "before" is. -/
structure StrictWeak {α : Type} (cmp : α → α → Outcome Bool) (P : α → Prop) (lt : α → α → Prop) : Prop where
  answers : ∀ a b, P a → P b → ∃ r, cmp a b = .ok r ∧ (r = true ↔ lt a b)
  irrefl : ∀ a, P a → ¬lt a a
  trans : ∀ a b c, P a → P b → P c → lt a b → lt b c → lt a c
  negTrans : ∀ a b c, P a → P b → P c → ¬lt a b → ¬lt b c → ¬lt a c

/-- Keys that the container takes for the same. -/
def Same {α : Type} (lt : α → α → Prop) (a b : α) : Prop := ¬lt a b ∧ ¬lt b a

/-- The trees a container can have after the keys have been given to `insert` in turn: each call may be followed by any change of shape that keeps the order
of iteration. -/
inductive Built {α : Type} (cmp : α → α → Outcome Bool) : List α → Tree α → Prop
  | empty : Built cmp [] .leaf
  | added {ks t t' k} : Built cmp ks t → insert cmp k t none = .ok (some t') → Built cmp (ks ++ [k]) t'
  | refused {ks t k} : Built cmp ks t → insert cmp k t none = .ok none → Built cmp (ks ++ [k]) t
  | shape {ks t t'} : Built cmp ks t → t'.keys = t.keys → Built cmp ks t'

/-- The array is sorted. -/
def Sorted {α : Type} (lt : α → α → Prop) (xs : List α) : Prop := xs.Pairwise fun a b => ¬lt b a

end Solace.Ordered
