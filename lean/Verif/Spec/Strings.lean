import Verif.Model.Basic
/-
What searching, trimming and splitting mean, in terms of list concatenation only.
-/
namespace Solace.Strings

/-- `x` occurs in `s` at position `i`. -/
def OccursAt (x s : List Byte) (i : Nat) : Prop := ∃ a b, s = a ++ x ++ b ∧ a.length = i

/-- `p` is a piece followed by the delimiter: the first occurrence of `d` in `p ++ d` is the one at its end. -/
def EndsAtFirst (d p : List Byte) : Prop := ∀ i, OccursAt d (p ++ d) i → p.length ≤ i

/-- `ps` is the splitting of `s` around the leftmost, non-overlapping occurrences of `d`. -/
def IsSplit (d s : List Byte) : List (List Byte) → Prop
  | [] => False
  | [p] => s = p ∧ ∀ i, ¬OccursAt d p i
  | p :: q :: ps => ∃ t, s = p ++ d ++ t ∧ EndsAtFirst d p ∧ IsSplit d t (q :: ps)

/-- `t` is `s` without the maximal runs at both ends of characters for which `p` holds. -/
def IsTrim (p : Byte → Bool) (s t : List Byte) : Prop :=
  ∃ a b, s = a ++ t ++ b ∧ (∀ c ∈ a, p c) ∧ (∀ c ∈ b, p c) ∧
    (∀ c, t.head? = some c → p c = false) ∧ (∀ c, t.getLast? = some c → p c = false)

/-- Shorter strings first, strings of equal length by the first difference, bytes compared as numbers. -/
def lexLt : List Byte → List Byte → Prop
  | [], [] => False
  | [], _ :: _ => True
  | _ :: _, [] => False
  | x :: xs, y :: ys => x.toNat < y.toNat ∨ (x = y ∧ lexLt xs ys)

/-- Shorter strings first, strings of equal length by the first difference. -/
def shortlexLt (a b : List Byte) : Prop := a.length < b.length ∨ (a.length = b.length ∧ lexLt a b)

/-- What ends up in `room` bytes when the pieces are stored one after the other until one does not fit. -/
def storedUntil : Nat → List (List Byte) → List Byte
  | _, [] => []
  | room, p :: ps => if p.length ≤ room then p ++ storedUntil (room - p.length) ps else []

/-- The same when a piece marked `false` that does not fit is left out; one marked `true` is needed. -/
def storedAll : Nat → List (Bool × List Byte) → Option (List Byte)
  | _, [] => some []
  | room, (needed, p) :: ps =>
    if p.length ≤ room then (storedAll (room - p.length) ps).map (p ++ ·)
    else if needed then none
    else storedAll room ps

end Solace.Strings
