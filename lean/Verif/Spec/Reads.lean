import Verif.Model.Reads
/-
Which characters a comparison and a search have to look at, stated without the loops of the code.
-/
namespace Solace.Reads

/-- The number of characters at the beginning of two texts up to their first difference. -/
def agree : List Byte → List Byte → Nat
  | x :: xs, y :: ys => if x = y then agree xs ys + 1 else 0
  | _, _ => 0

/-- The first `k` characters of both texts in turn. -/
def inTurn (k : Nat) : List Access := (List.range k).flatMap fun i => [.here i, .there i]

/-- The characters of `x` and of `s` from position `i` on in turn, as far as they agree and the first that differ. -/
def attempt (s x : List Byte) (i : Nat) : List Access :=
  (List.range (min x.length (agree x (s.drop i) + 1))).flatMap fun j => [.there j, .here (i + j)]

/-- A search looks whether the first character is at position `i`; only if it is, it compares the text. -/
def candidate (s x : List Byte) (i : Nat) : List Access :=
  [.here i, .there 0] ++ if s[i]? = x[0]? then attempt s x i else []

/-- The characters of the view from position `i` on, `k` of them. -/
def along (i k : Nat) : List Access := (List.range' i k).map .here

/-- All characters looked at are among the `n` characters of the view and the `m` of the argument. -/
def Inside (n m : Nat) (t : List Access) : Prop :=
  (∀ i, .here i ∈ t → i < n) ∧ (∀ j, .there j ∈ t → j < m)

/-- The two texts `s`, `x` have the same sizes as `s'`, `x'`, and the same characters wherever `t` looks. -/
def Alike (t : List Access) (s x s' x' : List Byte) : Prop :=
  s.length = s'.length ∧ x.length = x'.length ∧ (∀ i, .here i ∈ t → s[i]? = s'[i]?) ∧ (∀ j, .there j ∈ t → x[j]? = x'[j]?)

/-- The result of a call without the accesses. -/
def result (r : Outcome (α × List Access)) : Outcome α := r >>= fun p => pure p.1

end Solace.Reads
