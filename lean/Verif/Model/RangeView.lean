import Verif.Model.Basic
/-
Model of `RangeView` (/repo/include/solace/range_view.hpp) over a range of elements `xs`. An iterator of the underlying range
is an index; the end is `xs.length`. Dereferencing at or beyond the end is `ub`.
-/
namespace Solace.RangeView
variable {α : Type}

/-- `*_current`. -/
def deref (xs : List α) (i : Nat) : Outcome α :=
  match xs[i]? with
  | some x => .ok x
  | none => .ub

/-- The loop of `Iter::operator++`, range_view.hpp:45-47. The outer `Option` is `none` when the fuel does not suffice. -/
def skip (xs : List α) (pred : α → Bool) : Nat → Nat → Option (Outcome Nat)
  | 0, _ => none
  | fuel + 1, current =>
    if current + 1 ≠ xs.length then
      match deref xs (current + 1) with
      | .ok x => if pred x then some (.ok (current + 1)) else skip xs pred fuel (current + 1)
      | .throws => some .throws
      | .terminate => some .terminate
      | .ub => some .ub
    else some (.ok (current + 1))

/-- `Iter::operator++`, range_view.hpp:41-50. -/
def next (xs : List α) (pred : α → Bool) (fuel current : Nat) : Option (Outcome Nat) :=
  if current = xs.length then some (.ok current) else skip xs pred fuel current

/-- `for (auto& x : view)`: from `begin()` (range_view.hpp:57-58, the first position of the range) while `!= end()`. Result: the
elements visited. -/
def visit (xs : List α) (pred : α → Bool) : Nat → Nat → Option (Outcome (List α))
  | 0, _ => none
  | fuel + 1, current =>
    if current ≠ xs.length then
      match deref xs current with
      | .ok x =>
        match next xs pred fuel current with
        | none => none
        | some (.ok n) => (visit xs pred fuel n).map fun r => r >>= fun l => .ok (x :: l)
        | some .throws => some .throws
        | some .terminate => some .terminate
        | some .ub => some .ub
      | .throws => some .throws
      | .terminate => some .terminate
      | .ub => some .ub
    else some (.ok [])

/-- The whole iteration. -/
def iterate (xs : List α) (pred : α → Bool) (fuel : Nat) : Option (Outcome (List α)) := visit xs pred fuel 0

end Solace.RangeView
