import Verif.Model.Uuid
import Verif.Model.Version
import Verif.Model.StringQueries
import Verif.Model.Char
/-
Values of the library as keys of the ordered containers of the standard library (`std::set`, `std::map`) and in sorted arrays, which compare them with
`operator<`.

The search trees are those of libstdc++ (`bits/stl_tree.h`): `find` (with `_M_lower_bound`) and the unique insertion (`_M_get_insert_unique_pos`); balancing
does not compare and keeps the order of the nodes, so it is any change of shape that does (`Built.shape`, in the specification). The search in an array is
`std::binary_search` (`bits/stl_algobase.h`, `__lower_bound`; `bits/stl_algo.h`). A comparison may end the program.
-/
namespace Solace.Ordered

inductive Tree (α : Type) where
  | leaf
  | node (left : Tree α) (key : α) (right : Tree α)
deriving DecidableEq, Repr

/-- The keys in the order of iteration. -/
def Tree.keys {α : Type} : Tree α → List α
  | .leaf => []
  | .node l x r => l.keys ++ x :: r.keys

/-- `_M_lower_bound(x, y, k)`: `y` is the best node so far. -/
def lower {α : Type} (cmp : α → α → Outcome Bool) (k : α) : Tree α → Option α → Outcome (Option α)
  | .leaf, y => .ok y
  | .node l x r, y => do
    let less ← cmp x k
    if less then lower cmp k r y else lower cmp k l (some x)

/-- `find(k)`: the key found. -/
def find {α : Type} (cmp : α → α → Outcome Bool) (k : α) (t : Tree α) : Outcome (Option α) := do
  match ← lower cmp k t none with
  | none => pure none
  | some j =>
    let less ← cmp k j
    pure (if less then none else some j)

/-- `insert(k)`: walk down to a leaf, then compare with the key before that place, which is the last node that was left to the right. No tree: there is such a
key already. -/
def insert {α : Type} (cmp : α → α → Outcome Bool) (k : α) : Tree α → Option α → Outcome (Option (Tree α))
  | .leaf, none => .ok (some (.node .leaf k .leaf))
  | .leaf, some p => do
    let less ← cmp p k
    pure (if less then some (.node .leaf k .leaf) else none)
  | .node l x r, p => do
    let less ← cmp k x
    if less then do
      let l' ← insert cmp k l p
      pure (l'.map fun l' => .node l' x r)
    else do
      let r' ← insert cmp k r (some x)
      pure (r'.map fun r' => .node l x r')

/-- `__lower_bound(first, first + len, k)` in an array: an index. -/
def bisect {α : Type} (cmp : α → α → Outcome Bool) (xs : List α) (k : α) (first len : Nat) : Outcome Nat :=
  if _h : len = 0 then .ok first
  else
    match xs[first + len / 2]? with
    | none => .ub
    | some x => do
      let less ← cmp x k
      if less then bisect cmp xs k (first + len / 2 + 1) (len - len / 2 - 1) else bisect cmp xs k first (len / 2)
termination_by len
decreasing_by all_goals omega

/-- `std::binary_search(xs.begin(), xs.end(), k)`. -/
def binarySearch {α : Type} (cmp : α → α → Outcome Bool) (xs : List α) (k : α) : Outcome Bool := do
  let i ← bisect cmp xs k 0 xs.length
  match xs[i]? with
  | none => pure false
  | some x =>
    let less ← cmp k x
    pure !less

/-- `operator<` of `UUID`, src/uuid.cpp:87-89. -/
def uuidLess (a b : List Byte) : Outcome Bool := .ok (Uuid.lt a b)

/-- `operator<` of `Version`, version.hpp:135-137. -/
def versionLess (a b : Version) : Outcome Bool := .ok (Version.lt a b)

/-- `operator>` of `Version`, src/version.cpp:51-66, as `std::greater<>` calls it. -/
def versionGreater (a b : Version) : Outcome Bool := .ok (Version.gt a b)

/-- `operator<` of `StringView`, stringView.hpp:541-543, and of `String`, string.hpp:357-359. -/
def stringLess (a b : List Byte) : Outcome Bool := do
  let r ← StringView.compareTo a b
  pure (decide (r < 0))

/-- `operator<` of `Char`, char.hpp:103-105. -/
def charLess (big : Bool) (a b : Chr) : Outcome Bool := .ok (Chr.lt big a b)

end Solace.Ordered
