import Verif.Model.Ordered
/-
The heap sort of libstdc++ (`bits/stl_heap.h`), with which `std::sort` sorts a range that it has partitioned too often: `__partial_sort(first, last, last)`, which makes
a heap of the range and takes the greatest element off it until it is empty. Elements of the range are counted from its first, which is at index `base` of the array.
-/
namespace Solace.Sorting

/-- `*(first + i) = v`. -/
def store {α : Type} (xs : List α) (i : Nat) (v : α) : Outcome (List α) := if i < xs.length then .ok (xs.set i v) else .ub

/-- `__push_heap(first, hole, top, value)`. -/
def pushHeap {α : Type} (cmp : α → α → Outcome Bool) (base top : Nat) (value : α) (xs : List α) (hole : Nat) : Outcome (List α) :=
  if _h : top < hole then
    match xs[base + (hole - 1) / 2]? with
    | none => .ub
    | some x => do
      let less ← cmp x value
      if less then do
        let ys ← store xs (base + hole) x
        pushHeap cmp base top value ys ((hole - 1) / 2)
      else store xs (base + hole) value
  else store xs (base + hole) value
termination_by hole
decreasing_by omega

/-- The loop of `__adjust_heap(first, hole, len, value)` and what follows it: the hole goes down to a leaf. -/
def walkDown {α : Type} (cmp : α → α → Outcome Bool) (base len : Nat) (xs : List α) (hole : Nat) : Outcome (List α × Nat) :=
  if _h : hole < (len - 1) / 2 then
    match xs[base + 2 * (hole + 1)]?, xs[base + (2 * (hole + 1) - 1)]? with
    | some r, some l => do
      let less ← cmp r l
      if less then do
        let ys ← store xs (base + hole) l
        walkDown cmp base len ys (2 * (hole + 1) - 1)
      else do
        let ys ← store xs (base + hole) r
        walkDown cmp base len ys (2 * (hole + 1))
    | _, _ => .ub
  else if len % 2 = 0 ∧ 2 * hole + 2 = len then
    match xs[base + (2 * (hole + 1) - 1)]? with
    | some l => do
      let ys ← store xs (base + hole) l
      pure (ys, 2 * (hole + 1) - 1)
    | none => .ub
  else pure (xs, hole)
termination_by len - hole
decreasing_by all_goals omega

/-- `__adjust_heap`. -/
def adjustHeap {α : Type} (cmp : α → α → Outcome Bool) (base top len : Nat) (value : α) (xs : List α) : Outcome (List α) := do
  let r ← walkDown cmp base len xs top
  pushHeap cmp base top value r.1 r.2

/-- The loop of `__make_heap`: the parents before `n`, the last one first. -/
def makeHeapLoop {α : Type} (cmp : α → α → Outcome Bool) (base len : Nat) : Nat → List α → Outcome (List α)
  | 0, xs => pure xs
  | parent + 1, xs =>
    match xs[base + parent]? with
    | none => .ub
    | some v => do
      let ys ← adjustHeap cmp base parent len v xs
      makeHeapLoop cmp base len parent ys

/-- `__make_heap`. -/
def makeHeap {α : Type} (cmp : α → α → Outcome Bool) (base len : Nat) (xs : List α) : Outcome (List α) :=
  if len < 2 then pure xs else makeHeapLoop cmp base len ((len - 2) / 2 + 1) xs

/-- `__sort_heap`, with `__pop_heap`. -/
def sortHeap {α : Type} (cmp : α → α → Outcome Bool) (base : Nat) : Nat → List α → Outcome (List α)
  | 0, xs => pure xs
  | 1, xs => pure xs
  | n + 2, xs =>
    match xs[base + (n + 1)]?, xs[base]? with
    | some v, some x => do
      let ys ← store xs (base + (n + 1)) x
      let zs ← adjustHeap cmp base 0 (n + 1) v ys
      sortHeap cmp base (n + 1) zs
    | _, _ => .ub

/-- `__partial_sort(first, last, last)`. -/
def heapSort {α : Type} (cmp : α → α → Outcome Bool) (xs : List α) (first last : Nat) : Outcome (List α) := do
  let ys ← makeHeap cmp first (last - first) xs
  sortHeap cmp first (last - first) ys

end Solace.Sorting
