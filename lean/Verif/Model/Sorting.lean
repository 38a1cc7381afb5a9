import Verif.Model.Ordered
/-
`std::sort` of libstdc++ (`bits/stl_algo.h`) on an array of values of the library.

Partitions around the median of three elements down to pieces of at most 16, then one insertion sort over the whole array. The heap sort of a range that is partitioned
too often (`__partial_sort`) is a parameter; HeapSort.lean has that of libstdc++. Elements are moved and copied without change; to read outside of the array is undefined behaviour.
-/
namespace Solace.Sorting
open Ordered

/-- `__unguarded_linear_insert`: the elements before the new one, the last of them first, are moved up as long as the new one is less. -/
def unguardedInsert {α : Type} (cmp : α → α → Outcome Bool) (val : α) : List α → Outcome (List α)
  | [] => .ub
  | x :: xs => do
    let less ← cmp val x
    if less then do
      let ys ← unguardedInsert cmp val xs
      pure (x :: ys)
    else pure (val :: x :: xs)

/-- One round of `__insertion_sort`: `pre` are the elements before the new one, in order. -/
def insertStep {α : Type} (cmp : α → α → Outcome Bool) (pre : List α) (val : α) : Outcome (List α) :=
  match pre with
  | [] => pure [val]
  | first :: _ => do
    let less ← cmp val first
    if less then pure (val :: pre)
    else do
      let ys ← unguardedInsert cmp val pre.reverse
      pure ys.reverse

/-- `__insertion_sort`. -/
def insertionSort {α : Type} (cmp : α → α → Outcome Bool) : List α → List α → Outcome (List α)
  | pre, [] => pure pre
  | pre, x :: xs => do
    let pre' ← insertStep cmp pre x
    insertionSort cmp pre' xs

/-- `std::iter_swap`. -/
def exchange {α : Type} (xs : List α) (i j : Nat) : Outcome (List α) :=
  match xs[i]?, xs[j]? with
  | some a, some b => .ok ((xs.set i b).set j a)
  | _, _ => .ub

/-- `__move_median_to_first(result, a, b, c)`: indices. -/
def medianToFirst {α : Type} (cmp : α → α → Outcome Bool) (xs : List α) (result a b c : Nat) : Outcome (List α) :=
  match xs[a]?, xs[b]?, xs[c]? with
  | some va, some vb, some vc => do
    let ab ← cmp va vb
    if ab then do
      let bc ← cmp vb vc
      if bc then exchange xs result b
      else do
        let ac ← cmp va vc
        if ac then exchange xs result c else exchange xs result a
    else do
      let ac ← cmp va vc
      if ac then exchange xs result a
      else do
        let bc ← cmp vb vc
        if bc then exchange xs result c else exchange xs result b
  | _, _, _ => .ub

/-- `while (comp(first, pivot)) ++first;`: the index it stops at. The fuel is the number of elements from `first` on, and one more. -/
def scanUp {α : Type} (cmp : α → α → Outcome Bool) (xs : List α) (pivot : α) : Nat → Nat → Outcome Nat
  | 0, _ => .ub
  | fuel + 1, first =>
    match xs[first]? with
    | none => .ub
    | some x => do
      let less ← cmp x pivot
      if less then scanUp cmp xs pivot fuel (first + 1) else pure first

/-- `--last; while (comp(pivot, last)) --last;`: the index it stops at; `last` elements are before it. -/
def scanDown {α : Type} (cmp : α → α → Outcome Bool) (xs : List α) (pivot : α) : Nat → Outcome Nat
  | 0 => .ub
  | last + 1 =>
    match xs[last]? with
    | none => .ub
    | some x => do
      let less ← cmp pivot x
      if less then scanDown cmp xs pivot last else pure last

/-- `__unguarded_partition(first, last, pivot)`, with the pivot at index `p`: the array, and the index of the cut. The fuel bounds the rounds, each of which takes
`first` one element further. -/
def partition {α : Type} (cmp : α → α → Outcome Bool) (p : Nat) : Nat → List α → Nat → Nat → Outcome (List α × Nat)
  | 0, _, _, _ => .ub
  | fuel + 1, xs, first, last =>
    match xs[p]? with
    | none => .ub
    | some pivot => do
      let i ← scanUp cmp xs pivot (xs.length - first + 1) first
      let j ← scanDown cmp xs pivot last
      if j ≤ i then pure (xs, i)
      else do
        let ys ← exchange xs i j
        partition cmp p fuel ys (i + 1) j

/-- `__introsort_loop(first, last, depth_limit)`: its loop goes on with the elements before the cut. -/
def introsort {α : Type} (cmp : α → α → Outcome Bool) (heap : List α → Nat → Nat → Outcome (List α)) : Nat → Nat → Nat → List α → Outcome (List α)
  | depth, first, last, xs =>
    if last - first ≤ 16 then pure xs
    else
      match depth with
      | 0 => heap xs first last
      | depth + 1 => do
        let ys ← medianToFirst cmp xs first (first + 1) (first + (last - first) / 2) (last - 1)
        let r ← partition cmp first (ys.length + 1) ys (first + 1) last
        let zs ← introsort cmp heap depth r.2 last r.1
        introsort cmp heap depth first r.2 zs

/-- `__unguarded_insertion_sort`. -/
def unguardedSort {α : Type} (cmp : α → α → Outcome Bool) : List α → List α → Outcome (List α)
  | pre, [] => pure pre
  | pre, x :: xs => do
    let ys ← unguardedInsert cmp x pre.reverse
    unguardedSort cmp ys.reverse xs

/-- `__final_insertion_sort`. -/
def finalSort {α : Type} (cmp : α → α → Outcome Bool) (xs : List α) : Outcome (List α) :=
  if 16 < xs.length then do
    let pre ← insertionSort cmp [] (xs.take 16)
    unguardedSort cmp pre (xs.drop 16)
  else insertionSort cmp [] xs

/-- `std::sort(xs.begin(), xs.end())`. -/
def sort {α : Type} (cmp : α → α → Outcome Bool) (heap : List α → Nat → Nat → Outcome (List α)) (xs : List α) : Outcome (List α) := do
  let ys ← introsort cmp heap (2 * Nat.log2 xs.length) 0 xs.length xs
  finalSort cmp ys

end Solace.Sorting
