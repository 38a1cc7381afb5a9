import Verif.Model.MemoryView
/-
Model of `ArrayView<T>` (/repo/include/solace/arrayView.hpp). A view is an address and the bytes it spans; an element is the
`sz = sizeof(T)` bytes it occupies, and `==` of elements is an arbitrary function `eq` (floating point numbers have one that
is not reflexive). Alignment is in Model/Alignment; here the memory is suitably aligned for `T` at element boundaries.
`emplace`, `emplaceAll` and the lifetimes of elements are in `Verif.Model.Array`.
-/
namespace Solace

structure ArrayView where
  address : Nat
  mem : List Byte
deriving DecidableEq, Repr

namespace ArrayView

/-- `size`, arrayView.hpp:161-163. -/
def size (sz : Nat) (v : ArrayView) : Nat := v.mem.length / sz

/-- `*(begin() + i)`, arrayView.hpp:180-194. -/
def cell (sz : Nat) (v : ArrayView) (i : Nat) : List Byte := (v.mem.drop (i * sz)).take sz

/-- `operator[]`, arrayView.hpp:166-177, with `dataAs<T>(offset)`, memoryView.hpp:196-200. -/
def index (sz : Nat) (v : ArrayView) (index : Nat) : Outcome (List Byte) :=
  if size sz v ≤ index then .throws
  else if wrap64 (wrap64 (sz * index) + sz) ≤ v.mem.length then .ok ((v.mem.drop (wrap64 (sz * index))).take sz)
  else .throws

/-- The loop of `equals`, arrayView.hpp:111-120, over the two ranges of elements. -/
def equalsLoop (eq : List Byte → List Byte → Bool) : List (List Byte) → List (List Byte) → Bool
  | a :: as, b :: bs => if !eq a b then false else equalsLoop eq as bs
  | _, _ => true

/-- The elements from `begin()` to `end()`. -/
def cells (sz : Nat) (v : ArrayView) : List (List Byte) := (List.range (size sz v)).map (cell sz v)

/-- `equals`, arrayView.hpp:102-123. `&other == this` implies that the addresses are the same. -/
def equals (sz : Nat) (eq : List Byte → List Byte → Bool) (a b : ArrayView) : Bool :=
  if size sz a ≠ size sz b then false
  else if a.address = b.address then true
  else equalsLoop eq (cells sz a) (cells sz b)

/-- The loop of `indexOf`, arrayView.hpp:260-264. -/
def indexOfLoop (eq : List Byte → List Byte → Bool) (value : List Byte) : List (List Byte) → Nat → Option Nat
  | [], _ => none
  | c :: cs, i => if eq value c then some i else indexOfLoop eq value cs (i + 1)

/-- `indexOf`, arrayView.hpp:258-268. -/
def indexOf (sz : Nat) (eq : List Byte → List Byte → Bool) (v : ArrayView) (value : List Byte) : Option Nat :=
  indexOfLoop eq value (cells sz v) 0

/-- `contains`, arrayView.hpp:254-256. -/
def contains (sz : Nat) (eq : List Byte → List Byte → Bool) (v : ArrayView) (value : List Byte) : Bool :=
  (indexOf sz eq v value).isSome

/-- `slice(from, to) const` of an `ArrayView<T const>`, arrayView.hpp:198-201: by `MemoryView::slice`. -/
def slice (sz : Nat) (v : ArrayView) (from_ to : Nat) : ArrayView :=
  ⟨v.address + min (wrap64 (from_ * sz)) v.mem.length, MemoryView.slice v.mem (wrap64 (from_ * sz)) (wrap64 (to * sz))⟩

/-- `slice(from, to)` of an `ArrayView<T>`, arrayView.hpp:203-205: by `MutableMemoryView::slice`. -/
def sliceMut (sz : Nat) (v : ArrayView) (from_ to : Nat) : ArrayView :=
  let r := MutableMemoryView.slice v.mem.length (wrap64 (from_ * sz)) (wrap64 (to * sz))
  ⟨v.address + r.1, (v.mem.drop r.1).take r.2⟩

/-- Assigning to `*(begin() + i)`. -/
def store (sz : Nat) (v : ArrayView) (i : Nat) (e : List Byte) : ArrayView :=
  { v with mem := v.mem.take (i * sz) ++ e ++ v.mem.drop (i * sz + sz) }

/-- `set(index, f)`, arrayView.hpp:211-217, where `f()` gives `e`. -/
def set (sz : Nat) (v : ArrayView) (index : Nat) (e : List Byte) : ArrayView × Outcome Unit :=
  if size sz v ≤ index then (v, .throws)
  else if wrap64 (wrap64 (sz * index) + sz) ≤ v.mem.length then
    ({ v with mem := v.mem.take (wrap64 (sz * index)) ++ e ++ v.mem.drop (wrap64 (sz * index) + sz) }, .ok ())
  else (v, .throws)

/-- Going over the elements `i`, `i + 1`, ... (`k` of them), assigning `f i x` to element `i`, which was `x`. -/
def updateLoop (sz : Nat) (f : Nat → List Byte → List Byte) : Nat → Nat → ArrayView → ArrayView
  | 0, _, v => v
  | k + 1, i, v => updateLoop sz f k (i + 1) (store sz v i (f i (cell sz v i)))

/-- `fill(value)`, arrayView.hpp:278-284. -/
def fill (sz : Nat) (v : ArrayView) (value : List Byte) : ArrayView := updateLoop sz (fun _ _ => value) (size sz v) 0 v

/-- `fill(f)`, arrayView.hpp:286-297. -/
def fillWith (sz : Nat) (v : ArrayView) (f : Nat → List Byte) : ArrayView := updateLoop sz (fun i _ => f i) (size sz v) 0 v

/-- `forEach(f)` with `f : T& -> void`, arrayView.hpp:304-315; `f` replaces the element. -/
def forEach (sz : Nat) (v : ArrayView) (f : List Byte → List Byte) : ArrayView := updateLoop sz (fun _ x => f x) (size sz v) 0 v

/-- `forEach(f)` with `f : (size_type, T&) -> void`, arrayView.hpp:343-356: `for (auto item : *this)` makes a copy of each
element, and `f` changes the copy. Result: the array and what became of the copies. -/
def forEachIndexed (sz : Nat) (v : ArrayView) (f : Nat → List Byte → List Byte) : ArrayView × List (List Byte) :=
  (v, (List.range (size sz v)).map fun i => f i (cell sz v i))

end ArrayView
end Solace
