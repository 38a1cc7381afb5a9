import Verif.Model.Basic
/-
Model of `MemoryView` and `MutableMemoryView`.

A view is the list of bytes it spans. The address is not modelled, except for the distinction null / not null that
`MutableMemoryView::write` makes. `equals` therefore has no address shortcut: the shortcut returns `true` for the same
address and size, where the contents are the same bytes.
-/
namespace Solace

/-- `MemoryView::slice`, /repo/src/memoryView.cpp:50-59. -/
def MemoryView.slice (v : List Byte) (from_ to : Nat) : List Byte :=
  let thisSize := v.length
  let f := min from_ thisSize
  let t := min thisSize (max to f)
  let newSize := t - f
  (v.drop f).take newSize

/-- `MemoryView::operator[]`, /repo/src/memoryView.cpp:42-47: `assertIndexInRange` throws. -/
def MemoryView.at (v : List Byte) (i : Nat) : Outcome Byte :=
  match v[i]? with
  | some b => .ok b
  | none => .throws

/-- `MemoryView::equals`, /repo/src/memoryView.cpp:82-93; `memcmp` by its contract. -/
def MemoryView.equals (a b : List Byte) : Bool :=
  if a.length ≠ b.length then false else a == b

/-- `MemoryView::sliceFor<T>(offset, count)`, /repo/include/solace/memoryView.hpp:220-223;
the products are computed in `size_t`. -/
def MemoryView.sliceFor (size : Nat) (v : List Byte) (offset count : Nat) : List Byte :=
  slice v (wrap64 (offset * size)) (wrap64 (wrap64 (offset + count) * size))

/-- `MutableMemoryView::slice`, /repo/src/mutableMemoryView.cpp:84-100. The result is given as offset and size, because
the slice aliases the original memory. -/
def MutableMemoryView.slice (size from_ to : Nat) : Nat × Nat :=
  if from_ = to then (0, 0) else
    let f := min from_ size
    let t := min (max to f) size
    (f, t - f)

/-- A mutable view: null pointer (size 0) or some bytes. A non-null view may also be empty. -/
structure MutView where
  null : Bool
  bytes : List Byte
deriving DecidableEq, Repr

/-- `MemoryView` constructor assertion, /repo/include/solace/memoryView.hpp:98-103: a null pointer has size 0. -/
def MutView.Valid (v : MutView) : Prop := v.null = true → v.bytes = []

/-- `MutableMemoryView::write`, /repo/src/mutableMemoryView.cpp:39-59. Result: the bytes of the view afterwards and the
returned value. `source` does not overlap the view (the code uses `memmove`, so overlap would also be defined). -/
def MutView.write (v : MutView) (source : List Byte) : MutView × Except Err Unit :=
  if v.null then (v, .error .dom)
  else if source.length > v.bytes.length then (v, .error .dom)
  else ({ v with bytes := source ++ v.bytes.drop source.length }, .ok ())

/-- `MutableMemoryView::read`, /repo/src/mutableMemoryView.cpp:62-73. Result: destination bytes afterwards. -/
def MutView.read (v dest : MutView) : MutView × Except Err Unit :=
  if v.bytes.length < dest.bytes.length then (dest, .error .overflow)
  else ({ dest with bytes := v.bytes.take dest.bytes.length }, .ok ())

/-- `MutableMemoryView::fill`, /repo/src/mutableMemoryView.cpp:76-81. -/
def MutView.fill (v : MutView) (value : Byte) : MutView :=
  { v with bytes := List.replicate v.bytes.length value }

end Solace
