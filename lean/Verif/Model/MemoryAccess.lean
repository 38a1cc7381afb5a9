import Verif.Model.ByteWriter
/-
Address-level model of `MemoryView` and `MutableMemoryView` (/repo/include/solace/memoryView.hpp, mutableMemoryView.hpp,
/repo/src/mutableMemoryView.cpp): views are windows of one memory block, so they may overlap. Alignment of typed access is in
Model/Alignment. Reading or writing outside the block is `ub`.
-/
namespace Solace

/-- A view: where it begins in the block (`_dataAddress`) and `_size`. -/
structure Window where
  off : Nat
  size : Nat
deriving DecidableEq, Repr

namespace Window

/-- The constructor was given memory that exists. -/
def In (w : Window) (m : List Byte) : Prop := w.off + w.size ≤ m.length

/-- What the view shows. -/
def bytes (w : Window) (m : List Byte) : List Byte := (m.drop w.off).take w.size

/-- `n` bytes read through a pointer. -/
def load (m : List Byte) (addr n : Nat) : Outcome (List Byte) :=
  if addr + n ≤ m.length then .ok ((m.drop addr).take n) else .ub

/-- `offsetAddress`, memoryView.hpp:177-183: an address, as an offset in the block. -/
def offsetAddress (w : Window) (offset : Nat) : Option Nat := if offset > w.size then none else some (w.off + offset)

/-- `dataAs<T>()`, memoryView.hpp:187-192: the object representation found there; `sz = sizeof(T)`. -/
def dataAs (sz : Nat) (w : Window) (m : List Byte) : Outcome (List Byte) :=
  if sz ≤ w.size then load m w.off sz else .throws

/-- `dataAs<T>(offset)`, memoryView.hpp:195-200: `offset + sizeof(T)` is computed in `size_t`. -/
def dataAsAt (sz : Nat) (w : Window) (m : List Byte) (offset : Nat) : Outcome (List Byte) :=
  if wrap64 (offset + sz) ≤ w.size then load m (w.off + offset) sz else .throws

/-- `MutableMemoryView::slice`, mutableMemoryView.cpp:84-100. -/
def slice (w : Window) (from_ to : Nat) : Window :=
  let r := MutableMemoryView.slice w.size from_ to
  ⟨w.off + r.1, r.2⟩

/-- `fill(value)`, mutableMemoryView.cpp:76-81. -/
def fill (w : Window) (m : List Byte) (value : Byte) : List Byte := ByteWriter.overwrite m w.off (List.replicate w.size value)

/-- `fill(value, from, to)`, mutableMemoryView.hpp:173-176. -/
def fillRange (w : Window) (m : List Byte) (value : Byte) (from_ to : Nat) : List Byte := (w.slice from_ to).fill m value

/-- `write(source)`, mutableMemoryView.cpp:39-59, for a view that is not null: `memmove` copies as if through a temporary
array, so the source may overlap. Result: the block and the returned value. -/
def write (w : Window) (m : List Byte) (source : Window) : List Byte × Except Err Unit :=
  if source.size > w.size then (m, .error .dom)
  else (ByteWriter.overwrite m w.off (source.bytes m), .ok ())

/-- `read(dest)`, mutableMemoryView.cpp:62-73. -/
def read (w : Window) (m : List Byte) (dest : Window) : List Byte × Except Err Unit :=
  if w.size < dest.size then (m, .error .overflow)
  else (ByteWriter.overwrite m dest.off ((w.bytes m).take dest.size), .ok ())

/-- `construct<T>(args...)`, mutableMemoryView.hpp:190-198: `value` is the object representation of the new object. -/
def construct (sz : Nat) (w : Window) (m value : List Byte) : Outcome (List Byte) :=
  if sz ≤ w.size then .ok (ByteWriter.overwrite m w.off (value.take sz)) else .throws

end Window
end Solace
