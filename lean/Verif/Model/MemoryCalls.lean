import Verif.Model.ViewObject
import Verif.Model.ByteWriter
/-
The calls the library makes to `memcpy`, `memmove`, `memset`, `memcmp` and `strncmp`, with the addresses given. The C standard
(C17 7.24.1p2) requires valid pointers even when no byte is to be copied or compared, and `memcpy` (7.24.2.1) regions that do not
overlap. The other models treat a call for zero bytes as doing nothing; here the calls themselves are recorded.

Views are `ViewObj.View` (address and size, 0 is the null pointer); string views have the same shape.
-/
namespace Solace.MemCalls
open ViewObj (View)

inductive Fn where
  | memcpy | memmove | memset | memcmp | strncmp
deriving DecidableEq, Repr

/-- A call: the first and the second pointer (`memset` has only one, given twice) and the number of bytes. -/
structure Call where
  fn : Fn
  a : Nat
  b : Nat
  n : Nat
deriving DecidableEq, Repr

/-- `MemoryView::equals`, /repo/src/memoryView.cpp:82-93. The test `&other == this` implies equal addresses. -/
def equals (v u : View) : List Call :=
  if v.size ≠ u.size then []
  else if v.addr = u.addr then []
  else [⟨.memcmp, v.addr, u.addr, v.size⟩]

/-- `MutableMemoryView::write`, /repo/src/mutableMemoryView.cpp:39-59. -/
def write (v src : View) : List Call :=
  if v.addr = 0 then []
  else if src.size > v.size then []
  else if src.size > 0 then [⟨.memmove, v.addr, src.addr, src.size⟩]
  else []

/-- `MutableMemoryView::read`, /repo/src/mutableMemoryView.cpp:62-73. -/
def read (v dest : View) : List Call :=
  if v.size < dest.size then [] else [⟨.memmove, dest.addr, v.addr, dest.size⟩]

/-- `MutableMemoryView::fill`, /repo/src/mutableMemoryView.cpp:76-81. -/
def fill (v : View) : List Call := [⟨.memset, v.addr, v.addr, v.size⟩]

/-- A reader or writer: its storage, `_position` and `_limit`. -/
structure Stream where
  storage : View
  position : Nat
  limit : Nat
deriving DecidableEq, Repr

/-- `MemoryView::slice` and `MutableMemoryView::slice` as address and size (/repo/src/memoryView.cpp:50-59,
/repo/src/mutableMemoryView.cpp:84-100). The assertion in the constructor of the slice is `ViewObj.slice`. -/
def sliceConst (v : View) (from_ to : Nat) : View :=
  let f := min from_ v.size
  let t := min v.size (max to f)
  ⟨v.addr + f, t - f⟩

def sliceMut (v : View) (from_ to : Nat) : View :=
  if from_ = to then ⟨v.addr, 0⟩
  else
    let f := min from_ v.size
    let t := min (max to f) v.size
    ⟨v.addr + f, t - f⟩

/-- `ByteReader::read(dest, n)`, /repo/src/byteReader.cpp:84-99: the calls and whether it succeeds. `_storage.view()` of a
`ByteReader` that is not const is a `MutableMemoryView` (/repo/include/solace/memoryResource.hpp:97-98). -/
def readerRead (s : Stream) (dest : View) : List Call × Bool :=
  if sub64 s.limit s.position < dest.size then ([], false)
  else
    let src := sliceMut s.storage s.position (wrap64 (s.position + dest.size))
    if src.size < dest.size then ([], false) else ([⟨.memmove, dest.addr, src.addr, dest.size⟩], true)

/-- `ByteReader::read(offset, dest) const`, /repo/src/byteReader.cpp:102-122. -/
def readerReadAt (s : Stream) (offset : Nat) (dest : View) : List Call × Bool :=
  if s.limit < wrap64 (offset + dest.size) then ([], false)
  else
    let src := sliceConst s.storage offset (wrap64 (offset + dest.size))
    if src.size < dest.size then ([], false) else ([⟨.memmove, dest.addr, src.addr, dest.size⟩], true)

/-- `ByteWriter::write(src, n)`, /repo/src/byteWriter.cpp:66-81: the calls and whether the copy is made. -/
def writerWrite (s : Stream) (src : View) : List Call × Bool :=
  if src.size = 0 then ([], true)
  else
    let d := sliceMut s.storage s.position (wrap64 (s.position + src.size))
    if d.size < src.size then ([], false) else ([⟨.memmove, d.addr, src.addr, src.size⟩], true)

/-- `StringView::compareTo`, /repo/src/stringView.cpp:55-68. -/
def compareTo (s x : View) : List Call := if s.size = x.size then [⟨.strncmp, s.addr, x.addr, s.size⟩] else []

/-- `ErrorString(view)`, /repo/src/errorString.cpp:44-49; `message` is what `calloc` returned, the size is a `uint16`. -/
def errorString (message : Nat) (view : View) : List Call := [⟨.memcpy, message, view.addr, view.size⟩]

/-- `StringWriter::append(StringView)`, /repo/src/errorString.cpp:79-86; `room` is `remaining()`. An offset added to the null
pointer is not a valid pointer: it is recorded as null. -/
def writerAppend (buffer offset room : Nat) (data : View) : List Call :=
  [⟨.memcpy, if buffer = 0 then 0 else buffer + offset, data.addr, min data.size room⟩]

/-- The copying constructors of `UUID`, /repo/src/uuid.cpp:36-48, of an object at `self` from 16 bytes at `from_`. -/
def uuidCopy (self from_ : Nat) : List Call := [⟨.memcpy, self, from_, 16⟩]

/-- `UUID::equals` and `operator<`, /repo/src/uuid.cpp:67-69, 87-89. -/
def uuidCompare (a b : Nat) : List Call := [⟨.memcmp, a, b, 16⟩]

/-- `while (inputLen >= 64)` of the three update functions (/repo/src/hashing/md5.cpp:170-174, sha1.cpp:206-210,
sha2.cpp:171-175), without the compression. -/
def skipBlocks (input len : Nat) : Nat × Nat := if 64 ≤ len then skipBlocks (input + 64) (len - 64) else (input, len)
termination_by len

/-- `md5_update`, `sha1_update` and `sha256_update` (/repo/src/hashing/md5.cpp:146-180, sha1.cpp:184-216, sha2.cpp:150-181):
`buffer` is the address of `ctx.buffer`, `left` the number of bytes in it. -/
def hashUpdate (buffer left : Nat) (input : View) : List Call :=
  if input.size = 0 then []
  else
    let fill := 64 - left
    let full := left ≠ 0 ∧ input.size ≥ fill
    let first : List Call := if full then [⟨.memcpy, buffer + left, input.addr, fill⟩] else []
    let r := if full then skipBlocks (input.addr + fill) (input.size - fill) else skipBlocks input.addr input.size
    let left' := if full then 0 else left
    first ++ (if r.2 > 0 then [⟨.memcpy, buffer + left', r.1, r.2⟩] else [])

end Solace.MemCalls
