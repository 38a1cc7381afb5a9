import Verif.Model.MemoryView
/-
Model of `ByteReader`, /repo/src/byteReader.cpp and /repo/include/solace/byteReader.hpp.

The storage is the list of its bytes; who owns it (`MemoryResource`) is not modelled here. Destinations of `read` do
not overlap the storage. Error texts are not modelled.
-/
namespace Solace

/-- `_storage`, `_position`, `_limit`: /repo/include/solace/byteReader.hpp:260-263. -/
structure ByteReader where
  data : List Byte
  position : Nat
  limit : Nat
deriving DecidableEq, Repr

/-- What a call leaves behind: the reader, the returned `Result` (with the byte returned by `get`), and the caller's
destination buffer (empty for calls that have none). -/
structure ReadCall where
  reader : ByteReader
  ret : Except Err (Option Byte)
  dest : List Byte
deriving DecidableEq, Repr

namespace ByteReader

/-- Constructor from a view, /repo/include/solace/byteReader.hpp:91-95. -/
def ofView (data : List Byte) : ByteReader := { data, position := 0, limit := data.length }

/-- `capacity()`, /repo/include/solace/byteReader.hpp:130. -/
abbrev capacity (s : ByteReader) : Nat := s.data.length

/-- `remaining()`, /repo/include/solace/byteReader.hpp:153: `limit() - position()` in `size_t`. -/
def remaining (s : ByteReader) : Nat := sub64 s.limit s.position

/-- `viewRemaining()`, /repo/include/solace/byteReader.hpp:220-222. -/
def viewRemaining (s : ByteReader) : List Byte := MemoryView.slice s.data s.position s.limit

/-- `limit(newLimit)`, /repo/src/byteReader.cpp:29-38. -/
def setLimit (s : ByteReader) (n : Nat) : ReadCall :=
  if s.capacity < n then ⟨s, .error .overflow, []⟩
  else ⟨{ s with limit := n }, .ok none, []⟩

/-- `position(newPosition)` and `reset(savedMark)`, /repo/src/byteReader.cpp:41-50,
/repo/include/solace/byteReader.hpp:165-168. -/
def setPosition (s : ByteReader) (n : Nat) : ReadCall :=
  if s.limit < n then ⟨s, .error .overflow, []⟩
  else ⟨{ s with position := n }, .ok none, []⟩

/-- `advance(increment)`, /repo/src/byteReader.cpp:53-62. -/
def advance (s : ByteReader) (n : Nat) : ReadCall :=
  if s.remaining < n then ⟨s, .error .overflow, []⟩
  else ⟨{ s with position := wrap64 (s.position + n) }, .ok none, []⟩

/-- `rewind()`, /repo/include/solace/byteReader.hpp:118-122. -/
def rewind (s : ByteReader) : ReadCall := ⟨{ s with position := 0 }, .ok none, []⟩

/-- `get()`, /repo/src/byteReader.cpp:65-72. The index assertion of `operator[]` throws inside a `noexcept`
function. -/
def get (s : ByteReader) : Outcome ReadCall :=
  if s.remaining < 1 then .ok ⟨s, .error .overflow, []⟩
  else (do
    let b ← MemoryView.at s.data s.position
    pure ⟨{ s with position := wrap64 (s.position + 1) }, .ok (some b), []⟩ : Outcome ReadCall).noexcept

/-- `get(pos)`, /repo/src/byteReader.cpp:74-81. -/
def getAt (s : ByteReader) (pos : Nat) : Outcome ReadCall :=
  if s.limit ≤ pos then .ok ⟨s, .error .overflow, []⟩
  else (do
    let b ← MemoryView.at s.data pos
    pure ⟨s, .ok (some b), []⟩ : Outcome ReadCall).noexcept

/-- `read(dest)`, /repo/src/byteReader.cpp:84-99 and /repo/include/solace/byteReader.hpp:211-214, also the typed `read`
overloads at 224-234 (`dest` is then the object representation of the variable). -/
def read (s : ByteReader) (dest : List Byte) : ReadCall :=
  let n := dest.length
  if s.remaining < n then ⟨s, .error .overflow, dest⟩
  else
    let src := MemoryView.slice s.data s.position (wrap64 (s.position + n))
    if src.length < n then ⟨s, .error .overflow, dest⟩
    else ⟨{ s with position := wrap64 (s.position + n) }, .ok none, src.take n⟩

/-- `read(offset, dest) const`, /repo/src/byteReader.cpp:102-122 (the test at 105-107 compares the size with
itself and never fires). -/
def readAt (s : ByteReader) (offset : Nat) (dest : List Byte) : ReadCall :=
  let n := dest.length
  let readEnd := wrap64 (offset + n)
  if s.limit < readEnd then ⟨s, .error .overflow, dest⟩
  else
    let src := MemoryView.slice s.data offset readEnd
    if src.length < n then ⟨s, .error .overflow, dest⟩
    else ⟨s, .ok none, src.take n⟩

/-- The byte swap `p[i] = v[valueSize - 1 - i]` written out in `readLE`/`readBE`/`writeLE`/`writeBE`. -/
def swapBytes (v : List Byte) : List Byte :=
  List.ofFn (n := v.length) fun i => v[v.length - 1 - i.val]'(by omega)

/-- The continuation `.then([&]() { if (swap) ... })` attached to `read` in `readLE`/`readBE`: on success, and if the
byte orders differ, the bytes of the variable are reversed. -/
def thenSwap (swap : Bool) (r : ReadCall) : ReadCall :=
  match r.ret with
  | .error _ => r
  | .ok _ => { r with dest := if swap then swapBytes r.dest else r.dest }

/-- `readLE` for 16, 32 and 64 bits, /repo/src/byteReader.cpp:125-177: `value` is the object representation of the
variable; `big` tells whether the host is big-endian (`isBigendian()`, /repo/src/memoryView.cpp:37-39). -/
def readLE (big : Bool) (s : ByteReader) (value : List Byte) : ReadCall := thenSwap big (s.read value)

/-- `readBE` for 16, 32 and 64 bits, /repo/src/byteReader.cpp:180-231. -/
def readBE (big : Bool) (s : ByteReader) (value : List Byte) : ReadCall := thenSwap (!big) (s.read value)

/-- A call of the public interface. 8-bit `readLE`/`readBE` (/repo/include/solace/byteReader.hpp:237-238, 246-247) are
`read`. -/
inductive Op where
  | limit (n : Nat)
  | position (n : Nat)
  | advance (n : Nat)
  | rewind
  | get
  | getAt (pos : Nat)
  | read (dest : List Byte)
  | readAt (offset : Nat) (dest : List Byte)
  | readLE (value : List Byte)
  | readBE (value : List Byte)
deriving DecidableEq, Repr

/-- Perform one call. -/
def step (big : Bool) (s : ByteReader) : Op → Outcome ReadCall
  | .limit n => .ok (s.setLimit n)
  | .position n => .ok (s.setPosition n)
  | .advance n => .ok (s.advance n)
  | .rewind => .ok s.rewind
  | .get => s.get
  | .getAt p => s.getAt p
  | .read d => .ok (s.read d)
  | .readAt o d => .ok (s.readAt o d)
  | .readLE v => .ok (s.readLE big v)
  | .readBE v => .ok (s.readBE big v)

/-- Perform a list of calls, ignoring returned values (errors are returned, not thrown, so the caller goes on). -/
def run (big : Bool) (s : ByteReader) : List Op → Outcome ByteReader
  | [] => .ok s
  | op :: ops => step big s op >>= fun r => run big r.reader ops

end ByteReader
end Solace
