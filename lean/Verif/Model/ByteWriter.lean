import Verif.Model.ByteReader
/-
Model of `ByteWriter`, /repo/src/byteWriter.cpp and /repo/include/solace/byteWriter.hpp.
Same simplifications as `Verif.Model.ByteReader`; the data to write does not overlap the storage.
-/
namespace Solace

/-- `_storage`, `_position`, `_limit`: /repo/include/solace/byteWriter.hpp:262-265. -/
structure ByteWriter where
  data : List Byte
  position : Nat
  limit : Nat
deriving DecidableEq, Repr

namespace ByteWriter

/-- Result of a call: the writer afterwards and the returned value. -/
abbrev Call := ByteWriter × Except Err Unit

/-- Constructor over a buffer: position 0, limit = size (/repo/include/solace/byteWriter.hpp:60-77). -/
def ofBuffer (data : List Byte) : ByteWriter := { data, position := 0, limit := data.length }

/-- `capacity()`, /repo/include/solace/byteWriter.hpp:124. -/
abbrev capacity (s : ByteWriter) : Nat := s.data.length

/-- `remaining()`, `limit() - position()` in `size_t`: /repo/include/solace/byteWriter.hpp:146. -/
def remaining (s : ByteWriter) : Nat := sub64 s.limit s.position

/-- `viewWritten()`, /repo/include/solace/byteWriter.hpp:206-212. -/
def viewWritten (s : ByteWriter) : List Byte := MemoryView.slice s.data 0 s.position

/-- `viewRemaining()`, /repo/include/solace/byteWriter.hpp:198-204. -/
def viewRemaining (s : ByteWriter) : List Byte := MemoryView.slice s.data s.position s.limit

/-- `limit(newLimit)`, /repo/src/byteWriter.cpp:30-39. -/
def setLimit (s : ByteWriter) (n : Nat) : Call :=
  if s.capacity < n then (s, .error .overflow) else ({ s with limit := n }, .ok ())

/-- `position(newPosition)`, /repo/src/byteWriter.cpp:42-51. -/
def setPosition (s : ByteWriter) (n : Nat) : Call :=
  if s.limit < n then (s, .error .overflow) else ({ s with position := n }, .ok ())

/-- `advance(increment)`, /repo/src/byteWriter.cpp:54-63. -/
def advance (s : ByteWriter) (n : Nat) : Call :=
  if s.remaining < n then (s, .error .overflow)
  else ({ s with position := wrap64 (s.position + n) }, .ok ())

/-- `rewind()`, /repo/include/solace/byteWriter.hpp:112-116. -/
def rewind (s : ByteWriter) : Call := ({ s with position := 0 }, .ok ())

/-- `clear()`, /repo/include/solace/byteWriter.hpp:180-185. -/
def clear (s : ByteWriter) : Call := ({ s with position := 0, limit := s.capacity }, .ok ())

/-- `flip()`, /repo/include/solace/byteWriter.hpp:190-195. -/
def flip (s : ByteWriter) : Call := ({ s with limit := s.position, position := 0 }, .ok ())

/-- `memmove` of `src` to `data + off`; the caller has checked that it fits. -/
def overwrite (data : List Byte) (off : Nat) (src : List Byte) : List Byte :=
  data.take off ++ src ++ data.drop (off + src.length)

/-- `write(srcAddr, count)`, /repo/src/byteWriter.cpp:66-81 (all `write` overloads,
/repo/include/solace/byteWriter.hpp:215-234, pass the bytes of their argument). The storage slice is checked against
the capacity, the bytes are copied, and only then `advance` checks the limit. -/
def write (s : ByteWriter) (src : List Byte) : Call :=
  let count := src.length
  if count = 0 then (s, .ok ())
  else
    let (off, size) := MutableMemoryView.slice s.data.length s.position (wrap64 (s.position + count))
    if size < count then (s, .error .overflow)
    else { s with data := overwrite s.data off src }.advance count

/-- `writeLE` for 16, 32 and 64 bits, /repo/src/byteWriter.cpp:84-137: `value` is the object representation of the
argument on a host whose byte order is given by `big`. -/
def writeLE (big : Bool) (s : ByteWriter) (value : List Byte) : Call :=
  s.write (if big then ByteReader.swapBytes value else value)

/-- `writeBE` for 16, 32 and 64 bits, /repo/src/byteWriter.cpp:140-193. -/
def writeBE (big : Bool) (s : ByteWriter) (value : List Byte) : Call :=
  s.write (if !big then ByteReader.swapBytes value else value)

/-- A call of the public interface. 8-bit `writeLE`/`writeBE` are `write`. -/
inductive Op where
  | limit (n : Nat)
  | position (n : Nat)
  | advance (n : Nat)
  | rewind
  | clear
  | flip
  | write (src : List Byte)
  | writeLE (value : List Byte)
  | writeBE (value : List Byte)
deriving DecidableEq, Repr

/-- Perform one call. No call can throw. -/
def step (big : Bool) (s : ByteWriter) : Op → Call
  | .limit n => s.setLimit n
  | .position n => s.setPosition n
  | .advance n => s.advance n
  | .rewind => s.rewind
  | .clear => s.clear
  | .flip => s.flip
  | .write d => s.write d
  | .writeLE v => s.writeLE big v
  | .writeBE v => s.writeBE big v

/-- Perform a list of calls, ignoring returned values. -/
def run (big : Bool) (s : ByteWriter) (ops : List Op) : ByteWriter :=
  ops.foldl (fun s op => (step big s op).1) s

/-- Perform a list of `write` calls, collecting which succeeded. -/
def writeAll (s : ByteWriter) : List (List Byte) → ByteWriter × List Bool
  | [] => (s, [])
  | d :: ds =>
    let (s', r) := s.write d
    let (s'', rs) := s'.writeAll ds
    (s'', r.toBool :: rs)

end ByteWriter
end Solace
