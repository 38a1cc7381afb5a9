import Verif.Model.Endian
/-
A record written field by field with a `ByteWriter` and read back field by field with a `ByteReader`, the caller stopping at the
first error: the way the two classes are meant to be used together (/repo/include/solace/byteWriter.hpp:215-256,
/repo/include/solace/byteReader.hpp:211-252). The library has no record type; the loops are the caller's.
-/
namespace Solace

/-- One field. `le`, `be`: an unsigned integer of `n` bytes for `writeLE`/`writeBE` (/repo/include/solace/byteWriter.hpp:238-256);
`host`: for the plain `write` overloads (lines 215-223); `raw`: a memory view (lines 232-234). Signed integers are cast to unsigned
ones of the same width in those lines. -/
inductive Item where
  | le (n v : Nat)
  | be (n v : Nat)
  | host (n v : Nat)
  | raw (bytes : List Byte)
deriving DecidableEq, Repr

namespace ByteWriter

/-- Write one field. -/
def put (big : Bool) (s : ByteWriter) : Item → Call
  | .le n v => s.writeLEInt big n v
  | .be n v => s.writeBEInt big n v
  | .host n v => s.write (hostRepr big n v)
  | .raw bs => s.write bs

/-- Write all fields, stopping at the first error. -/
def putAll (big : Bool) (s : ByteWriter) : List Item → Call
  | [] => (s, .ok ())
  | i :: is =>
    match s.put big i with
    | (s', .ok _) => putAll big s' is
    | (s', .error e) => (s', .error e)

end ByteWriter

namespace ByteReader

/-- Read one field into a variable whose contents were `old`. -/
def pull (big : Bool) (s : ByteReader) : Item → ByteReader × Except Err (Option Byte) × Item
  | .le n old => let (s', r, v) := s.readLEInt big n old; (s', r, .le n v)
  | .be n old => let (s', r, v) := s.readBEInt big n old; (s', r, .be n v)
  | .host n old => let (s', r, v) := (s.read (hostRepr big n old)).asInt big; (s', r, .host n v)
  | .raw old => let c := s.read old; (c.reader, c.ret, .raw c.dest)

/-- Read fields into the given variables until one read fails: the reader, the fields read, and how it ended. -/
def pullAll (big : Bool) (s : ByteReader) : List Item → ByteReader × List Item × Except Err Unit
  | [] => (s, [], .ok ())
  | i :: is =>
    match s.pull big i with
    | (s', .ok _, v) => let (s'', vs, e) := pullAll big s' is; (s'', v :: vs, e)
    | (s', .error e, _) => (s', [], .error e)

end ByteReader
end Solace
