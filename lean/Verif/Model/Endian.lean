import Verif.Model.ByteWriter
/-
Object representation of unsigned integers on a host of either byte order, and the typed `writeLE`/`readLE` calls built
on the byte-level model. Signed overloads reinterpret the same bytes (/repo/include/solace/byteReader.hpp:237-253,
/repo/include/solace/byteWriter.hpp:238-254).
-/
namespace Solace

/-- The bytes of `v`, least significant first. -/
def leRepr : (n : Nat) → Nat → List Byte
  | 0, _ => []
  | n + 1, v => BitVec.ofNat 8 v :: leRepr n (v / 256)

/-- The object representation of the `n`-byte integer `v` on the host: memory layout assumption of the C++
implementation. -/
def hostRepr (big : Bool) (n v : Nat) : List Byte :=
  if big then (leRepr n v).reverse else leRepr n v

/-- Value of bytes, least significant first. -/
def leValue : List Byte → Nat
  | [] => 0
  | b :: bs => b.toNat + 256 * leValue bs

/-- The value of an integer variable whose object representation is `bs`. -/
def hostValue (big : Bool) (bs : List Byte) : Nat :=
  if big then leValue bs.reverse else leValue bs

/-- `writeLE(uintN value)`, N = 8n. -/
def ByteWriter.writeLEInt (big : Bool) (n : Nat) (s : ByteWriter) (v : Nat) : ByteWriter.Call :=
  if n = 1 then s.write (hostRepr big 1 v) else s.writeLE big (hostRepr big n v)

/-- `writeBE(uintN value)`, N = 8n. -/
def ByteWriter.writeBEInt (big : Bool) (n : Nat) (s : ByteWriter) (v : Nat) : ByteWriter.Call :=
  if n = 1 then s.write (hostRepr big 1 v) else s.writeBE big (hostRepr big n v)

/-- What the caller sees of a read into an integer variable: reader, result, value of the variable. -/
def ReadCall.asInt (big : Bool) (r : ReadCall) : ByteReader × Except Err (Option Byte) × Nat :=
  (r.reader, r.ret, hostValue big r.dest)

/-- `readLE(uintN& value)`, N = 8n, `old` the value of the variable before the call. -/
def ByteReader.readLEInt (big : Bool) (n : Nat) (s : ByteReader) (old : Nat) :
    ByteReader × Except Err (Option Byte) × Nat :=
  (if n = 1 then s.read (hostRepr big 1 old) else s.readLE big (hostRepr big n old)).asInt big

/-- `readBE(uintN& value)`, N = 8n. -/
def ByteReader.readBEInt (big : Bool) (n : Nat) (s : ByteReader) (old : Nat) :
    ByteReader × Except Err (Option Byte) × Nat :=
  (if n = 1 then s.read (hostRepr big 1 old) else s.readBE big (hostRepr big n old)).asInt big

end Solace
