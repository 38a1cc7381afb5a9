import Verif.Conformance.Basic
import Verif.Model.Endian
/-
/repo/test/test_byteReader.cpp and test_byteWriter.cpp.
-/
namespace Solace.Conformance.TestBuffers
open Solace

def isOk {ε α : Type} (r : Except ε α) : Bool := (ok? r).isSome

def bytes : List Byte := [0x61, 0x62, 0x63, 0x00, 0x64, 0x66, 0x67]
def r0 := ByteReader.ofView bytes

-- defaultConstructedBufferIsEmpty, constructFrom*, 28-57
#guard (ByteReader.ofView []).capacity = 0 && (ByteReader.ofView []).limit = 0 && (ByteReader.ofView []).position = 0
#guard r0.capacity = 7 && r0.limit = 7 && r0.position = 0
-- testPositioning, 60-81
#guard isOk (r0.setPosition 4).ret && (r0.setPosition 4).reader.position = 4
#guard isOk ((r0.setPosition 4).reader.setPosition 0).ret
#guard !isOk (r0.setPosition (7 + 3)).ret && (r0.setPosition (7 + 3)).reader.position = 0
#guard isOk (r0.advance 5).ret && (r0.advance 5).reader.position = 5
#guard isOk ((r0.advance 5).reader.setPosition 7).ret
#guard !isOk ((r0.setPosition 7).reader.advance 1).ret
-- testGetByte, 83-102
#guard (List.range 7).map (fun i => (val (r0.getAt i)).bind fun x => ok? x.ret) = bytes.map fun x => some (some x)
def getAll : Nat → ByteReader → List (Option Byte) × ByteReader
  | 0, r => ([], r)
  | n + 1, r => match r.get with
    | .ok x => let (vs, r') := getAll n x.reader; ((ok? x.ret).join :: vs, r')
    | _ => ([none], r)
#guard (getAll 7 r0).1 = bytes.map some && (getAll 7 r0).2.position = 7
#guard ((val (getAll 7 r0).2.get).map fun x => isOk x.ret) = some false
-- testByteRead, 105-122
def readOnes : Nat → ByteReader → List Byte × ByteReader
  | 0, r => ([], r)
  | n + 1, r => let x := r.read [0xCD#8]; let (vs, r') := readOnes n x.reader; (x.dest ++ vs, r')
#guard readOnes 7 r0 = (bytes, ⟨bytes, 7, 7⟩)
-- testReadIntoBuffer, 124-145
#guard (r0.read (List.replicate 3 0xCD#8)).dest = bytes.take 3 && (r0.read (List.replicate 3 0xCD#8)).reader.position = 3
#guard !isOk ((r0.read (List.replicate 3 0xCD#8)).reader.read (List.replicate 7 0xCD#8)).ret
-- testReadFromOffset, 147-172
#guard (r0.readAt 4 (List.replicate 3 0xCD#8)).dest = (bytes.drop 4).take 3
#guard isOk (r0.readAt 4 (List.replicate 3 0xCD#8)).ret && (r0.readAt 4 (List.replicate 3 0xCD#8)).reader.position = 0
#guard !isOk (r0.readAt (7 - 3) (List.replicate 12 0xCD#8)).ret
#guard !isOk (r0.readAt (7 + 3) (List.replicate 2 0xCD#8)).ret
-- readBigEndian, readLittleEndian, 175-240, on hosts of both byte orders
def be := ByteReader.ofView [0x84, 0x2d, 0xa3, 0x80, 0xe3, 0x42, 0x6d, 0xff]
def le := ByteReader.ofView [0x01, 0x04, 0x00, 0x00, 0xe3, 0x42, 0x6d, 0xff]
#guard [false, true].all fun big => [1, 2, 4, 8].map (fun n => (be.readBEInt big n 77).2.2) = [0x84, 0x842d, 0x842da380, 0x842da380e3426dff]
#guard [false, true].all fun big => [1, 2, 4, 8].map (fun n => (le.readLEInt big n 77).2.2) = [0x01, 1025, 1025, 0xff6d42e300000401]

-- ByteWriter: testPositioning, 28-50
def w0 := ByteWriter.ofBuffer (List.replicate 12 0xCD#8)
#guard w0.capacity = 12 && w0.limit = 12 && w0.position = 0
#guard isOk (w0.setPosition 12).2 && isOk (w0.advance 12).2
#guard ((List.range 12).foldl (fun w _ => (ByteWriter.advance w 1).1) w0).position = 12
#guard !isOk (w0.setPosition 13).2
#guard !isOk ((w0.setPosition 12).1.advance 1).2
-- testWrite, 52-73
#guard isOk ((ByteWriter.ofBuffer (List.replicate 7 0#8)).write bytes).2
#guard ((ByteWriter.ofBuffer (List.replicate 7 0#8)).write bytes).1.position = 7
#guard !isOk ((ByteWriter.ofBuffer (List.replicate 7 0#8)).write (bytes ++ [0x68#8])).2
-- writeBigEndian, writeLittleEndian, 76-141
def w8 := ByteWriter.ofBuffer (List.replicate 8 0xCD#8)
#guard [false, true].all fun big => (w8.writeBEInt big 2 1025).1.viewWritten = [0x04, 0x01]
#guard [false, true].all fun big => (w8.writeBEInt big 4 0x842da380).1.viewWritten = [0x84, 0x2d, 0xa3, 0x80]
#guard [false, true].all fun big => (w8.writeBEInt big 8 0x842da380e3426dff).1.viewWritten =
  [0x84, 0x2d, 0xa3, 0x80, 0xe3, 0x42, 0x6d, 0xff]
#guard [false, true].all fun big => (w8.writeLEInt big 2 1025).1.viewWritten = [0x01, 0x04]
#guard [false, true].all fun big => (w8.writeLEInt big 4 1025).1.viewWritten = [0x01, 0x04, 0x00, 0x00]
#guard [false, true].all fun big => (w8.writeLEInt big 8 0x842da380e3426dff).1.viewWritten =
  [0xff, 0x6d, 0x42, 0xe3, 0x80, 0xa3, 0x2d, 0x84]

end Solace.Conformance.TestBuffers
