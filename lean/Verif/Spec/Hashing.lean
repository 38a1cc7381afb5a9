import Verif.Model.Basic
/-
Merkle-Damgård hashing with 64-byte blocks, as RFC 1321 (3.1-3.4) and FIPS 180-4 (5.1.1, 5.2.1, 6.1.2, 6.2.2) describe it.
-/
namespace Solace.Hash.Spec

/-- A number as `n` bytes, least significant first; higher parts of the number are cut off. -/
def leBytes (n v : Nat) : List Byte := (List.range n).map fun i => BitVec.ofNat 8 (v / 256 ^ i)

/-- The same, most significant first. -/
def beBytes (n v : Nat) : List Byte := (leBytes n v).reverse

/-- Append a one bit (the byte 0x80), as few zero bits as give a length of 448 modulo 512 bits, and 8 bytes of length. -/
def padded (lengthField : List Byte) (m : List Byte) : List Byte :=
  m ++ [0x80#8] ++ List.replicate ((119 - m.length % 64) % 64) 0#8 ++ lengthField

/-- The 64-byte blocks. -/
def blocksOf (m : List Byte) : List (List Byte) := (List.range (m.length / 64)).map fun i => (m.drop (64 * i)).take 64

/-- The final chaining value. -/
def chain (compress : S → List Byte → S) (init : S) (lengthField : List Byte) (m : List Byte) : S :=
  (blocksOf (padded lengthField m)).foldl compress init

/-- Byte `i` of a block, as a number. -/
def byteAt (block : List Byte) (i : Nat) : Nat := (block[i]?.getD 0#8).toNat

/-- Word `k` of a block, least significant byte first. -/
def leWord (block : List Byte) (k : Nat) : BitVec 32 :=
  BitVec.ofNat 32 (byteAt block (4 * k) + 2 ^ 8 * byteAt block (4 * k + 1) + 2 ^ 16 * byteAt block (4 * k + 2) +
    2 ^ 24 * byteAt block (4 * k + 3))

/-- Word `k` of a block, most significant byte first. -/
def beWord (block : List Byte) (k : Nat) : BitVec 32 :=
  BitVec.ofNat 32 (2 ^ 24 * byteAt block (4 * k) + 2 ^ 16 * byteAt block (4 * k + 1) + 2 ^ 8 * byteAt block (4 * k + 2) +
    byteAt block (4 * k + 3))

end Solace.Hash.Spec
