import Verif.Model.Basic
/-
MurmurHash3 as published by Austin Appleby (MurmurHash3_x86_32, MurmurHash3_x86_128 and MurmurHash3_x64_128), with blocks read in little endian
order.
-/
namespace Solace.Hash.Spec.Murmur3

/-- Bytes as a number, least significant first. -/
def number (bs : List Byte) : Nat := bs.foldr (fun b n => b.toNat + 256 * n) 0

/-- Block `i` of `size` bytes, of `w` bits. -/
def block (w : Nat) (m : List Byte) (i : Nat) : BitVec w := BitVec.ofNat w (number ((m.drop (w / 8 * i)).take (w / 8)))

def fmix32 (h : BitVec 32) : BitVec 32 :=
  let a := (h ^^^ (h >>> 16)) * 0x85ebca6b#32
  let b := (a ^^^ (a >>> 13)) * 0xc2b2ae35#32
  b ^^^ (b >>> 16)

def fmix64 (h : BitVec 64) : BitVec 64 :=
  let a := (h ^^^ (h >>> 33)) * 0xff51afd7ed558ccd#64
  let b := (a ^^^ (a >>> 33)) * 0xc4ceb9fe1a85ec53#64
  b ^^^ (b >>> 33)

def scramble (k : BitVec 32) : BitVec 32 := (k * 0xcc9e2d51#32).rotateLeft 15 * 0x1b873593#32

def x86_32 (seed : BitVec 32) (m : List Byte) : BitVec 32 :=
  let n := m.length / 4
  let h := (List.range n).foldl (fun h i => (h ^^^ scramble (block 32 m i)).rotateLeft 13 * 5#32 + 0xe6546b64#32) seed
  let rest := m.drop (4 * n)
  fmix32 (h ^^^ scramble (BitVec.ofNat 32 (number rest)) ^^^ BitVec.ofNat 32 m.length)

def scramble1 (k : BitVec 64) : BitVec 64 := (k * 0x87c37b91114253d5#64).rotateLeft 31 * 0x4cf5ad432745937f#64
def scramble2 (k : BitVec 64) : BitVec 64 := (k * 0x4cf5ad432745937f#64).rotateLeft 33 * 0x87c37b91114253d5#64

/-- One block of 16 bytes. -/
def round (m : List Byte) (h : BitVec 64 × BitVec 64) (i : Nat) : BitVec 64 × BitVec 64 :=
  let h1 := ((h.1 ^^^ scramble1 (block 64 m (2 * i))).rotateLeft 27 + h.2) * 5#64 + 0x52dce729#64
  (h1, ((h.2 ^^^ scramble2 (block 64 m (2 * i + 1))).rotateLeft 31 + h1) * 5#64 + 0x38495ab5#64)

/-- MurmurHash3_x64_128 with a given length mixed in at the end. -/
def x64_128WithLength (seed : BitVec 32) (len : Nat) (m : List Byte) : BitVec 64 × BitVec 64 :=
  let n := m.length / 16
  let h := (List.range n).foldl (round m) (seed.setWidth 64, seed.setWidth 64)
  let rest := m.drop (16 * n)
  let h1 := h.1 ^^^ scramble1 (BitVec.ofNat 64 (number (rest.take 8))) ^^^ BitVec.ofNat 64 len
  let h2 := h.2 ^^^ scramble2 (BitVec.ofNat 64 (number (rest.drop 8))) ^^^ BitVec.ofNat 64 len
  let a1 := h1 + h2
  let a2 := h2 + a1
  let b1 := fmix64 a1
  let b2 := fmix64 a2
  (b1 + b2, b2 + (b1 + b2))

def x64_128 (seed : BitVec 32) (m : List Byte) : BitVec 64 × BitVec 64 := x64_128WithLength seed m.length m

/-- Four values by index. -/
def pick (a b c d : α) : Fin 4 → α
  | 0 => a
  | 1 => b
  | 2 => c
  | 3 => d

/-- The four multipliers of MurmurHash3_x86_128, and for each of the four words the rotations of the block and of the state and the
constant added. -/
def factor : Fin 4 → BitVec 32 := pick 0x239b961b#32 0xab0e9789#32 0x38b34ae5#32 0xa1e38b93#32
def blockRotation : Fin 4 → Nat := pick 15 16 17 18
def stateRotation : Fin 4 → Nat := pick 19 17 15 13
def addend : Fin 4 → BitVec 32 := pick 0x561ccd1b#32 0x0bcaa747#32 0x96cd1c35#32 0x32ac3b17#32

def scrambleX86 (j : Fin 4) (k : BitVec 32) : BitVec 32 := (k * factor j).rotateLeft (blockRotation j) * factor (j + 1)

/-- Word `j` after a block: the next word (of the state in which the words before `j` are new) is added. -/
def mixX86 (j : Fin 4) (h k next : BitVec 32) : BitVec 32 :=
  ((h ^^^ scrambleX86 j k).rotateLeft (stateRotation j) + next) * 5#32 + addend j

/-- The state: four words. -/
structure Words where
  w0 : BitVec 32
  w1 : BitVec 32
  w2 : BitVec 32
  w3 : BitVec 32
deriving DecidableEq, Repr

/-- One block of 16 bytes. -/
def roundX86 (m : List Byte) (h : Words) (i : Nat) : Words :=
  let new0 := mixX86 0 h.w0 (block 32 m (4 * i)) h.w1
  let new1 := mixX86 1 h.w1 (block 32 m (4 * i + 1)) h.w2
  let new2 := mixX86 2 h.w2 (block 32 m (4 * i + 2)) h.w3
  ⟨new0, new1, new2, mixX86 3 h.w3 (block 32 m (4 * i + 3)) new0⟩

/-- The first word becomes the sum of all four, and that is added to the others. -/
def spread (h : Words) : Words :=
  let s := h.w0 + h.w1 + h.w2 + h.w3
  ⟨s, h.w1 + s, h.w2 + s, h.w3 + s⟩

/-- Word `j` with the rest of the input, of less than 16 bytes, and the length. -/
def lastX86 (m rest : List Byte) (j : Fin 4) (h : BitVec 32) : BitVec 32 :=
  h ^^^ scrambleX86 j (BitVec.ofNat 32 (number ((rest.drop (4 * j.val)).take 4))) ^^^ BitVec.ofNat 32 m.length

def x86_128 (seed : BitVec 32) (m : List Byte) : Words :=
  let n := m.length / 16
  let h := (List.range n).foldl (roundX86 m) ⟨seed, seed, seed, seed⟩
  let rest := m.drop (16 * n)
  let a := spread ⟨lastX86 m rest 0 h.w0, lastX86 m rest 1 h.w1, lastX86 m rest 2 h.w2, lastX86 m rest 3 h.w3⟩
  spread ⟨fmix32 a.w0, fmix32 a.w1, fmix32 a.w2, fmix32 a.w3⟩

end Solace.Hash.Spec.Murmur3
