import Verif.Model.Hashing
/-
MurmurHash3, /repo/src/hashing/murmur3.cpp and /repo/include/solace/hashing/murmur3.hpp, on 64-bit targets (`__x86_64__` or
`__aarch64__`, where `Murmur3_128::update` calls the x64 variant) and, at the end, on 32-bit ones (`__i386__` or `__arm__`, where it
calls the x86 variant).
The input is its address and its bytes: blocks are read through pointers to 32 and 64 bit integers, which is undefined
unless the address is aligned. (That reading bytes through such pointers also breaks the aliasing rules is not modelled.)
-/
namespace Solace.Hash.Murmur

abbrev Word64 := BitVec 64

/-- `static_cast<int>(len / blockSize)`, murmur3.cpp:97, 144 and 245: the value modulo 2^32. -/
def nblocks (blockSize len : Nat) : Int := (BitVec.ofNat 32 (len / blockSize)).toInt

/-- `data + nblocks*blockSize`: the product is one of ints, overflow is undefined; so is a pointer outside the input. -/
def tailOffset (blockSize len : Nat) : Outcome Nat :=
  let p := nblocks blockSize len * blockSize
  if p < -2 ^ 31 ∨ 2 ^ 31 ≤ p then .ub else if p < 0 ∨ (len : Int) < p then .ub else .ok p.toNat

/-- `getblock32`, `getblock64`, murmur3.cpp:60-66: the `w`-bit integer at `offset` of the input. -/
def getblock (w : Nat) (big : Bool) (addr : Nat) (data : List Byte) (offset : Nat) : Outcome (BitVec w) :=
  if (addr + offset) % (w / 8) ≠ 0 then .ub
  else if data.length < offset + w / 8 then .ub
  else .ok (BitVec.ofNat w (hostValue big ((data.drop offset).take (w / 8))))

/-- `rotl32`, `rotl64`, murmur3.cpp:41-47. -/
def rotl32 (x : Word) (r : Nat) : Word := (x <<< r) ||| (x >>> (32 - r))
def rotl64 (x : Word64) (r : Nat) : Word64 := (x <<< r) ||| (x >>> (64 - r))

/-- `fmix32`, murmur3.cpp:72-80. -/
def fmix32 (h : Word) : Word :=
  let h := h ^^^ (h >>> 16)
  let h := h * 0x85ebca6b#32
  let h := h ^^^ (h >>> 13)
  let h := h * 0xc2b2ae35#32
  h ^^^ (h >>> 16)

/-- `fmix64`, murmur3.cpp:84-92. -/
def fmix64 (k : Word64) : Word64 :=
  let k := k ^^^ (k >>> 33)
  let k := k * 0xff51afd7ed558ccd#64
  let k := k ^^^ (k >>> 33)
  let k := k * 0xc4ceb9fe1a85ec53#64
  k ^^^ (k >>> 33)

/-- The switch over the tail: each entry is the label of the case, the index into `tail` and the shift; control enters at
the case `r` and falls through. -/
def tailWord (w : Nat) (data : List Byte) (offset r : Nat) (cases : List (Nat × Nat × Nat)) : Outcome (BitVec w) :=
  cases.foldlM (fun k c =>
    if c.1 ≤ r then
      match data[offset + c.2.1]? with
      | none => .ub
      | some b => .ok (k ^^^ (BitVec.ofNat w b.toNat <<< c.2.2))
    else .ok k) 0

/-- The loop `for (int i = -nblocks; i; i++)`, murmur3.cpp:107-117, `n` is `-i`, `base` the offset of `blocks`. -/
def body32 (big : Bool) (addr : Nat) (data : List Byte) (base : Nat) : Nat → Word → Outcome Word
  | 0, h1 => .ok h1
  | n + 1, h1 => do
    let k1 ← getblock 32 big addr data (base - 4 * (n + 1))
    let k1 := k1 * 0xcc9e2d51#32
    let k1 := rotl32 k1 15
    let k1 := k1 * 0x1b873593#32
    let h1 := h1 ^^^ k1
    let h1 := rotl32 h1 13
    let h1 := h1 * 5#32 + 0xe6546b64#32
    body32 big addr data base n h1

/-- `murmurhash3_x86_32`, murmur3.cpp:96-137. -/
def x86_32 (big : Bool) (addr : Nat) (data : List Byte) (seed : Word) : Outcome Word := do
  let base ← tailOffset 4 data.length
  let h1 ← body32 big addr data base (nblocks 4 data.length).toNat seed
  let r := data.length % 4
  let k1 ← tailWord 32 data base r [(3, 2, 16), (2, 1, 8), (1, 0, 0)]
  let h1 :=
    if 1 ≤ r then
      let k1 := k1 * 0xcc9e2d51#32
      let k1 := rotl32 k1 15
      let k1 := k1 * 0x1b873593#32
      h1 ^^^ k1
    else h1
  let h1 := h1 ^^^ BitVec.ofNat 32 data.length
  pure (fmix32 h1)

/-- The loop `for (int i = 0; i < nblocks; i++)`, murmur3.cpp:255-267, `n` rounds left. The index `i*2 + 1` cannot overflow when
`nblocks*16` does not. -/
def body64 (big : Bool) (addr : Nat) (data : List Byte) (i : Nat) : Nat → Word64 × Word64 → Outcome (Word64 × Word64)
  | 0, h => .ok h
  | n + 1, (h1, h2) => do
    let k1 ← getblock 64 big addr data (8 * (i * 2))
    let k2 ← getblock 64 big addr data (8 * (i * 2 + 1))
    let k1 := k1 * 0x87c37b91114253d5#64
    let k1 := rotl64 k1 31
    let k1 := k1 * 0x4cf5ad432745937f#64
    let h1 := h1 ^^^ k1
    let h1 := rotl64 h1 27
    let h1 := h1 + h2
    let h1 := h1 * 5#64 + 0x52dce729#64
    let k2 := k2 * 0x4cf5ad432745937f#64
    let k2 := rotl64 k2 33
    let k2 := k2 * 0x87c37b91114253d5#64
    let h2 := h2 ^^^ k2
    let h2 := rotl64 h2 31
    let h2 := h2 + h1
    let h2 := h2 * 5#64 + 0x38495ab5#64
    body64 big addr data (i + 1) n (h1, h2)

/-- `MurmurHash3_x64_128`, murmur3.cpp:243-313. (The overflow of `nblocks*blockSize` comes after the loop in the code.) -/
def x64_128 (big : Bool) (addr : Nat) (data : List Byte) (seed : Word) : Outcome (Word64 × Word64) := do
  let base ← tailOffset 16 data.length
  let h ← body64 big addr data 0 (nblocks 16 data.length).toNat (seed.setWidth 64, seed.setWidth 64)
  let r := data.length % 16
  let k2 ← tailWord 64 data base r
    [(15, 14, 48), (14, 13, 40), (13, 12, 32), (12, 11, 24), (11, 10, 16), (10, 9, 8), (9, 8, 0)]
  let h2 :=
    if 9 ≤ r then
      let k2 := k2 * 0x4cf5ad432745937f#64
      let k2 := rotl64 k2 33
      let k2 := k2 * 0x87c37b91114253d5#64
      h.2 ^^^ k2
    else h.2
  let k1 ← tailWord 64 data base r
    [(8, 7, 56), (7, 6, 48), (6, 5, 40), (5, 4, 32), (4, 3, 24), (3, 2, 16), (2, 1, 8), (1, 0, 0)]
  let h1 :=
    if 1 ≤ r then
      let k1 := k1 * 0x87c37b91114253d5#64
      let k1 := rotl64 k1 31
      let k1 := k1 * 0x4cf5ad432745937f#64
      h.1 ^^^ k1
    else h.1
  let h1 := h1 ^^^ BitVec.ofNat 64 data.length
  let h2 := h2 ^^^ BitVec.ofNat 64 data.length
  let h1 := h1 + h2
  let h2 := h2 + h1
  let h1 := fmix64 h1
  let h2 := fmix64 h2
  let h1 := h1 + h2
  let h2 := h2 + h1
  pure (h1, h2)

/-- `Murmur3_32`, murmur3.hpp:35-78. -/
structure M32 where
  hash : Word
  seed : Word
deriving DecidableEq, Repr

/-- Constructor, murmur3.hpp:44-48. -/
def M32.new (seed : Word) : M32 := ⟨0, seed⟩

/-- `Murmur3_32::update`, murmur3.cpp:331-335. -/
def M32.update (h : Host) (c : M32) (addr : Nat) (input : List Byte) : Outcome M32 := do
  let v ← x86_32 h.big addr input c.seed
  pure { c with hash := v }

/-- `Murmur3_32::digest`, murmur3.cpp:338-346. -/
def M32.digest (h : Host) (c : M32) : List Byte × M32 := (output h false 4 [c.hash], c)

/-- `Murmur3_128`, murmur3.hpp:85-127. -/
structure M128 where
  hash : Word64 × Word64
  seed : Word
deriving DecidableEq, Repr

/-- Constructor, murmur3.hpp:94-97. -/
def M128.new (seed : Word) : M128 := ⟨(0, 0), seed⟩

/-- `Murmur3_128::update`, murmur3.cpp:363-373. -/
def M128.update (h : Host) (c : M128) (addr : Nat) (input : List Byte) : Outcome M128 := do
  let v ← x64_128 h.big addr input c.seed
  pure { c with hash := v }

/-- `Murmur3_128::digest`, murmur3.cpp:376-378: the object representation of the two words. -/
def M128.digest (h : Host) (c : M128) : List Byte × M128 :=
  (hostRepr h.big 8 c.hash.1.toNat ++ hostRepr h.big 8 c.hash.2.toNat, c)

/-- Four 32-bit words: the state of `MurmurHash3_x86_128`. -/
structure Quad where
  a : Word
  b : Word
  c : Word
  d : Word
deriving DecidableEq, Repr

/-- The loop `for (int i = -nblocks; i; i++)`, murmur3.cpp:159-181, `n` is `-i`, `base` the offset of `blocks`. -/
def body128 (big : Bool) (addr : Nat) (data : List Byte) (base : Nat) : Nat → Quad → Outcome Quad
  | 0, h => .ok h
  | n + 1, ⟨h1, h2, h3, h4⟩ => do
    let k1 ← getblock 32 big addr data (base - 16 * (n + 1))
    let k2 ← getblock 32 big addr data (base - 16 * (n + 1) + 4)
    let k3 ← getblock 32 big addr data (base - 16 * (n + 1) + 8)
    let k4 ← getblock 32 big addr data (base - 16 * (n + 1) + 12)
    let k1 := k1 * 0x239b961b#32
    let k1 := rotl32 k1 15
    let k1 := k1 * 0xab0e9789#32
    let h1 := h1 ^^^ k1
    let h1 := rotl32 h1 19
    let h1 := h1 + h2
    let h1 := h1 * 5#32 + 0x561ccd1b#32
    let k2 := k2 * 0xab0e9789#32
    let k2 := rotl32 k2 16
    let k2 := k2 * 0x38b34ae5#32
    let h2 := h2 ^^^ k2
    let h2 := rotl32 h2 17
    let h2 := h2 + h3
    let h2 := h2 * 5#32 + 0x0bcaa747#32
    let k3 := k3 * 0x38b34ae5#32
    let k3 := rotl32 k3 17
    let k3 := k3 * 0xa1e38b93#32
    let h3 := h3 ^^^ k3
    let h3 := rotl32 h3 15
    let h3 := h3 + h4
    let h3 := h3 * 5#32 + 0x96cd1c35#32
    let k4 := k4 * 0xa1e38b93#32
    let k4 := rotl32 k4 18
    let k4 := k4 * 0x239b961b#32
    let h4 := h4 ^^^ k4
    let h4 := rotl32 h4 13
    let h4 := h4 + h1
    let h4 := h4 * 5#32 + 0x32ac3b17#32
    body128 big addr data base n ⟨h1, h2, h3, h4⟩

/-- One part of the switch over the tail, e.g. murmur3.cpp:193-197: `k ^= ...` for the cases that are entered, and from the lowest of
them on `k *= c; k = ROTL32(k, r); k *= c'; h ^= k`. -/
def tailPart (data : List Byte) (base r : Nat) (cases : List (Nat × Nat × Nat)) (lowest : Nat) (c : Word) (rot : Nat) (c' h : Word) :
    Outcome Word := do
  let k ← tailWord 32 data base r cases
  pure (if lowest ≤ r then
      let k := k * c
      let k := rotl32 k rot
      let k := k * c'
      h ^^^ k
    else h)

/-- `MurmurHash3_x86_128`, murmur3.cpp:142-239. The tail is switched over from the last word to the first. -/
def x86_128 (big : Bool) (addr : Nat) (data : List Byte) (seed : Word) : Outcome Quad := do
  let base ← tailOffset 16 data.length
  let h ← body128 big addr data base (nblocks 16 data.length).toNat ⟨seed, seed, seed, seed⟩
  let r := data.length % 16
  let h4 ← tailPart data base r [(15, 14, 16), (14, 13, 8), (13, 12, 0)] 13 0xa1e38b93#32 18 0x239b961b#32 h.d
  let h3 ← tailPart data base r [(12, 11, 24), (11, 10, 16), (10, 9, 8), (9, 8, 0)] 9 0x38b34ae5#32 17 0xa1e38b93#32 h.c
  let h2 ← tailPart data base r [(8, 7, 24), (7, 6, 16), (6, 5, 8), (5, 4, 0)] 5 0xab0e9789#32 16 0x38b34ae5#32 h.b
  let h1 ← tailPart data base r [(4, 3, 24), (3, 2, 16), (2, 1, 8), (1, 0, 0)] 1 0x239b961b#32 15 0xab0e9789#32 h.a
  let len := BitVec.ofNat 32 data.length
  let h1 := h1 ^^^ len
  let h2 := h2 ^^^ len
  let h3 := h3 ^^^ len
  let h4 := h4 ^^^ len
  let h1 := h1 + h2
  let h1 := h1 + h3
  let h1 := h1 + h4
  let h2 := h2 + h1
  let h3 := h3 + h1
  let h4 := h4 + h1
  let h1 := fmix32 h1
  let h2 := fmix32 h2
  let h3 := fmix32 h3
  let h4 := fmix32 h4
  let h1 := h1 + h2
  let h1 := h1 + h3
  let h1 := h1 + h4
  let h2 := h2 + h1
  let h3 := h3 + h1
  let h4 := h4 + h1
  pure ⟨h1, h2, h3, h4⟩

/-- `Murmur3_128` on a 32-bit target: `_hash` is written as four words. -/
structure M128x86 where
  hash : Quad
  seed : Word
deriving DecidableEq, Repr

/-- Constructor, murmur3.hpp:94-97. -/
def M128x86.new (seed : Word) : M128x86 := ⟨⟨0, 0, 0, 0⟩, seed⟩

/-- `Murmur3_128::update`, murmur3.cpp:365-367. -/
def M128x86.update (h : Host) (c : M128x86) (addr : Nat) (input : List Byte) : Outcome M128x86 := do
  let v ← x86_128 h.big addr input c.seed
  pure { c with hash := v }

/-- `Murmur3_128::digest`, murmur3.cpp:376-378. -/
def M128x86.digest (h : Host) (c : M128x86) : List Byte × M128x86 :=
  (hostRepr h.big 4 c.hash.a.toNat ++ hostRepr h.big 4 c.hash.b.toNat ++ hostRepr h.big 4 c.hash.c.toNat ++
    hostRepr h.big 4 c.hash.d.toNat, c)

end Solace.Hash.Murmur
