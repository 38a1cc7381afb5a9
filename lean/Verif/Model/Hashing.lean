import Verif.Model.Endian
/-
What MD5, SHA-1 and SHA-256 share: the buffering of input and the final padding
(/repo/src/hashing/md5.cpp:146-180, 212-236; sha1.cpp:184-216, 249-272; sha2.cpp:150-181, 221-244: three copies of the same
code, up to the byte order of the length and the names of variables).
-/
namespace Solace.Hash

abbrev Word := BitVec 32

/-- The machine: its byte order, and what uninitialised local arrays hold. -/
structure Host where
  big : Bool
  bytes : (n : Nat) → { l : List Byte // l.length = n }
  words : (n : Nat) → { l : List Word // l.length = n }

/-- `State` of the three classes (md5.hpp, sha1.hpp, sha2.hpp): the number of bytes processed in two 32-bit words (`total` or
`bits`), the intermediate digest, the block being filled. -/
structure Ctx (S : Type) where
  total0 : Word
  total1 : Word
  state : S
  buffer : List Byte
deriving DecidableEq, Repr

/-- `memcpy(buffer + off, src, n)`: undefined outside the buffer. -/
def memcpy (buffer : List Byte) (off : Nat) (src : List Byte) : Outcome (List Byte) :=
  if off + src.length ≤ buffer.length then .ok (ByteWriter.overwrite buffer off src) else .ub

/-- `while (ilen >= 64)`: state after the whole blocks, and the input left. -/
def blocks (process : S → List Byte → S) (s : S) (input : List Byte) : S × List Byte :=
  if 64 ≤ input.length then blocks process (process s (input.take 64)) (input.drop 64) else (s, input)
termination_by input.length
decreasing_by rw [List.length_drop]; omega

/-- The first part of `update`: the counters. `total[0] += ilen` truncates to 32 bits; the comparison `total[0] < ilen` is
one of 64 bit numbers. -/
def count (c : Ctx S) (n : Nat) : Ctx S :=
  let t0 := c.total0 + BitVec.ofNat 32 n
  { c with total0 := t0, total1 := if t0.toNat < n then c.total1 + 1 else c.total1 }

/-- The end of `update`: whole blocks straight from the input, the rest into the buffer at `left`. -/
def finish (process : S → List Byte → S) (c : Ctx S) (left : Nat) (input : List Byte) : Outcome (Ctx S) :=
  let r := blocks process c.state input
  if 0 < r.2.length then do
    let b ← memcpy c.buffer left r.2
    pure { c with state := r.1, buffer := b }
  else pure { c with state := r.1 }

/-- `md5_update`, `sha1_update`, `sha256_update`. -/
def update (process : S → List Byte → S) (c : Ctx S) (input : List Byte) : Outcome (Ctx S) :=
  if input.length = 0 then .ok c
  else
    let left := (c.total0 &&& 0x3F#32).toNat
    let fill := 64 - left
    let c := count c input.length
    if left ≠ 0 ∧ fill ≤ input.length then do
      let b ← memcpy c.buffer left (input.take fill)
      finish process { c with state := process c.state b, buffer := b } 0 (input.drop fill)
    else finish process c left input

/-- `md5_padding`, `sha1_padding`, `sha256_padding`. -/
def padding : List Byte := 0x80#8 :: List.replicate 63 0#8

/-- The bytes of `padding` passed to `update`; reading beyond the array is undefined. -/
def paddingBytes (padn : Nat) : Outcome (List Byte) :=
  if padn ≤ padding.length then .ok (padding.take padn) else .ub

/-- `msglen` and the two calls of `update` in `digest`; `le` for MD5, which writes the low word first, and in little endian
order. -/
def pad (h : Host) (le : Bool) (process : S → List Byte → S) (c : Ctx S) : Outcome (Ctx S) := do
  let high := (c.total0 >>> 29) ||| (c.total1 <<< 3)
  let low := c.total0 <<< 3
  let w := ByteWriter.ofBuffer (h.bytes 8).val
  let msglen :=
    if le then (((w.writeLEInt h.big 4 low.toNat).1).writeLEInt h.big 4 high.toNat).1.data
    else (((w.writeBEInt h.big 4 high.toNat).1).writeBEInt h.big 4 low.toNat).1.data
  let last := (c.total0 &&& 0x3F#32).toNat
  let padn := if last < 56 then 56 - last else 120 - last
  let p ← paddingBytes padn
  let c1 ← update process c p
  update process c1 msglen

/-- The words of the state written to `result`, and the view of what was written; `size` is the size of `result`. -/
def output (h : Host) (le : Bool) (size : Nat) (ws : List Word) : List Byte :=
  (ws.foldl (fun w x => if le then (w.writeLEInt h.big 4 x.toNat).1 else (w.writeBEInt h.big 4 x.toNat).1)
    (ByteWriter.ofBuffer (h.bytes size).val)).viewWritten

/-- `for (auto& x : X) reader.readLE(x)` and the same with `readBE`: the words read, for an array of `old.length` words
with these contents before. The results of the calls are ignored. -/
def readWords (h : Host) (le : Bool) : ByteReader → List Word → List Word
  | _, [] => []
  | r, old :: olds =>
    let x := if le then r.readLEInt h.big 4 old.toNat else r.readBEInt h.big 4 old.toNat
    BitVec.ofNat 32 x.2.2 :: readWords h le x.1 olds

/-- `update` called for each piece in turn. -/
def updates (process : S → List Byte → S) (c : Ctx S) : List (List Byte) → Outcome (Ctx S)
  | [] => .ok c
  | p :: ps => do
    let c' ← update process c p
    updates process c' ps

end Solace.Hash
