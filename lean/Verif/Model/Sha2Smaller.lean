import Verif.Model.Sha2
/-
The other variant of SHA-256 in /repo/src/hashing/sha2.cpp, compiled when `SOLACE_SHA256_SMALLER` is defined: one loop of 64
steps in which the words of the block are read as they are needed and the array `A` is rotated, in place of eight steps
written out with different indices. Everything outside lines 103-114 is as in Model/Sha2.
-/
namespace Solace.Hash.Sha2.Smaller

/-- The locals: the reader, `A` and `W`. -/
structure Locals where
  reader : ByteReader
  A : List Word
  W : List Word

/-- sha2.cpp:104-108: `W[i]` is read (the result of `readBE` is ignored) or computed. -/
def schedule (h : Host) (s : Locals) (i : Nat) : Locals :=
  if i < 16 then
    let x := s.reader.readBEInt h.big 4 (at' s.W i).toNat
    { s with reader := x.1, W := s.W.set i (BitVec.ofNat 32 x.2.2) }
  else { s with W := R s.W i }

/-- sha2.cpp:112-113, assignment by assignment. -/
def rotate (A : List Word) : List Word :=
  let temp1 := at' A 7
  let A := A.set 7 (at' A 6)
  let A := A.set 6 (at' A 5)
  let A := A.set 5 (at' A 4)
  let A := A.set 4 (at' A 3)
  let A := A.set 3 (at' A 2)
  let A := A.set 2 (at' A 1)
  let A := A.set 1 (at' A 0)
  A.set 0 temp1

/-- The body of the loop, sha2.cpp:104-113. -/
def body (h : Host) (s : Locals) (i : Nat) : Locals :=
  let s := schedule h s i
  { s with A := rotate (P s.A [0, 1, 2, 3, 4, 5, 6, 7] (at' s.W i) (at' K i)) }

/-- `sha256_process`, sha2.cpp:90-114 and 144-147. `W` is uninitialised at first. -/
def process (h : Host) (s : List Word) (data : List Byte) : List Word :=
  let r := (List.range 64).foldl (body h) ⟨ByteReader.ofView data, s, (h.words 64).val⟩
  (List.range 8).map fun i => at' s i + at' r.A i

/-- `Sha256::digest()`, sha2.cpp:221-244, with this `sha256_process`. -/
def digest (h : Host) (c : Ctx (List Word)) : Outcome (List Byte × Ctx (List Word)) := do
  let c ← pad h false (process h) c
  pure (output h false 32 c.state, c)

/-- A new object, `update` for each piece, `digest`. -/
def hash (h : Host) (pieces : List (List Byte)) : Outcome (List Byte) := do
  let c ← updates (process h) init pieces
  let r ← digest h c
  pure r.1

end Solace.Hash.Sha2.Smaller
