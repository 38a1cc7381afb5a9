import Verif.Model.Hashing
/-
SHA-256, /repo/src/hashing/sha2.cpp (`SOLACE_SHA256_SMALLER` not defined; the other variant is in Model/Sha2Smaller).
The padding, counting and buffering are in Model/Hashing.
-/
namespace Solace.Hash.Sha2

/-- `K`, sha2.cpp:51-60. -/
def K : List Word := [
  0x428a2f98#32, 0x71374491#32, 0xb5c0fbcf#32, 0xe9b5dba5#32, 0x3956c25b#32, 0x59f111f1#32, 0x923f82a4#32, 0xab1c5ed5#32,
  0xd807aa98#32, 0x12835b01#32, 0x243185be#32, 0x550c7dc3#32, 0x72be5d74#32, 0x80deb1fe#32, 0x9bdc06a7#32, 0xc19bf174#32,
  0xe49b69c1#32, 0xefbe4786#32, 0x0fc19dc6#32, 0x240ca1cc#32, 0x2de92c6f#32, 0x4a7484aa#32, 0x5cb0a9dc#32, 0x76f988da#32,
  0x983e5152#32, 0xa831c66d#32, 0xb00327c8#32, 0xbf597fc7#32, 0xc6e00bf3#32, 0xd5a79147#32, 0x06ca6351#32, 0x14292967#32,
  0x27b70a85#32, 0x2e1b2138#32, 0x4d2c6dfc#32, 0x53380d13#32, 0x650a7354#32, 0x766a0abb#32, 0x81c2c92e#32, 0x92722c85#32,
  0xa2bfe8a1#32, 0xa81a664b#32, 0xc24b8b70#32, 0xc76c51a3#32, 0xd192e819#32, 0xd6990624#32, 0xf40e3585#32, 0x106aa070#32,
  0x19a4c116#32, 0x1e376c08#32, 0x2748774c#32, 0x34b0bcb5#32, 0x391c0cb3#32, 0x4ed8aa4a#32, 0x5b9cca4f#32, 0x682e6ff3#32,
  0x748f82ee#32, 0x78a5636f#32, 0x84c87814#32, 0x8cc70208#32, 0x90befffa#32, 0xa4506ceb#32, 0xbef9a3f7#32, 0xc67178f2#32]

/-- sha2.cpp:63-64. -/
def SHR (x : Word) (n : Nat) : Word := (x &&& 0xFFFFFFFF#32) >>> n
def ROTR (x : Word) (n : Nat) : Word := SHR x n ||| (x <<< (32 - n))

/-- sha2.cpp:66-70. -/
def S0 (x : Word) : Word := ROTR x 7 ^^^ ROTR x 18 ^^^ SHR x 3
def S1 (x : Word) : Word := ROTR x 17 ^^^ ROTR x 19 ^^^ SHR x 10
def S2 (x : Word) : Word := ROTR x 2 ^^^ ROTR x 13 ^^^ ROTR x 22
def S3 (x : Word) : Word := ROTR x 6 ^^^ ROTR x 11 ^^^ ROTR x 25

/-- sha2.cpp:72-73. -/
def F0 (x y z : Word) : Word := (x &&& y) ||| (z &&& (x ||| y))
def F1 (x y z : Word) : Word := z ^^^ (x &&& (y ^^^ z))

/-- Element of a local array. -/
def at' (a : List Word) (i : Nat) : Word := a[i]?.getD 0

/-- `R(t)`, sha2.cpp:75-79: the array after the assignment to `W[t]`, whose value is the value of the expression. -/
def R (W : List Word) (t : Nat) : List Word := W.set t (S1 (at' W (t - 2)) + at' W (t - 7) + S0 (at' W (t - 15)) + at' W (t - 16))

/-- `P(A[ia], ..., A[ih], x, K)`, sha2.cpp:81-86; `is` are the eight indices in the order of the arguments. -/
def P (A : List Word) (is : List Nat) (x k : Word) : List Word :=
  let ix (n : Nat) := is[n]?.getD 0
  let v (n : Nat) := at' A (ix n)
  let temp1 := v 7 + S3 (v 4) + F1 (v 4) (v 5) (v 6) + k + x
  let temp2 := S2 (v 0) + F0 (v 0) (v 1) (v 2)
  (A.set (ix 3) (v 3 + temp1)).set (ix 7) (temp1 + temp2)

/-- The indices in the eight lines of both loop bodies, sha2.cpp:121-130 and 132-141. -/
def lines : List (List Nat) := [
  [0, 1, 2, 3, 4, 5, 6, 7],
  [7, 0, 1, 2, 3, 4, 5, 6],
  [6, 7, 0, 1, 2, 3, 4, 5],
  [5, 6, 7, 0, 1, 2, 3, 4],
  [4, 5, 6, 7, 0, 1, 2, 3],
  [3, 4, 5, 6, 7, 0, 1, 2],
  [2, 3, 4, 5, 6, 7, 0, 1],
  [1, 2, 3, 4, 5, 6, 7, 0]]

/-- Line `n` of the first loop body: the argument is `W[i+n]`. -/
def line1 (i : Nat) (s : List Word × List Word) (l : List Nat × Nat) : List Word × List Word :=
  (P s.1 l.1 (at' s.2 (i + l.2)) (at' K (i + l.2)), s.2)

/-- Line `n` of the second loop body: the argument is `R(i+n)`. -/
def line2 (i : Nat) (s : List Word × List Word) (l : List Nat × Nat) : List Word × List Word :=
  (P s.1 l.1 (at' (R s.2 (i + l.2)) (i + l.2)) (at' K (i + l.2)), R s.2 (i + l.2))

/-- `sha256_process`, sha2.cpp:90-147. The first 16 words of `W` are read from the block; the others are uninitialised. -/
def process (h : Host) (s : List Word) (data : List Byte) : List Word :=
  let W := readWords h false (ByteReader.ofView data) ((h.words 64).val.take 16) ++ (h.words 64).val.drop 16
  let r := [0, 8].foldl (fun r i => lines.zipIdx.foldl (line1 i) r) (s, W)
  let r := [16, 24, 32, 40, 48, 56].foldl (fun r i => lines.zipIdx.foldl (line2 i) r) r
  (List.range 8).map fun i => at' s i + at' r.1 i

/-- `Sha256::Sha256()`, sha2.cpp:185-201. -/
def init : Ctx (List Word) :=
  ⟨0, 0, [0x6a09e667#32, 0xbb67ae85#32, 0x3c6ef372#32, 0xa54ff53a#32, 0x510e527f#32, 0x9b05688c#32, 0x1f83d9ab#32,
    0x5be0cd19#32], List.replicate 64 0#8⟩

/-- `Sha256::digest()`, sha2.cpp:221-244: the digest and the object afterwards. -/
def digest (h : Host) (c : Ctx (List Word)) : Outcome (List Byte × Ctx (List Word)) := do
  let c ← pad h false (process h) c
  pure (output h false 32 c.state, c)

/-- A new object, `update` for each piece, `digest`. -/
def hash (h : Host) (pieces : List (List Byte)) : Outcome (List Byte) := do
  let c ← updates (process h) init pieces
  let r ← digest h c
  pure r.1

end Solace.Hash.Sha2
