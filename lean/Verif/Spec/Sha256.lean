import Verif.Spec.Hashing
/-
SHA-256, FIPS 180-4 sections 4.1.2, 4.2.2, 5.3.3 and 6.2.2.
-/
namespace Solace.Hash.Spec.Sha256

/-- The prime numbers below `n`. -/
def primesBelow (n : Nat) : List Nat :=
  (List.range n).filter fun p => decide (2 ≤ p) && (List.range p).all fun d => decide (d < 2) || p % d != 0

/-- The largest number whose `k`th power is at most `x`, if it is below 2^40. -/
def root (k x : Nat) : Nat := (List.range 40).reverse.foldl (fun r i => if (r + 2 ^ i) ^ k ≤ x then r + 2 ^ i else r) 0

/-- "the first thirty-two bits of the fractional parts of the cube roots of the first sixty-four prime numbers" (4.2.2). -/
def K (t : Nat) : BitVec 32 := BitVec.ofNat 32 (root 3 ((primesBelow 312)[t]?.getD 0 * 2 ^ 96))

/-- "the first thirty-two bits of the fractional parts of the square roots of the first eight prime numbers" (5.3.3). -/
def H0 (i : Nat) : BitVec 32 := BitVec.ofNat 32 (root 2 ((primesBelow 20)[i]?.getD 0 * 2 ^ 64))

def Ch (x y z : BitVec 32) : BitVec 32 := (x &&& y) ^^^ (~~~x &&& z)
def Maj (x y z : BitVec 32) : BitVec 32 := (x &&& y) ^^^ (x &&& z) ^^^ (y &&& z)
def Sum0 (x : BitVec 32) : BitVec 32 := x.rotateRight 2 ^^^ x.rotateRight 13 ^^^ x.rotateRight 22
def Sum1 (x : BitVec 32) : BitVec 32 := x.rotateRight 6 ^^^ x.rotateRight 11 ^^^ x.rotateRight 25
def sigma0 (x : BitVec 32) : BitVec 32 := x.rotateRight 7 ^^^ x.rotateRight 18 ^^^ (x >>> 3)
def sigma1 (x : BitVec 32) : BitVec 32 := x.rotateRight 17 ^^^ x.rotateRight 19 ^^^ (x >>> 10)

/-- The message schedule. -/
def W (M : Nat → BitVec 32) (t : Nat) : BitVec 32 :=
  if t < 16 then M t else sigma1 (W M (t - 2)) + W M (t - 7) + sigma0 (W M (t - 15)) + W M (t - 16)
termination_by t

/-- The working variables. -/
structure Buf where
  a : BitVec 32
  b : BitVec 32
  c : BitVec 32
  d : BitVec 32
  e : BitVec 32
  f : BitVec 32
  g : BitVec 32
  h : BitVec 32
deriving DecidableEq, Repr

def step (M : Nat → BitVec 32) (r : Buf) (t : Nat) : Buf :=
  let T1 := r.h + Sum1 r.e + Ch r.e r.f r.g + K t + W M t
  let T2 := Sum0 r.a + Maj r.a r.b r.c
  ⟨T1 + T2, r.a, r.b, r.c, r.d + T1, r.e, r.f, r.g⟩

def compress (r : Buf) (block : List Byte) : Buf :=
  let r' := (List.range 64).foldl (step (beWord block)) r
  ⟨r.a + r'.a, r.b + r'.b, r.c + r'.c, r.d + r'.d, r.e + r'.e, r.f + r'.f, r.g + r'.g, r.h + r'.h⟩

def init : Buf := ⟨H0 0, H0 1, H0 2, H0 3, H0 4, H0 5, H0 6, H0 7⟩

def out (r : Buf) : List Byte := [r.a, r.b, r.c, r.d, r.e, r.f, r.g, r.h].flatMap fun w => beBytes 4 w.toNat

/-- The digest, but with `n` bytes given as the length of the message. -/
def sha256WithLength (n : Nat) (m : List Byte) : List Byte := out (chain compress init (beBytes 8 (8 * n)) m)

/-- The SHA-256 digest; the standard defines it for messages of less than 2^64 bits. -/
def sha256 (m : List Byte) : List Byte := sha256WithLength m.length m

end Solace.Hash.Spec.Sha256
