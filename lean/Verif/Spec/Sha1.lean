import Verif.Spec.Hashing
/-
SHA-1, FIPS 180-4 sections 4.1.1, 4.2.1, 5.3.1 and 6.1.2.
-/
namespace Solace.Hash.Spec.Sha1

/-- The working variables. -/
structure Buf where
  a : BitVec 32
  b : BitVec 32
  c : BitVec 32
  d : BitVec 32
  e : BitVec 32
deriving DecidableEq, Repr

def Ch (x y z : BitVec 32) : BitVec 32 := (x &&& y) ^^^ (~~~x &&& z)
def Parity (x y z : BitVec 32) : BitVec 32 := x ^^^ y ^^^ z
def Maj (x y z : BitVec 32) : BitVec 32 := (x &&& y) ^^^ (x &&& z) ^^^ (y &&& z)

def f (t : Nat) : BitVec 32 → BitVec 32 → BitVec 32 → BitVec 32 :=
  if t < 20 then Ch else if t < 40 then Parity else if t < 60 then Maj else Parity

def K (t : Nat) : BitVec 32 :=
  if t < 20 then 0x5a827999#32 else if t < 40 then 0x6ed9eba1#32 else if t < 60 then 0x8f1bbcdc#32 else 0xca62c1d6#32

/-- The message schedule. -/
def W (M : Nat → BitVec 32) (t : Nat) : BitVec 32 :=
  if t < 16 then M t else (W M (t - 3) ^^^ W M (t - 8) ^^^ W M (t - 14) ^^^ W M (t - 16)).rotateLeft 1
termination_by t

def step (M : Nat → BitVec 32) (r : Buf) (t : Nat) : Buf :=
  ⟨r.a.rotateLeft 5 + f t r.b r.c r.d + r.e + K t + W M t, r.a, r.b.rotateLeft 30, r.c, r.d⟩

def compress (r : Buf) (block : List Byte) : Buf :=
  let r' := (List.range 80).foldl (step (beWord block)) r
  ⟨r.a + r'.a, r.b + r'.b, r.c + r'.c, r.d + r'.d, r.e + r'.e⟩

def init : Buf := ⟨0x67452301#32, 0xefcdab89#32, 0x98badcfe#32, 0x10325476#32, 0xc3d2e1f0#32⟩

def out (r : Buf) : List Byte := [r.a, r.b, r.c, r.d, r.e].flatMap fun w => beBytes 4 w.toNat

/-- The digest, but with `n` bytes given as the length of the message. -/
def sha1WithLength (n : Nat) (m : List Byte) : List Byte := out (chain compress init (beBytes 8 (8 * n)) m)

/-- The SHA-1 digest; the standard defines it for messages of less than 2^64 bits. -/
def sha1 (m : List Byte) : List Byte := sha1WithLength m.length m

end Solace.Hash.Spec.Sha1
