import Verif.Spec.Hashing
/-
RFC 1321, section 3.4, as a loop over 64 steps.
-/
namespace Solace.Hash.Spec.Md5

/-- The buffer of four words. -/
structure Buf where
  a : BitVec 32
  b : BitVec 32
  c : BitVec 32
  d : BitVec 32
deriving DecidableEq, Repr

/-- The table T of section 3.4; entry `i` (from 1) is the integer part of 4294967296 times the absolute value of sin(i), `i`
in radians. -/
def T : List (BitVec 32) := [
  0xd76aa478#32, 0xe8c7b756#32, 0x242070db#32, 0xc1bdceee#32, 0xf57c0faf#32, 0x4787c62a#32, 0xa8304613#32, 0xfd469501#32,
  0x698098d8#32, 0x8b44f7af#32, 0xffff5bb1#32, 0x895cd7be#32, 0x6b901122#32, 0xfd987193#32, 0xa679438e#32, 0x49b40821#32,
  0xf61e2562#32, 0xc040b340#32, 0x265e5a51#32, 0xe9b6c7aa#32, 0xd62f105d#32, 0x02441453#32, 0xd8a1e681#32, 0xe7d3fbc8#32,
  0x21e1cde6#32, 0xc33707d6#32, 0xf4d50d87#32, 0x455a14ed#32, 0xa9e3e905#32, 0xfcefa3f8#32, 0x676f02d9#32, 0x8d2a4c8a#32,
  0xfffa3942#32, 0x8771f681#32, 0x6d9d6122#32, 0xfde5380c#32, 0xa4beea44#32, 0x4bdecfa9#32, 0xf6bb4b60#32, 0xbebfbc70#32,
  0x289b7ec6#32, 0xeaa127fa#32, 0xd4ef3085#32, 0x04881d05#32, 0xd9d4d039#32, 0xe6db99e5#32, 0x1fa27cf8#32, 0xc4ac5665#32,
  0xf4292244#32, 0x432aff97#32, 0xab9423a7#32, 0xfc93a039#32, 0x655b59c3#32, 0x8f0ccc92#32, 0xffeff47d#32, 0x85845dd1#32,
  0x6fa87e4f#32, 0xfe2ce6e0#32, 0xa3014314#32, 0x4e0811a1#32, 0xf7537e82#32, 0xbd3af235#32, 0x2ad7d2bb#32, 0xeb86d391#32]

/-- The auxiliary functions, section 3.4. -/
def F (x y z : BitVec 32) : BitVec 32 := (x &&& y) ||| (~~~x &&& z)
def G (x y z : BitVec 32) : BitVec 32 := (x &&& z) ||| (y &&& ~~~z)
def H (x y z : BitVec 32) : BitVec 32 := x ^^^ y ^^^ z
def I (x y z : BitVec 32) : BitVec 32 := y ^^^ (x ||| ~~~z)

/-- The function used in step `i`, `i` from 0. -/
def f (i : Nat) : BitVec 32 → BitVec 32 → BitVec 32 → BitVec 32 :=
  if i < 16 then F else if i < 32 then G else if i < 48 then H else I

/-- The message word used in step `i`. -/
def k (i : Nat) : Nat :=
  if i < 16 then i else if i < 32 then (5 * i + 1) % 16 else if i < 48 then (3 * i + 5) % 16 else (7 * i) % 16

/-- The shifts of each round. -/
def shifts : List (List Nat) := [[7, 12, 17, 22], [5, 9, 14, 20], [4, 11, 16, 23], [6, 10, 15, 21]]

def s (i : Nat) : Nat := ((shifts[i / 16]?.getD [])[i % 4]?).getD 0

/-- `a = b + ((a + f(b,c,d) + X[k] + T[i]) <<< s)`; then the four words change their roles. -/
def step (X : Nat → BitVec 32) (r : Buf) (i : Nat) : Buf :=
  ⟨r.d, r.b + (r.a + f i r.b r.c r.d + X (k i) + T[i]?.getD 0).rotateLeft (s i), r.b, r.c⟩

/-- One block of 16 words. -/
def compress (r : Buf) (block : List Byte) : Buf :=
  let r' := (List.range 64).foldl (step (leWord block)) r
  ⟨r.a + r'.a, r.b + r'.b, r.c + r'.c, r.d + r'.d⟩

def init : Buf := ⟨0x67452301#32, 0xefcdab89#32, 0x98badcfe#32, 0x10325476#32⟩

/-- Section 3.5: A, B, C, D, low-order bytes first. -/
def out (r : Buf) : List Byte := [r.a, r.b, r.c, r.d].flatMap fun w => leBytes 4 w.toNat

/-- The digest, but with `n` bytes given as the length of the message. -/
def md5WithLength (n : Nat) (m : List Byte) : List Byte := out (chain compress init (leBytes 8 (8 * n)) m)

/-- The MD5 digest of a message; only the low-order 64 bits of its length in bits are used (3.2). -/
def md5 (m : List Byte) : List Byte := md5WithLength m.length m

end Solace.Hash.Spec.Md5
