import Verif.Model.Hashing
/-
MD5, /repo/src/hashing/md5.cpp. The padding, counting and buffering are in Model/Hashing.
-/
namespace Solace.Hash.Md5

/-- The local variables of `md5_process`. -/
inductive Reg where
  | A | B | C | D
deriving DecidableEq, Repr

structure Regs where
  a : Word
  b : Word
  c : Word
  d : Word
deriving DecidableEq, Repr

def Regs.get (r : Regs) : Reg → Word
  | .A => r.a
  | .B => r.b
  | .C => r.c
  | .D => r.d

def Regs.set (r : Regs) (x : Reg) (w : Word) : Regs :=
  match x with
  | .A => { r with a := w }
  | .B => { r with b := w }
  | .C => { r with c := w }
  | .D => { r with d := w }

/-- `S(x, n)`, md5.cpp:48. -/
def S (x : Word) (n : Nat) : Word := (x <<< n) ||| ((x &&& 0xFFFFFFFF#32) >>> (32 - n))

/-- `F(x, y, z)` in the four rounds, md5.cpp:49, 76, 97, 118. -/
def F1 (x y z : Word) : Word := z ^^^ (x &&& (y ^^^ z))
def F2 (x y z : Word) : Word := y ^^^ (z &&& (x ^^^ y))
def F3 (x y z : Word) : Word := x ^^^ y ^^^ z
def F4 (x y z : Word) : Word := y ^^^ (x ||| ~~~z)

/-- The arguments of one use of the macro `P`. -/
structure Args where
  a : Reg
  b : Reg
  c : Reg
  d : Reg
  k : Nat
  s : Nat
  t : Word
deriving DecidableEq, Repr

/-- `P(a, b, c, d, k, s, t)`, md5.cpp:50: `{ a += F(b, c, d) + X[k] + t; a = S(a, s) + b; }`. -/
def P (F : Word → Word → Word → Word) (X : List Word) (r : Regs) (p : Args) : Regs :=
  let r := r.set p.a (r.get p.a + (F (r.get p.b) (r.get p.c) (r.get p.d) + X[p.k]?.getD 0 + p.t))
  r.set p.a (S (r.get p.a) p.s + r.get p.b)

/-- md5.cpp:57-72. -/
def round1 : List Args := [
  ⟨.A, .B, .C, .D, 0, 7, 0xD76AA478#32⟩,
  ⟨.D, .A, .B, .C, 1, 12, 0xE8C7B756#32⟩,
  ⟨.C, .D, .A, .B, 2, 17, 0x242070DB#32⟩,
  ⟨.B, .C, .D, .A, 3, 22, 0xC1BDCEEE#32⟩,
  ⟨.A, .B, .C, .D, 4, 7, 0xF57C0FAF#32⟩,
  ⟨.D, .A, .B, .C, 5, 12, 0x4787C62A#32⟩,
  ⟨.C, .D, .A, .B, 6, 17, 0xA8304613#32⟩,
  ⟨.B, .C, .D, .A, 7, 22, 0xFD469501#32⟩,
  ⟨.A, .B, .C, .D, 8, 7, 0x698098D8#32⟩,
  ⟨.D, .A, .B, .C, 9, 12, 0x8B44F7AF#32⟩,
  ⟨.C, .D, .A, .B, 10, 17, 0xFFFF5BB1#32⟩,
  ⟨.B, .C, .D, .A, 11, 22, 0x895CD7BE#32⟩,
  ⟨.A, .B, .C, .D, 12, 7, 0x6B901122#32⟩,
  ⟨.D, .A, .B, .C, 13, 12, 0xFD987193#32⟩,
  ⟨.C, .D, .A, .B, 14, 17, 0xA679438E#32⟩,
  ⟨.B, .C, .D, .A, 15, 22, 0x49B40821#32⟩]

/-- md5.cpp:78-93. -/
def round2 : List Args := [
  ⟨.A, .B, .C, .D, 1, 5, 0xF61E2562#32⟩,
  ⟨.D, .A, .B, .C, 6, 9, 0xC040B340#32⟩,
  ⟨.C, .D, .A, .B, 11, 14, 0x265E5A51#32⟩,
  ⟨.B, .C, .D, .A, 0, 20, 0xE9B6C7AA#32⟩,
  ⟨.A, .B, .C, .D, 5, 5, 0xD62F105D#32⟩,
  ⟨.D, .A, .B, .C, 10, 9, 0x02441453#32⟩,
  ⟨.C, .D, .A, .B, 15, 14, 0xD8A1E681#32⟩,
  ⟨.B, .C, .D, .A, 4, 20, 0xE7D3FBC8#32⟩,
  ⟨.A, .B, .C, .D, 9, 5, 0x21E1CDE6#32⟩,
  ⟨.D, .A, .B, .C, 14, 9, 0xC33707D6#32⟩,
  ⟨.C, .D, .A, .B, 3, 14, 0xF4D50D87#32⟩,
  ⟨.B, .C, .D, .A, 8, 20, 0x455A14ED#32⟩,
  ⟨.A, .B, .C, .D, 13, 5, 0xA9E3E905#32⟩,
  ⟨.D, .A, .B, .C, 2, 9, 0xFCEFA3F8#32⟩,
  ⟨.C, .D, .A, .B, 7, 14, 0x676F02D9#32⟩,
  ⟨.B, .C, .D, .A, 12, 20, 0x8D2A4C8A#32⟩]

/-- md5.cpp:99-114. -/
def round3 : List Args := [
  ⟨.A, .B, .C, .D, 5, 4, 0xFFFA3942#32⟩,
  ⟨.D, .A, .B, .C, 8, 11, 0x8771F681#32⟩,
  ⟨.C, .D, .A, .B, 11, 16, 0x6D9D6122#32⟩,
  ⟨.B, .C, .D, .A, 14, 23, 0xFDE5380C#32⟩,
  ⟨.A, .B, .C, .D, 1, 4, 0xA4BEEA44#32⟩,
  ⟨.D, .A, .B, .C, 4, 11, 0x4BDECFA9#32⟩,
  ⟨.C, .D, .A, .B, 7, 16, 0xF6BB4B60#32⟩,
  ⟨.B, .C, .D, .A, 10, 23, 0xBEBFBC70#32⟩,
  ⟨.A, .B, .C, .D, 13, 4, 0x289B7EC6#32⟩,
  ⟨.D, .A, .B, .C, 0, 11, 0xEAA127FA#32⟩,
  ⟨.C, .D, .A, .B, 3, 16, 0xD4EF3085#32⟩,
  ⟨.B, .C, .D, .A, 6, 23, 0x04881D05#32⟩,
  ⟨.A, .B, .C, .D, 9, 4, 0xD9D4D039#32⟩,
  ⟨.D, .A, .B, .C, 12, 11, 0xE6DB99E5#32⟩,
  ⟨.C, .D, .A, .B, 15, 16, 0x1FA27CF8#32⟩,
  ⟨.B, .C, .D, .A, 2, 23, 0xC4AC5665#32⟩]

/-- md5.cpp:120-135. -/
def round4 : List Args := [
  ⟨.A, .B, .C, .D, 0, 6, 0xF4292244#32⟩,
  ⟨.D, .A, .B, .C, 7, 10, 0x432AFF97#32⟩,
  ⟨.C, .D, .A, .B, 14, 15, 0xAB9423A7#32⟩,
  ⟨.B, .C, .D, .A, 5, 21, 0xFC93A039#32⟩,
  ⟨.A, .B, .C, .D, 12, 6, 0x655B59C3#32⟩,
  ⟨.D, .A, .B, .C, 3, 10, 0x8F0CCC92#32⟩,
  ⟨.C, .D, .A, .B, 10, 15, 0xFFEFF47D#32⟩,
  ⟨.B, .C, .D, .A, 1, 21, 0x85845DD1#32⟩,
  ⟨.A, .B, .C, .D, 8, 6, 0x6FA87E4F#32⟩,
  ⟨.D, .A, .B, .C, 15, 10, 0xFE2CE6E0#32⟩,
  ⟨.C, .D, .A, .B, 6, 15, 0xA3014314#32⟩,
  ⟨.B, .C, .D, .A, 13, 21, 0x4E0811A1#32⟩,
  ⟨.A, .B, .C, .D, 4, 6, 0xF7537E82#32⟩,
  ⟨.D, .A, .B, .C, 11, 10, 0xBD3AF235#32⟩,
  ⟨.C, .D, .A, .B, 2, 15, 0x2AD7D2BB#32⟩,
  ⟨.B, .C, .D, .A, 9, 21, 0xEB86D391#32⟩]

/-- `md5_process`, md5.cpp:40-143. -/
def process (h : Host) (s : Regs) (data : List Byte) : Regs :=
  let X := readWords h true (ByteReader.ofView data) (h.words 16).val
  let r := round1.foldl (P F1 X) s
  let r := round2.foldl (P F2 X) r
  let r := round3.foldl (P F3 X) r
  let r := round4.foldl (P F4 X) r
  ⟨s.a + r.a, s.b + r.b, s.c + r.c, s.d + r.d⟩

/-- `MD5::MD5()`, md5.cpp:183-191; the buffer is not initialised. -/
def init (h : Host) : Ctx Regs := ⟨0, 0, ⟨0x67452301#32, 0xEFCDAB89#32, 0x98BADCFE#32, 0x10325476#32⟩, (h.bytes 64).val⟩

/-- `MD5::digest()`, md5.cpp:212-236: the digest and the object afterwards. -/
def digest (h : Host) (c : Ctx Regs) : Outcome (List Byte × Ctx Regs) := do
  let c ← pad h true (process h) c
  pure (output h true 16 [c.state.a, c.state.b, c.state.c, c.state.d], c)

/-- A new object, `update` for each piece, `digest`. -/
def hash (h : Host) (pieces : List (List Byte)) : Outcome (List Byte) := do
  let c ← updates (process h) (init h) pieces
  let r ← digest h c
  pure r.1

end Solace.Hash.Md5
