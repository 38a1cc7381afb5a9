import Verif.Model.Hashing
/-
SHA-1, /repo/src/hashing/sha1.cpp. The padding, counting and buffering are in Model/Hashing.
-/
namespace Solace.Hash.Sha1

/-- The local variables of `sha1_process`. -/
inductive Reg where
  | A | B | C | D | E
deriving DecidableEq, Repr

structure Regs where
  a : Word
  b : Word
  c : Word
  d : Word
  e : Word
deriving DecidableEq, Repr

def Regs.get (r : Regs) : Reg → Word
  | .A => r.a
  | .B => r.b
  | .C => r.c
  | .D => r.d
  | .E => r.e

def Regs.set (r : Regs) (x : Reg) (w : Word) : Regs :=
  match x with
  | .A => { r with a := w }
  | .B => { r with b := w }
  | .C => { r with c := w }
  | .D => { r with d := w }
  | .E => { r with e := w }

/-- `S(x, n)`, sha1.cpp:50. -/
def S (x : Word) (n : Nat) : Word := (x <<< n) ||| ((x &&& 0xFFFFFFFF#32) >>> (32 - n))

/-- `F(x, y, z)` in the four rounds, sha1.cpp:68, 95, 122, 149. -/
def F1 (x y z : Word) : Word := z ^^^ (x &&& (y ^^^ z))
def F2 (x y z : Word) : Word := x ^^^ y ^^^ z
def F3 (x y z : Word) : Word := (x &&& y) ||| (z &&& (x ||| y))
def F4 (x y z : Word) : Word := x ^^^ y ^^^ z

/-- `K` in the four rounds. -/
def K1 : Word := 0x5A827999#32
def K2 : Word := 0x6ED9EBA1#32
def K3 : Word := 0x8F1BBCDC#32
def K4 : Word := 0xCA62C1D6#32

/-- The last argument of `P`: `W[t]` or `R(t)`. -/
inductive Src where
  | W (t : Nat)
  | R (t : Nat)
deriving DecidableEq, Repr

/-- The arguments of one use of the macro `P`. -/
structure Args where
  a : Reg
  b : Reg
  c : Reg
  d : Reg
  e : Reg
  x : Src
deriving DecidableEq, Repr

/-- The value of the last argument and the array afterwards; `R(t)`, sha1.cpp:52-57, updates the array of 16 words. -/
def Src.eval (W : List Word) : Src → Word × List Word
  | .W t => (W[t]?.getD 0, W)
  | .R t =>
    let temp := W[(t - 3) &&& 0x0F]?.getD 0 ^^^ W[(t - 8) &&& 0x0F]?.getD 0 ^^^ W[(t - 14) &&& 0x0F]?.getD 0 ^^^
      W[t &&& 0x0F]?.getD 0
    (S temp 1, W.set (t &&& 0x0F) (S temp 1))

/-- `P(a, b, c, d, e, x)`, sha1.cpp:59-60: `{ e += S(a, 5) + F(b, c, d) + K + x; b = S(b, 30); }`. -/
def P (F : Word → Word → Word → Word) (K : Word) (s : Regs × List Word) (p : Args) : Regs × List Word :=
  let x := p.x.eval s.2
  let r := s.1
  let r := r.set p.e (r.get p.e + (S (r.get p.a) 5 + F (r.get p.b) (r.get p.c) (r.get p.d) + K + x.1))
  (r.set p.b (S (r.get p.b) 30), x.2)

/-- sha1.cpp:71-90. -/
def round1 : List Args := [
  ⟨.A, .B, .C, .D, .E, .W 0⟩,
  ⟨.E, .A, .B, .C, .D, .W 1⟩,
  ⟨.D, .E, .A, .B, .C, .W 2⟩,
  ⟨.C, .D, .E, .A, .B, .W 3⟩,
  ⟨.B, .C, .D, .E, .A, .W 4⟩,
  ⟨.A, .B, .C, .D, .E, .W 5⟩,
  ⟨.E, .A, .B, .C, .D, .W 6⟩,
  ⟨.D, .E, .A, .B, .C, .W 7⟩,
  ⟨.C, .D, .E, .A, .B, .W 8⟩,
  ⟨.B, .C, .D, .E, .A, .W 9⟩,
  ⟨.A, .B, .C, .D, .E, .W 10⟩,
  ⟨.E, .A, .B, .C, .D, .W 11⟩,
  ⟨.D, .E, .A, .B, .C, .W 12⟩,
  ⟨.C, .D, .E, .A, .B, .W 13⟩,
  ⟨.B, .C, .D, .E, .A, .W 14⟩,
  ⟨.A, .B, .C, .D, .E, .W 15⟩,
  ⟨.E, .A, .B, .C, .D, .R 16⟩,
  ⟨.D, .E, .A, .B, .C, .R 17⟩,
  ⟨.C, .D, .E, .A, .B, .R 18⟩,
  ⟨.B, .C, .D, .E, .A, .R 19⟩]

/-- sha1.cpp:98-117. -/
def round2 : List Args := [
  ⟨.A, .B, .C, .D, .E, .R 20⟩,
  ⟨.E, .A, .B, .C, .D, .R 21⟩,
  ⟨.D, .E, .A, .B, .C, .R 22⟩,
  ⟨.C, .D, .E, .A, .B, .R 23⟩,
  ⟨.B, .C, .D, .E, .A, .R 24⟩,
  ⟨.A, .B, .C, .D, .E, .R 25⟩,
  ⟨.E, .A, .B, .C, .D, .R 26⟩,
  ⟨.D, .E, .A, .B, .C, .R 27⟩,
  ⟨.C, .D, .E, .A, .B, .R 28⟩,
  ⟨.B, .C, .D, .E, .A, .R 29⟩,
  ⟨.A, .B, .C, .D, .E, .R 30⟩,
  ⟨.E, .A, .B, .C, .D, .R 31⟩,
  ⟨.D, .E, .A, .B, .C, .R 32⟩,
  ⟨.C, .D, .E, .A, .B, .R 33⟩,
  ⟨.B, .C, .D, .E, .A, .R 34⟩,
  ⟨.A, .B, .C, .D, .E, .R 35⟩,
  ⟨.E, .A, .B, .C, .D, .R 36⟩,
  ⟨.D, .E, .A, .B, .C, .R 37⟩,
  ⟨.C, .D, .E, .A, .B, .R 38⟩,
  ⟨.B, .C, .D, .E, .A, .R 39⟩]

/-- sha1.cpp:125-144. -/
def round3 : List Args := [
  ⟨.A, .B, .C, .D, .E, .R 40⟩,
  ⟨.E, .A, .B, .C, .D, .R 41⟩,
  ⟨.D, .E, .A, .B, .C, .R 42⟩,
  ⟨.C, .D, .E, .A, .B, .R 43⟩,
  ⟨.B, .C, .D, .E, .A, .R 44⟩,
  ⟨.A, .B, .C, .D, .E, .R 45⟩,
  ⟨.E, .A, .B, .C, .D, .R 46⟩,
  ⟨.D, .E, .A, .B, .C, .R 47⟩,
  ⟨.C, .D, .E, .A, .B, .R 48⟩,
  ⟨.B, .C, .D, .E, .A, .R 49⟩,
  ⟨.A, .B, .C, .D, .E, .R 50⟩,
  ⟨.E, .A, .B, .C, .D, .R 51⟩,
  ⟨.D, .E, .A, .B, .C, .R 52⟩,
  ⟨.C, .D, .E, .A, .B, .R 53⟩,
  ⟨.B, .C, .D, .E, .A, .R 54⟩,
  ⟨.A, .B, .C, .D, .E, .R 55⟩,
  ⟨.E, .A, .B, .C, .D, .R 56⟩,
  ⟨.D, .E, .A, .B, .C, .R 57⟩,
  ⟨.C, .D, .E, .A, .B, .R 58⟩,
  ⟨.B, .C, .D, .E, .A, .R 59⟩]

/-- sha1.cpp:152-171. -/
def round4 : List Args := [
  ⟨.A, .B, .C, .D, .E, .R 60⟩,
  ⟨.E, .A, .B, .C, .D, .R 61⟩,
  ⟨.D, .E, .A, .B, .C, .R 62⟩,
  ⟨.C, .D, .E, .A, .B, .R 63⟩,
  ⟨.B, .C, .D, .E, .A, .R 64⟩,
  ⟨.A, .B, .C, .D, .E, .R 65⟩,
  ⟨.E, .A, .B, .C, .D, .R 66⟩,
  ⟨.D, .E, .A, .B, .C, .R 67⟩,
  ⟨.C, .D, .E, .A, .B, .R 68⟩,
  ⟨.B, .C, .D, .E, .A, .R 69⟩,
  ⟨.A, .B, .C, .D, .E, .R 70⟩,
  ⟨.E, .A, .B, .C, .D, .R 71⟩,
  ⟨.D, .E, .A, .B, .C, .R 72⟩,
  ⟨.C, .D, .E, .A, .B, .R 73⟩,
  ⟨.B, .C, .D, .E, .A, .R 74⟩,
  ⟨.A, .B, .C, .D, .E, .R 75⟩,
  ⟨.E, .A, .B, .C, .D, .R 76⟩,
  ⟨.D, .E, .A, .B, .C, .R 77⟩,
  ⟨.C, .D, .E, .A, .B, .R 78⟩,
  ⟨.B, .C, .D, .E, .A, .R 79⟩]

/-- `sha1_process`, sha1.cpp:41-181. -/
def process (h : Host) (s : Regs) (data : List Byte) : Regs :=
  let W := readWords h false (ByteReader.ofView data) (h.words 16).val
  let r := round1.foldl (P F1 K1) (s, W)
  let r := round2.foldl (P F2 K2) r
  let r := round3.foldl (P F3 K3) r
  let r := round4.foldl (P F4 K4) r
  ⟨s.a + r.1.a, s.b + r.1.b, s.c + r.1.c, s.d + r.1.d, s.e + r.1.e⟩

/-- `Sha1::Sha1()`, sha1.cpp:219-229; the buffer is not initialised. -/
def init (h : Host) : Ctx Regs :=
  ⟨0, 0, ⟨0x67452301#32, 0xEFCDAB89#32, 0x98BADCFE#32, 0x10325476#32, 0xC3D2E1F0#32⟩, (h.bytes 64).val⟩

/-- `Sha1::digest()`, sha1.cpp:249-272: the digest and the object afterwards. -/
def digest (h : Host) (c : Ctx Regs) : Outcome (List Byte × Ctx Regs) := do
  let c ← pad h false (process h) c
  pure (output h false 20 [c.state.a, c.state.b, c.state.c, c.state.d, c.state.e], c)

/-- A new object, `update` for each piece, `digest`. -/
def hash (h : Host) (pieces : List (List Byte)) : Outcome (List Byte) := do
  let c ← updates (process h) (init h) pieces
  let r ← digest h c
  pure r.1

end Solace.Hash.Sha1
