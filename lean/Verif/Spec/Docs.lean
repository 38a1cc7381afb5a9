import Verif.Spec.Strings
/-
What comments in the headers of /repo/include/solace say, as statements about values. Each definition quotes its comment.
-/
namespace Solace.Docs
open Strings

/-- string.hpp:208-216, `substring(from, len)`: "a substring of this string starting from 'from' of the given length". -/
def SubstringOf (s : List Byte) (start len : Nat) (t : List Byte) : Prop :=
  t.length = len ∧ ∀ i, i < len → t[i]? = s[start + i]?

/-- string.hpp:284-289, `hashCode`: "s[0]*31^(n-1) + s[1]*31^(n-2) + ... + s[n-1]", as a number. -/
def polynomial : List Byte → Int
  | [] => 0
  | c :: cs => c.toInt * 31 ^ cs.length + polynomial cs

/-- "using int arithmetic": the number of that sum that an `int` of 32 bits holds, the sum being reduced as integers of that
size are. -/
def intSum (s : List Byte) : Int := (polynomial s).bmod (2 ^ 32)

/-- string.hpp:125-134, `compareTo`: "The value 0 if the argument string is equal to this string; a value less than 0 if this
string is lexicographically less than the string argument; and a value greater than 0 if this string is lexicographically
greater". -/
def Lexicographic (s x : List Byte) (r : Int) : Prop := (r < 0 ↔ lexLt s x) ∧ (r = 0 ↔ s = x) ∧ (0 < r ↔ lexLt x s)

/-- path.hpp:297-300, `getBasename`: "The last element of the name sequence". -/
def LastElement (cs : List (List Byte)) (c : List Byte) : Prop := ∃ before, cs = before ++ [c]

/-- RFC 3629, section 3: the octets of a code point in UTF-8. -/
def utf8 (p : Nat) : List Byte :=
  if p < 0x80 then [BitVec.ofNat 8 p]
  else if p < 0x800 then [BitVec.ofNat 8 (0xC0 + p / 64), BitVec.ofNat 8 (0x80 + p % 64)]
  else if p < 0x10000 then
    [BitVec.ofNat 8 (0xE0 + p / 4096), BitVec.ofNat 8 (0x80 + p / 64 % 64), BitVec.ofNat 8 (0x80 + p % 64)]
  else
    [BitVec.ofNat 8 (0xF0 + p / 262144), BitVec.ofNat 8 (0x80 + p / 4096 % 64), BitVec.ofNat 8 (0x80 + p / 64 % 64),
      BitVec.ofNat 8 (0x80 + p % 64)]

/-- string.hpp:99-102, `length`: "Number of code points this string contains". -/
def CodePoints (points : List Nat) (n : Nat) : Prop := n = points.length

end Solace.Docs
