import Verif.Model.Endian
/-
`Char`, /repo/include/solace/char.hpp and /repo/src/char.cpp.

The union of `_value` (uint32) and `_bytes[5]` (char.hpp:266-269) is represented by its first four bytes; the fifth is
written by two constructors and never read. Reading the member of the union that was not written last is taken to give
the object representation (a GCC/Clang guarantee, not the standard's). The `<cctype>` functions are those of the "C"
locale; calling them with a value that is neither an `unsigned char` nor `EOF` is undefined (C standard 7.4).
-/
namespace Solace

/-- A character: the object representation of `_value`. -/
structure Chr where
  bytes : List Byte
deriving DecidableEq, Repr

namespace Chr

/-- `Char(byte)`, char.hpp:51-56; `Char(char)`, src/char.cpp:42-45. -/
def ofByte (c : Byte) : Chr := ⟨[c, 0#8, 0#8, 0#8]⟩

/-- `Char(value_type)`, src/char.cpp:36-40. -/
def ofValue (big : Bool) (v : Nat) : Chr := ⟨hostRepr big 4 v⟩

/-- `Char(MemoryView)`, src/char.cpp:48-56: zero filled, then every byte of the view is stored; a view of more than five
bytes is stored past the end. -/
def ofBytes (bs : List Byte) : Outcome Chr :=
  if bs.length ≤ 5 then .ok ⟨(bs ++ List.replicate 5 0#8).take 4⟩ else .ub

/-- `getValue`, char.hpp:83-85. -/
def value (big : Bool) (c : Chr) : Nat := hostValue big c.bytes

/-- The loop of `getBytesCount`, src/char.cpp:66-74. -/
def countFrom : List Byte → Nat
  | [] => 0
  | b :: bs => if b = 0#8 then 0 else countFrom bs + 1

/-- `getBytesCount`, src/char.cpp:66-74 (the object has exactly `max_bytes` = 4 bytes). -/
def getBytesCount (c : Chr) : Nat := countFrom c.bytes

/-- `getBytes`, src/char.cpp:82-84. -/
def getBytes (c : Chr) : List Byte := c.bytes.take c.getBytesCount

/-- `equals`, char.hpp:98-100. -/
def equals (big : Bool) (a b : Chr) : Bool := a.value big == b.value big
/-- `operator<`, `<=`, `>`, `>=`, char.hpp:103-117. -/
def lt (big : Bool) (a b : Chr) : Bool := a.value big < b.value big
def le (big : Bool) (a b : Chr) : Bool := a.value big ≤ b.value big
def gt (big : Bool) (a b : Chr) : Bool := b.value big < a.value big
def ge (big : Bool) (a b : Chr) : Bool := b.value big ≤ a.value big

/-! `<cctype>` in the "C" locale. -/

def cDigit (v : Nat) : Bool := 0x30 ≤ v && v ≤ 0x39
def cUpper (v : Nat) : Bool := 0x41 ≤ v && v ≤ 0x5A
def cLower (v : Nat) : Bool := 0x61 ≤ v && v ≤ 0x7A
def cAlpha (v : Nat) : Bool := cUpper v || cLower v
def cAlnum (v : Nat) : Bool := cAlpha v || cDigit v
def cXDigit (v : Nat) : Bool := cDigit v || (0x41 ≤ v && v ≤ 0x46) || (0x61 ≤ v && v ≤ 0x66)
def cSpace (v : Nat) : Bool := v == 0x20 || (0x09 ≤ v && v ≤ 0x0D)
def cCntrl (v : Nat) : Bool := v < 0x20 || v == 0x7F
def cGraph (v : Nat) : Bool := 0x21 ≤ v && v ≤ 0x7E
def cPrint (v : Nat) : Bool := 0x20 ≤ v && v ≤ 0x7E
def cPunct (v : Nat) : Bool := cGraph v && !cAlnum v

/-- Calling an `isX` function with the `uint32` value converted to `int`; `EOF` is -1. -/
def classify (p : Nat → Bool) (v : Nat) : Outcome Bool :=
  if v ≤ 255 then .ok (p v) else if v = 2 ^ 32 - 1 then .ok false else .ub

/-- Calling `tolower`/`toupper`. -/
def mapCase (f : Nat → Nat) (v : Nat) : Outcome Nat :=
  if v ≤ 255 then .ok (f v) else if v = 2 ^ 32 - 1 then .ok v else .ub

/-- src/char.cpp:87-119 -/
def isDigit (big : Bool) (c : Chr) := classify cDigit (c.value big)
def isXDigit (big : Bool) (c : Chr) := classify cXDigit (c.value big)
def isLetter (big : Bool) (c : Chr) := classify cAlpha (c.value big)
def isLetterOrDigit (big : Bool) (c : Chr) := classify cAlnum (c.value big)
def isUpperCase (big : Bool) (c : Chr) := classify cUpper (c.value big)
def isLowerCase (big : Bool) (c : Chr) := classify cLower (c.value big)
def isWhitespace (big : Bool) (c : Chr) := classify cSpace (c.value big)
/-- src/char.cpp:137-154 -/
def isCntrl (big : Bool) (c : Chr) := classify cCntrl (c.value big)
def isGraphical (big : Bool) (c : Chr) := classify cGraph (c.value big)
def isPrintable (big : Bool) (c : Chr) := classify cPrint (c.value big)
def isPunctuation (big : Bool) (c : Chr) := classify cPunct (c.value big)

/-- `(_bytes[0] == x) && (_bytes[1] == 0)`, src/char.cpp:123, 128, 133. -/
def startsAs (c : Chr) (x : Byte) : Bool := c.bytes[0]? == some x && c.bytes[1]? == some 0#8

/-- `isSymbol`, src/char.cpp:122-124. -/
def isSymbol (big : Bool) (c : Chr) : Outcome Bool := do
  let l ← c.isLetterOrDigit big
  pure (l || c.startsAs 0x5F#8)
/-- `isFirstSymbol`, src/char.cpp:127-129. -/
def isFirstSymbol (big : Bool) (c : Chr) : Outcome Bool := do
  let l ← c.isLetter big
  pure (l || c.startsAs 0x5F#8)
/-- `isNewLine`, src/char.cpp:132-134. -/
def isNewLine (c : Chr) : Bool := c.startsAs 0x0A#8

/-- `toLower`, src/char.cpp:157-159. -/
def toLower (big : Bool) (c : Chr) : Outcome Chr := do
  let v ← mapCase (fun v => if cUpper v then v + 32 else v) (c.value big)
  pure (ofValue big v)
/-- `toUpper`, src/char.cpp:162-164. -/
def toUpper (big : Bool) (c : Chr) : Outcome Chr := do
  let v ← mapCase (fun v => if cLower v then v - 32 else v) (c.value big)
  pure (ofValue big v)

end Chr
end Solace
