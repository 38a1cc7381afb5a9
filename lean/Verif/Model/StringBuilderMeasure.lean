import Verif.Model.StringBuilder
import Verif.Model.Exception
/-
The sizes `StringBuilder` announces for texts, the room it has left, and the builder after `build`:
/repo/include/solace/stringBuilder.hpp and /repo/src/stringBuilder.cpp.

`snprintf(nullptr, 0, format, value)` returns the length of the whole text (C standard 7.21.6.5); encoding errors (a
negative result) cannot occur for numbers. `safeFormat` (src/stringBuilder.cpp:45-55) is a template that nothing
instantiates and is left out. Builders are moved and swapped through their `ByteWriter` (`Verif.Model.StreamOwner`).
-/
namespace Solace.StringBuilder

/-- `nonNegative`, src/stringBuilder.cpp:30-35: an `int` narrowed to `uint16`. -/
def nonNegative (n : Int) : Nat := if 0 < n then wrap16 n.toNat else 0

/-- `measureFormatted` of unsigned numbers, src/stringBuilder.cpp:57-62. -/
def measureUnsigned (n : Nat) : Nat := nonNegative (decimalText n).length

/-- `measureFormatted` of signed numbers, src/stringBuilder.cpp:64-70. -/
def measureSigned (n : Int) : Nat := nonNegative (Exn.signedText n).length

/-- `measure` of a string literal, stringBuilder.hpp:49-52: the size of the array, with its terminating zero. -/
def measureLiteral (s : List Byte) : Nat := wrap16 (s.length + 1)

/-- `measure` and `measureFormatted` of what is appended, stringBuilder.hpp:39-47. For a `Char` there is no function: it is
measured as the view that `append(Char)` makes of it (src/stringBuilder.cpp:91-93). The size of a view is a `uint16`. -/
def measure : Item → Nat
  | .char _ => 1
  | .uchar c => c.getBytesCount
  | .str s => wrap16 s.length
  | .number n => measureUnsigned n

/-- `remaining`, stringBuilder.hpp:128-130: narrowed to `uint16`. -/
def remaining (w : ByteWriter) : Nat := wrap16 w.remaining

/-- The builder after `build`, src/stringBuilder.cpp:177-181 with `ByteWriter::moveResource`, byteWriter.hpp:100-105: the
storage has been moved away. -/
def afterBuild (_ : ByteWriter) : ByteWriter := ⟨[], 0, 0⟩

end Solace.StringBuilder
