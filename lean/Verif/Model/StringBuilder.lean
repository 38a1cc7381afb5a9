import Verif.Model.ByteWriter
import Verif.Model.Char
import Verif.Model.StringView
import Verif.Model.String
/-
`StringBuilder`, /repo/src/stringBuilder.cpp and /repo/include/solace/stringBuilder.hpp.

The builder is its `ByteWriter`. `clear`, `erase`, `operator=(String)`, `operator[]`, `replace`, `lastIndexOf` and the
other `indexOf` overloads are declared in the header but not defined anywhere.
-/
namespace Solace

/-- The text `snprintf` produces for an unsigned number with `%u` (C standard 7.21.6.1), least digits last; at most
`fuel` digits. -/
def decimalDigits : Nat → Nat → List Byte
  | 0, _ => []
  | fuel + 1, n =>
    if n < 10 then [BitVec.ofNat 8 (0x30 + n)]
    else decimalDigits fuel (n / 10) ++ [BitVec.ofNat 8 (0x30 + n % 10)]

/-- Decimal text of an unsigned number of at most 64 bits (20 digits). -/
def decimalText (n : Nat) : List Byte := decimalDigits 20 n

/-- `snprintf(pos, capacity, ...)` of a text into a writer's storage at its position: at most `capacity - 1` characters
and a terminating zero, nothing when the capacity is 0. -/
def snprintfAt (w : ByteWriter) (capacity : Nat) (text : List Byte) : ByteWriter :=
  if capacity = 0 then w
  else { w with data := ByteWriter.overwrite w.data w.position (text.take (capacity - 1) ++ [0#8]) }

namespace StringBuilder

/-- `append(uint16)`, `append(uint32)`, `append(uint64)` with `maybeAdvance`, src/stringBuilder.cpp:37-42, 102-130. -/
def appendNumber (w : ByteWriter) (n : Nat) : ByteWriter :=
  let capacity := w.viewRemaining.length
  let text := decimalText n
  let w' := snprintfAt w capacity text
  if 0 < text.length ∧ text.length < capacity then (w'.advance text.length).1 else w'

/-- An item to append. -/
inductive Item where
  | char (c : Byte)
  | uchar (c : Chr)
  | str (s : List Byte)
  | number (n : Nat)
deriving DecidableEq, Repr

/-- `append`, src/stringBuilder.cpp:85-130: the results of the writes are ignored. -/
def append (w : ByteWriter) : Item → ByteWriter
  | .char c => (w.write [c]).1
  | .uchar c => (w.write c.getBytes).1
  | .str s => (w.write s).1
  | .number n => appendNumber w n

/-- A sequence of appends. -/
def run (w : ByteWriter) (items : List Item) : ByteWriter := items.foldl append w

/-- Constructor from a buffer and an initial string, src/stringBuilder.cpp:73-83. -/
def make (buffer : List Byte) (str : List Byte) : ByteWriter := ((ByteWriter.ofBuffer buffer).write str).1

/-- `StringView(MemoryView)`: the size is narrowed to `uint16` (stringView.hpp:86-89). -/
def narrowView (v : List Byte) : List Byte := v.take (wrap16 v.length)

/-- `view`, src/stringBuilder.cpp:133-136. -/
def view (w : ByteWriter) : List Byte := narrowView w.viewWritten

/-- `empty`, src/stringBuilder.cpp:139-141. -/
def empty (w : ByteWriter) : Bool := w.position == 0

/-- `length`, src/stringBuilder.cpp:143-146: `uint16`. -/
def length (w : ByteWriter) : Nat := wrap16 w.position

/-- `substring`, src/stringBuilder.cpp:149-153. -/
def substring (w : ByteWriter) (from_ to : Nat) : List Byte := narrowView (MemoryView.slice w.viewWritten from_ to)

/-- One round of the loop of `indexOf`: the bytes read into the zero-filled buffer of 4 bytes, src/stringBuilder.cpp:165-166.
The result of `read` is ignored. -/
def window (data : List Byte) (i count : Nat) : List Byte :=
  ((ByteReader.ofView data).readAt i (List.replicate count 0#8)).dest ++ List.replicate (4 - count) 0#8

/-- The loop of `indexOf`, src/stringBuilder.cpp:164-171: `i` is a `uint16`. -/
def indexOfLoop (big : Bool) (data : List Byte) (ch : Chr) : Nat → Nat → Option (Option Nat)
  | 0, _ => none
  | fuel + 1, i =>
    if i + ch.getBytesCount < data.length then
      if ch.equals big ⟨window data i ch.getBytesCount⟩ then some (some i)
      else indexOfLoop big data ch fuel (wrap16 (i + 1))
    else some none

/-- `indexOf(Char, fromIndex)`, src/stringBuilder.cpp:156-174. -/
def indexOf (big : Bool) (w : ByteWriter) (ch : Chr) (fromIndex fuel : Nat) : Option (Option Nat) :=
  indexOfLoop big w.viewWritten ch fuel fromIndex

/-- `build`, src/stringBuilder.cpp:177-181: the storage becomes the string's buffer. -/
def build (w : ByteWriter) : Str := ⟨w.data, length w⟩

end StringBuilder
end Solace
