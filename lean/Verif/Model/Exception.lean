import Verif.Model.StringBuilder
/-
Model of the message composition of exceptions: `ErrorString` and `StringWriter`
(/repo/include/solace/details/string_utils.hpp, /repo/src/errorString.cpp) and the exceptions of /repo/src/exception.cpp.

`StringView::size_type` is `uint16`. `calloc` returns zeroed memory or null (`ok = false`). A write outside the allocated
buffer or through null is `ub`; `memcpy` of zero bytes is a no-op, and forming a pointer beyond the buffer without using it
is not counted. `snprintf(p, n, ...)` writes at most `n - 1` characters and a terminating NUL, nothing when `n = 0`, and
returns the length of the whole text. The texts it prints are decimal numbers (`%u`, `%d`) and C strings (`%s`).
-/
namespace Solace.Exn

/-- The bytes of an ASCII string literal, without the terminating NUL. -/
def lit (s : String) : List Byte := s.toList.map fun c => BitVec.ofNat 8 c.toNat

/-- Decimal text of an `int`, as `%d` prints it. -/
def signedText (n : Int) : List Byte := if n < 0 then 0x2D#8 :: decimalText n.natAbs else decimalText n.natAbs

/-- `StringWriter`, string_utils.hpp:77-123: `_size`, `_offset` and the buffer of `calloc`, `none` when null. -/
structure Writer where
  size : Nat
  offset : Nat
  buffer : Option (List Byte)
deriving DecidableEq, Repr

/-- `ErrorString`, string_utils.hpp:35-73: `_size` and `_message`. -/
structure ErrorString where
  size : Nat
  message : Option (List Byte)
deriving DecidableEq, Repr

namespace Writer

/-- `StringWriter(memSize)`, errorString.cpp:69-77. -/
def create (ok : Bool) (memSize : Nat) : Writer :=
  if ok then ⟨memSize, 0, some (List.replicate (memSize + 1) 0#8)⟩ else ⟨0, 0, none⟩

/-- `remaining`, string_utils.hpp:112: `_size - _offset` converted to `uint16`. -/
def remaining (w : Writer) : Nat := sub16 w.size w.offset

/-- Writing bytes at `_buffer + _offset`. -/
def poke (w : Writer) (bytes : List Byte) : Outcome (Option (List Byte)) :=
  if bytes = [] then .ok w.buffer
  else
    match w.buffer with
    | none => .ub
    | some b =>
      if w.offset + bytes.length ≤ b.length then .ok (some (b.take w.offset ++ bytes ++ b.drop (w.offset + bytes.length)))
      else .ub

/-- `append(StringView)`, errorString.cpp:79-86. -/
def append (w : Writer) (data : List Byte) : Outcome Writer :=
  let copied := min data.length w.remaining
  w.poke (data.take copied) >>= fun b => .ok ⟨w.size, wrap16 (w.offset + copied), b⟩

/-- `append(const char*)` and `appendFormated`, errorString.cpp:88-121, for the text that is printed. -/
def print (w : Writer) (text : List Byte) : Outcome Writer :=
  w.poke (if w.remaining = 0 then [] else text.take (w.remaining - 1) ++ [0#8]) >>= fun b =>
    .ok ⟨w.size, wrap16 (w.offset + text.length), b⟩

/-- `build`, string_utils.hpp:115-118. -/
def build (w : Writer) : ErrorString := ⟨w.offset, w.buffer⟩

/-- One call on the writer. -/
inductive Call where
  | append (data : List Byte)
  | print (text : List Byte)
deriving DecidableEq, Repr

/-- A chain of calls. -/
def calls : Writer → List Call → Outcome Writer
  | w, [] => .ok w
  | w, .append d :: cs => w.append d >>= fun w' => calls w' cs
  | w, .print t :: cs => w.print t >>= fun w' => calls w' cs

end Writer

/-- `narrow_cast<size_type>(bufferSize)`, the writer, the calls and `build`. -/
def compose (ok : Bool) (bufferSize : Nat) (cs : List Writer.Call) : Outcome ErrorString :=
  (Writer.create ok (wrap16 bufferSize)).calls cs >>= fun w => .ok w.build

/-- `ErrorString(StringView)`, errorString.cpp:44-49: the result of `calloc` is not checked. -/
def ErrorString.ofView (ok : Bool) (view : List Byte) : Outcome ErrorString :=
  if ok then .ok ⟨view.length, some (view ++ [0#8])⟩ else if view = [] then .ok ⟨0, none⟩ else .ub

/-- `view`, string_utils.hpp:66: reading beyond the buffer is `ub`. -/
def ErrorString.view (s : ErrorString) : Outcome (List Byte) :=
  match s.message with
  | none => if s.size = 0 then .ok [] else .ub
  | some b => if s.size ≤ b.length then .ok (b.take s.size) else .ub

/-- `what()` = `c_str()` read as a C string (exception.cpp:170-172, string_utils.hpp:65); `none`: the null pointer. A
missing terminator is `ub`. -/
def ErrorString.what (s : ErrorString) : Outcome (Option (List Byte)) :=
  match s.message with
  | none => .ok none
  | some b => if 0#8 ∈ b then .ok (some (b.takeWhile (· ≠ 0#8))) else .ub

open Writer.Call

/-- `StringWriter::measure` of a literal: its array size, with the NUL (string_utils.hpp:91-94). -/
def measureLit (s : String) : Nat := (lit s).length + 1

/-- `formatErrorStringJoin`, exception.cpp:41-49, with `delim = " "`. -/
def formatJoin (ok : Bool) (lhs rhs : List Byte) : Outcome ErrorString :=
  compose ok (lhs.length + rhs.length + (lit " ").length) [append lhs, append (lit " "), append rhs]

/-- `formatErrono(errorCode, msgex)`, exception.cpp:51-66. `strerror` is the C function. -/
def formatErrno (ok : Bool) (strerror : Int → List Byte) (code : Int) (msg : List Byte) : Outcome ErrorString :=
  compose ok
    (msg.length + measureLit "[" + (signedText code).length + measureLit "]: " + wrap16 (strerror code).length)
    [append msg, print (lit "["), print (signedText code), print (lit "]: "), print (strerror code)]

/-- `formatIlligalArgName`, exception.cpp:74-84. -/
def formatIllegalArg (ok : Bool) (name : List Byte) : Outcome ErrorString :=
  compose ok (measureLit "Illegal argument '" + name.length + measureLit "'")
    [print (lit "Illegal argument '"), append name, print (lit "'")]

/-- `formatIndexOutOfRangeError`, exception.cpp:87-140. -/
def formatIndex (ok : Bool) (pre name reason : List Byte) (index lo hi : Nat) : Outcome ErrorString :=
  compose ok
    (pre.length + measureLit " '" + name.length + measureLit "'=" + (decimalText index).length + measureLit " " +
      reason.length + measureLit " [" + (decimalText lo).length + measureLit ", " + (decimalText hi).length +
      measureLit ")")
    ([append pre] ++ (if name ≠ [] then [print (lit " '"), append name, print (lit "'=")] else [print (lit ": ")]) ++
      [print (decimalText index), print (lit " "), append reason, print (lit " ["), print (decimalText lo),
       print (lit ", "), print (decimalText hi), print (lit ")")])

/-- The exceptions and how they are constructed: exception.hpp:38-174. Indices stand for the overloads of 16, 32 and 64
bits, which differ in nothing else. -/
inductive Exception where
  | message (text : List Byte)
  | illegalArgument
  | illegalArgumentNamed (name : List Byte)
  | indexOutOfRange
  | indexOutOfRangeOf (index lo hi : Nat)
  | indexOutOfRangeWith (index lo hi : Nat) (messagePrefix : List Byte)
  | overflow (index lo hi : Nat)
  | overflowNamed (name : List Byte) (index lo hi : Nat)
  | noSuchElement
  | noSuchElementNamed (name : List Byte)
  | invalidState
  | invalidStateTag (tag : List Byte)
  | io (text : List Byte)
  | ioCode (code : Int)
  | ioCodeText (code : Int) (text : List Byte)
  | notOpen
deriving DecidableEq, Repr

/-- The constructors, exception.cpp:162-302. -/
def construct (ok : Bool) (strerror : Int → List Byte) : Exception → Outcome ErrorString
  | .message t => ErrorString.ofView ok t
  | .illegalArgument => ErrorString.ofView ok (lit "IllegalArgumentException")
  | .illegalArgumentNamed n => formatIllegalArg ok n
  | .indexOutOfRange => ErrorString.ofView ok (lit "Index out of range")
  | .indexOutOfRangeOf i lo hi => formatIndex ok (lit "Index out of range") [] (lit "is out of range") i lo hi
  | .indexOutOfRangeWith i lo hi p => formatIndex ok p [] (lit "is out of range") i lo hi
  | .overflow i lo hi => formatIndex ok (lit "Value") [] (lit "overflows range") i lo hi
  | .overflowNamed n i lo hi => formatIndex ok (lit "Value") n (lit "overflows range") i lo hi
  | .noSuchElement => ErrorString.ofView ok (lit "No such element")
  | .noSuchElementNamed n => formatJoin ok (lit "No such element") n
  | .invalidState => ErrorString.ofView ok (lit "Invalid State")
  | .invalidStateTag t => formatJoin ok (lit "Invalid State") t
  | .io t => ErrorString.ofView ok t
  | .ioCode c => formatErrno ok strerror c (lit "IOException")
  | .ioCodeText c t => formatErrno ok strerror c t
  | .notOpen => ErrorString.ofView ok (lit "File descriptor not opened")

end Solace.Exn
