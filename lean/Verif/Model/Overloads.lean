import Verif.Model.Record
import Verif.Model.StringBuilderMeasure
/-
Which overload of `ByteWriter::write`, `writeLE`, `writeBE`, `ByteReader::read`, `readLE`, `readBE`, `StringBuilder::append`,
`measure`, `measureFormatted` and which constructor of `Char` a C++ compiler takes for a number, on the kinds of targets there are,
and what the call then does with the number.

Arguments are of the arithmetic types of the language. Left out: enumerations, pointers and classes (for these the overloads taking
views and strings are modelled elsewhere), `char8_t` of later standards and extended integer types. Numbers of the floating types
are represented by the bits of their object: they are only ever copied.
-/
namespace Solace.Over

/-- The arithmetic types (C++ standard 6.8.2). -/
inductive Ty where
  | bool | char | schar | uchar | short | ushort | int | uint | long | ulong | llong | ullong
  | wchar | char16 | char32 | float | double | ldouble
deriving DecidableEq, Repr

/-- What `int32_t` and `int64_t` name, and with it the size of `long`. -/
inductive Names where
  /-- `long` has 8 bytes and is `int64_t`: Linux and others on 64-bit machines -/
  | lp64
  /-- `long` has 8 bytes, `int64_t` is `long long`: macOS, OpenBSD -/
  | lp64LL
  /-- `long` has 4 bytes, `int32_t` is `int`: Windows, and Linux on 32-bit machines -/
  | long4
  /-- `long` has 4 bytes and is `int32_t`: ARM without an operating system (newlib) -/
  | long4Is32
deriving DecidableEq, Repr

/-- A target. `int` has 4 bytes (types.hpp:59-60 asks for `int32` to have 4, and all these targets use `int` so). -/
structure Target where
  names : Names
  charSigned : Bool
  wcharSigned : Bool
  /-- `wchar_t` has 4 bytes, not 2 -/
  wchar4 : Bool
  big : Bool
deriving DecidableEq, Repr

/-- `sizeof`. -/
def size (t : Target) : Ty → Nat
  | .bool | .char | .schar | .uchar => 1
  | .short | .ushort | .char16 => 2
  | .int | .uint | .char32 | .float => 4
  | .long | .ulong => match t.names with
    | .lp64 | .lp64LL => 8
    | .long4 | .long4Is32 => 4
  | .llong | .ullong | .double => 8
  | .wchar => if t.wchar4 then 4 else 2
  | .ldouble => 16

/-- Has negative values. -/
def signed (t : Target) : Ty → Bool
  | .schar | .short | .int | .long | .llong => true
  | .char => t.charSigned
  | .wchar => t.wcharSigned
  | _ => false

/-- Smallest and greatest value (of floating types: of the bits). -/
def lo (t : Target) (ty : Ty) : Int := if signed t ty then -2 ^ (8 * size t ty - 1) else 0
def hi (t : Target) (ty : Ty) : Int :=
  if ty = .bool then 1 else if signed t ty then 2 ^ (8 * size t ty - 1) - 1 else 2 ^ (8 * size t ty) - 1

/-- The aliases of types.hpp:32-39. -/
def int8 : Ty := .schar
def uint8 : Ty := .uchar
def int16 : Ty := .short
def uint16 : Ty := .ushort
def int32 (t : Target) : Ty := match t.names with
  | .long4Is32 => .long
  | _ => .int
def uint32 (t : Target) : Ty := match t.names with
  | .long4Is32 => .ulong
  | _ => .uint
def int64 (t : Target) : Ty := match t.names with
  | .lp64 => .long
  | _ => .llong
def uint64 (t : Target) : Ty := match t.names with
  | .lp64 => .ulong
  | _ => .ullong

/-- The type the promotions of C++ standard 7.3.7 and 7.3.8 convert to: the first of `int`, `unsigned int` (then `long`, ...) that
has all values; `float` to `double`. -/
def promoted (t : Target) : Ty → Option Ty
  | .bool | .char | .schar | .uchar | .short | .ushort | .char16 => some .int
  | .char32 => some .uint
  | .wchar => if t.wchar4 ∧ ¬ t.wcharSigned then some .uint else some .int
  | .float => some .double
  | _ => none

/-- How good the conversion of an argument to a parameter is (C++ standard 12.2.4.2.2, table 19): 0 the same type, 1 a promotion, 2
another conversion, which there is between all arithmetic types. -/
def rank (t : Target) (arg par : Ty) : Nat :=
  if arg = par then 0 else if promoted t arg = some par then 1 else 2

/-- Overload resolution of a call with one argument among functions with these parameters (C++ standard 12.2.4): the best one, none
when several are equally good. -/
def resolve (t : Target) (params : List Ty) (arg : Ty) : Option Ty :=
  let better (a b : Ty) := decide (rank t arg a < rank t arg b)
  match params.filter fun p => params.all fun q => p = q || better p q with
  | p :: _ => some p
  | [] => none

/-- The parameters of `ByteWriter::write`, byteWriter.hpp:215-225. -/
def writeSet (t : Target) : List Ty :=
  [.char, int8, uint8, int16, uint16, int32 t, uint32 t, int64 t, uint64 t, .float, .double]

/-- Of `writeLE`, byteWriter.hpp:238-245, and of `writeBE`, 247-254. -/
def endianSet (t : Target) : List Ty := [int8, uint8, int16, uint16, int32 t, uint32 t, int64 t, uint64 t]

/-- Of `StringBuilder::append` as far as they are arithmetic, stringBuilder.hpp:89-93: conversions to `Char`, `StringView` and
`String` are user-defined and worse than all others. -/
def appendSet (t : Target) : List Ty := [.char, uint16, uint32 t, uint64 t]

/-- Of `measureFormatted`, stringBuilder.hpp:42-47. -/
def measureSet (t : Target) : List Ty := [uint16, uint32 t, uint64 t, int16, int32 t, int64 t]

/-- Of the constructors of `Char`, char.hpp:51-62. -/
def charSet (t : Target) : List Ty := [uint8, .char, uint32 t]

/-- Of `measure`, stringBuilder.hpp:39. -/
def measureCharSet : List Ty := [.char]

/-- The bits of a value converted to a type of `n` bytes (C++ standard 7.3.9: modulo `2^(8n)`). -/
def bits (n : Nat) (v : Int) : Nat := (v % 2 ^ (8 * n)).toNat

/-- The value of the bits. -/
def valueOf (t : Target) (ty : Ty) (n : Nat) : Int :=
  if signed t ty ∧ 2 ^ (8 * size t ty - 1) ≤ n then (n : Int) - 2 ^ (8 * size t ty) else n

/-- Which function of the reader or writer is called. -/
inductive Mode where
  | host | le | be
deriving DecidableEq, Repr

/-- The integer of the record model that the call stands for. -/
def Mode.item : Mode → Nat → Nat → Item
  | .host, n, v => .host n v
  | .le, n, v => .le n v
  | .be, n, v => .be n v

def Mode.set (t : Target) : Mode → List Ty
  | .host => writeSet t
  | .le | .be => endianSet t

/-- A call of the writer with a number, byteWriter.hpp:215-254: the parameter is stored in its own width; the signed overloads cast
it to unsigned. `none`: does not compile. -/
def compileWrite (t : Target) (m : Mode) (arg : Ty) (v : Int) : Option Item :=
  (resolve t (m.set t) arg).map fun p => m.item (size t p) (bits (size t p) v)

/-- A call of the reader with a pointer or reference to a variable, byteReader.hpp:216-252: neither pointers nor references to
numbers convert to each other. `old`: the value of the variable. -/
def compileRead (t : Target) (m : Mode) (var : Ty) (old : Int) : Option Item :=
  if var ∈ m.set t then some (m.item (size t var) (bits (size t var) old)) else none

/-- The value of a variable from the integer read into it. -/
def readBack (t : Target) (ty : Ty) : Item → Int
  | .le _ n | .be _ n | .host _ n => valueOf t ty n
  | .raw _ => 0

/-- A program that writes numbers one after the other, stopping at the first error. -/
def writeAll (t : Target) (s : ByteWriter) (fs : List (Mode × Ty × Int)) : Option ByteWriter.Call :=
  (fs.mapM fun (m, ty, v) => compileWrite t m ty v).map (s.putAll t.big)

/-- A program that reads numbers into variables, stopping at the first error: the values of the variables read. -/
def readAll (t : Target) (s : ByteReader) (vars : List (Mode × Ty × Int)) :
    Option (ByteReader × List Int × Except Err Unit) :=
  (vars.mapM fun (m, ty, old) => compileRead t m ty old).map fun is =>
    let (s', vs, e) := s.pullAll t.big is
    (s', List.zipWith (fun (x : Mode × Ty × Int) i => readBack t x.2.1 i) vars vs, e)

/-- `StringBuilder::append` of a number, src/stringBuilder.cpp:85-89, 102-130: a `char` is stored, the unsigned numbers are
printed. -/
def compileAppend (t : Target) (arg : Ty) (v : Int) : Option StringBuilder.Item :=
  (resolve t (appendSet t) arg).map fun p =>
    if p = .char then .char (BitVec.ofNat 8 (bits 1 v)) else .number (bits (size t p) v)

/-- `StringBuilder::measureFormatted` of a number, src/stringBuilder.cpp:57-70. -/
def compileMeasure (t : Target) (arg : Ty) (v : Int) : Option Nat :=
  (resolve t (measureSet t) arg).map fun p =>
    if signed t p then StringBuilder.measureSigned (valueOf t p (bits (size t p) v))
    else StringBuilder.measureUnsigned (bits (size t p) v)

/-- `StringBuilder::measure` of a number: stringBuilder.hpp:39. -/
def compileMeasureChar (t : Target) (arg : Ty) : Option Nat := (resolve t measureCharSet arg).map fun _ => 1

/-- `Char` of a number, char.hpp:51-62, src/char.cpp:36-45. -/
def compileChar (t : Target) (arg : Ty) (v : Int) : Option Chr :=
  (resolve t (charSet t) arg).map fun p =>
    if p = uint32 t then Chr.ofValue t.big (bits 4 v) else Chr.ofByte (BitVec.ofNat 8 (bits 1 v))

end Solace.Over
