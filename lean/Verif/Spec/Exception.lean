import Verif.Spec.Decimal
import Verif.Model.Exception
/-
The texts of exceptions, as a relation between an exception and its text. Numbers are written in decimal
(`Decimal.IsDecimal`); of the model only the type of exceptions and the bytes of literals (`lit`) are used.
-/
namespace Solace.Exn
open Decimal (IsDecimal)

/-- Decimal notation of an integer. -/
def IsSigned (n : Int) (t : List Byte) : Prop :=
  (0 ≤ n ∧ IsDecimal n.natAbs t) ∨ (n < 0 ∧ ∃ u, t = 0x2D#8 :: u ∧ IsDecimal n.natAbs u)

/-- `<prefix> '<name>'=<index> <reason> [<lo>, <hi>)`, and `<prefix>: <index> ...` without a name. -/
def IsRangeText (pre name reason : List Byte) (index lo hi : Nat) (t : List Byte) : Prop :=
  ∃ i l h, IsDecimal index i ∧ IsDecimal lo l ∧ IsDecimal hi h ∧
    t = pre ++ (if name = [] then lit ": " else lit " '" ++ name ++ lit "'=") ++ i ++ lit " " ++ reason ++ lit " [" ++ l ++
      lit ", " ++ h ++ lit ")"

/-- `<text>[<code>]: <strerror(code)>`. -/
def IsErrnoText (strerror : Int → List Byte) (code : Int) (text t : List Byte) : Prop :=
  ∃ c, IsSigned code c ∧ t = text ++ lit "[" ++ c ++ lit "]: " ++ strerror code

/-- The text of each exception. -/
def IsText (strerror : Int → List Byte) : Exception → List Byte → Prop
  | .message x, t => t = x
  | .illegalArgument, t => t = lit "IllegalArgumentException"
  | .illegalArgumentNamed n, t => t = lit "Illegal argument '" ++ n ++ lit "'"
  | .indexOutOfRange, t => t = lit "Index out of range"
  | .indexOutOfRangeOf i lo hi, t => IsRangeText (lit "Index out of range") [] (lit "is out of range") i lo hi t
  | .indexOutOfRangeWith i lo hi p, t => IsRangeText p [] (lit "is out of range") i lo hi t
  | .overflow i lo hi, t => IsRangeText (lit "Value") [] (lit "overflows range") i lo hi t
  | .overflowNamed n i lo hi, t => IsRangeText (lit "Value") n (lit "overflows range") i lo hi t
  | .noSuchElement, t => t = lit "No such element"
  | .noSuchElementNamed n, t => t = lit "No such element" ++ lit " " ++ n
  | .invalidState, t => t = lit "Invalid State"
  | .invalidStateTag g, t => t = lit "Invalid State" ++ lit " " ++ g
  | .io x, t => t = x
  | .ioCode c, t => IsErrnoText strerror c (lit "IOException") t
  | .ioCodeText c x, t => IsErrnoText strerror c x t
  | .notOpen, t => t = lit "File descriptor not opened"

/-- The numbers are those the C++ types can hold. -/
def InRange : Exception → Prop
  | .indexOutOfRangeOf i lo hi => i < 2 ^ 64 ∧ lo < 2 ^ 64 ∧ hi < 2 ^ 64
  | .indexOutOfRangeWith i lo hi _ => i < 2 ^ 64 ∧ lo < 2 ^ 64 ∧ hi < 2 ^ 64
  | .overflow i lo hi => i < 2 ^ 64 ∧ lo < 2 ^ 64 ∧ hi < 2 ^ 64
  | .overflowNamed _ i lo hi => i < 2 ^ 64 ∧ lo < 2 ^ 64 ∧ hi < 2 ^ 64
  | .ioCode c => -2 ^ 31 ≤ c ∧ c < 2 ^ 31
  | .ioCodeText c _ => -2 ^ 31 ≤ c ∧ c < 2 ^ 31
  | _ => True

end Solace.Exn
