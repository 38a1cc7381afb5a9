import Verif.Model.Exception
/-
Model of the assertions (/repo/include/solace/assert.hpp, /repo/src/assert.cpp). `Except.error e` is the exception thrown. The
functions exist for 16, 32 and 64 bits, with the same code; numbers are natural numbers. A tag is the characters of a C string
up to the null character; a pointer is `none` when null and otherwise an address. `errno` is the value of that variable.
-/
namespace Solace.Assert
open Exn (lit)

/-- The conversion of a C string to a `StringView`, stringView.cpp:29-35: the length is narrowed to 16 bits. -/
def viewOf (tag : List Byte) : List Byte := tag.take (wrap16 tag.length)

/-- `assertFail`, assert.cpp:118-121. -/
def fail (tag : List Byte) : Exn.Exception := .message (viewOf tag)

/-- `assertFailErrno`, assert.cpp:123-126. -/
def failErrno (errno : Int) (tag : List Byte) : Exn.Exception := .ioCodeText errno (viewOf tag)

/-- `raiseInvalidStateError()`, assert.cpp:107-110. -/
def invalidState : Exn.Exception := .invalidState

/-- `raiseInvalidStateError(tag)`, assert.cpp:112-115. -/
def invalidStateTag (tag : List Byte) : Exn.Exception := .invalidStateTag (viewOf tag)

/-- `assertTrue(condition, tag)`, assert.hpp:56-60. -/
def assertTrue (condition : Bool) (tag : List Byte) : Except Exn.Exception Unit := if !condition then .error (fail tag) else .ok ()

/-- `assertTrue(condition)`, assert.hpp:73-75. -/
def assertTrue1 (condition : Bool) : Except Exn.Exception Unit := assertTrue condition (lit "Assertion failed")

/-- `assertErrno`, assert.hpp:62-67. -/
def assertErrno (condition : Bool) (errno : Int) (tag : List Byte) : Except Exn.Exception Unit :=
  if !condition then .error (failErrno errno tag) else .ok ()

/-- `assertNull(ptr, message)`, assert.hpp:85-89. -/
def assertNull (ptr : Option Nat) (message : List Byte) : Except Exn.Exception (Option Nat) :=
  (assertTrue (ptr == none) message).bind fun _ => .ok ptr

/-- `assertNotNull(ptr, message)`, assert.hpp:96-100. -/
def assertNotNull (ptr : Option Nat) (message : List Byte) : Except Exn.Exception (Option Nat) :=
  (assertTrue (ptr != none) message).bind fun _ => .ok ptr

/-- `assertNull(ptr)` and `assertNull<T>(value)`, assert.hpp:107-109, 127-132. -/
def assertNull1 (ptr : Option Nat) : Except Exn.Exception (Option Nat) :=
  assertNull ptr (lit "Assertion violation: Null pointer value passed.")

/-- `assertNotNull(ptr)` and `assertNotNull<T>(value)`, assert.hpp:115-125. -/
def assertNotNull1 (ptr : Option Nat) : Except Exn.Exception (Option Nat) :=
  assertNotNull ptr (lit "Assertion violation: Null pointer value passed.")

/-- `assertValueInRange(index, from, to)`, assert.cpp:29-54. -/
def valueInRange (index from' to' : Nat) : Except Exn.Exception Nat :=
  if to' ≤ index ∨ index < from' then .error (.indexOutOfRangeOf index from' to') else .ok index

/-- `assertValueInRange(index, from, to, message)`, assert.cpp:57-79. -/
def valueInRangeWith (index from' to' : Nat) (message : List Byte) : Except Exn.Exception Nat :=
  if to' ≤ index ∨ index < from' then .error (.indexOutOfRangeWith index from' to' (viewOf message)) else .ok index

/-- `assertIndexInRange(index, size, message)`, assert.cpp:83-105. -/
def indexInRange (index size : Nat) (message : List Byte) : Except Exn.Exception Nat :=
  if size ≤ index then .error (.indexOutOfRangeWith index 0 size (viewOf message)) else .ok index

/-- `IOException::getErrorCode`, exception.hpp:160-165, with the constructors exception.cpp:277-302; `none`: not an
`IOException`. -/
def errorCode : Exn.Exception → Option Int
  | .io _ => some (-1)
  | .ioCode c => some c
  | .ioCodeText c _ => some c
  | .notOpen => some (-1)
  | _ => none

end Solace.Assert
