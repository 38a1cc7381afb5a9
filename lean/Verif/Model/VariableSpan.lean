import Verif.Model.Endian
/-
Model of `VariableSpan` (/repo/include/solace/variableSpan.hpp). The element type `T` is `MemoryView`, or anything built
from one: what is modelled is the view that `value_type{data}` gets.
-/
namespace Solace.VariableSpan

/-- `EncoderType`, variableSpan.hpp:31-35. -/
inductive Enc where
  | natural
  | little
  | big
deriving DecidableEq, Repr

/-- Reading the size prefix of `n` bytes into a variable that is 0: `TypedChunkReader::readChunk`, variableSpan.hpp:42-70;
`host` tells whether the host is big-endian. The result of the read is ignored. -/
def readSize (host : Bool) (n : Nat) (r : ByteReader) : Enc → ByteReader × Except Err (Option Byte) × Nat
  | .natural => (r.read (hostRepr host n 0)).asInt host
  | .little => r.readLEInt host n 0
  | .big => r.readBEInt host n 0

/-- `TypedChunkReader::readChunk`: the size read and the rest of the data. -/
def readChunk (host : Bool) (n : Nat) (enc : Enc) (src : List Byte) : Nat × List Byte :=
  let r := readSize host n (.ofView src) enc
  (r.2.2, r.1.viewRemaining)

/-- `Iterator`, variableSpan.hpp:143-145. -/
structure Iter where
  nElements : Nat
  data : List Byte
deriving DecidableEq, Repr

/-- `operator++`, variableSpan.hpp:114-126. -/
def Iter.next (host : Bool) (n : Nat) (enc : Enc) (it : Iter) : Iter :=
  if it.nElements = 0 then it
  else
    let c := readChunk host n enc it.data
    ⟨sub16 it.nElements 1, MemoryView.slice c.2 c.1 c.2.length⟩

/-- `operator->` and `operator*`, variableSpan.hpp:128-141. -/
def Iter.deref (host : Bool) (n : Nat) (enc : Enc) (it : Iter) : Outcome (List Byte) :=
  if it.nElements = 0 then .throws
  else
    let c := readChunk host n enc it.data
    .ok (MemoryView.slice c.2 0 c.1)

/-- `for (it = begin(); it != end(); ++it) out.push(*it)`: iterators are compared by `_nElements` (variableSpan.hpp:107).
`fuel` bounds the number of rounds (`none` = not finished). -/
def Iter.collect (host : Bool) (n : Nat) (enc : Enc) : Nat → Iter → List (List Byte) → Option (Outcome (List (List Byte)))
  | 0, _, _ => none
  | fuel + 1, it, acc =>
    if it.nElements = 0 then some (.ok acc)
    else
      match it.deref host n enc with
      | .ok piece => collect host n enc fuel (it.next host n enc) (acc ++ [piece])
      | _ => some .throws

end Solace.VariableSpan
