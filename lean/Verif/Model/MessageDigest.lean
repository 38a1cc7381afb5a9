import Verif.Model.Base16
import Verif.Model.String
import Verif.Model.Vector
/-
`MessageDigest`, /repo/src/hashing/messageDigest.cpp and /repo/include/solace/hashing/messageDigest.hpp: an `Array<byte>`,
here the list of its elements.
-/
namespace Solace.MessageDigest

/-- `MessageDigest(MemoryView)`, messageDigest.cpp:32-34: `moveResult` of a failed `makeArray` throws. `alloc` as in
Model/String; the bytes are copied one by one into the new memory (array.hpp:388-404). -/
def make (alloc : Nat → Except Err MutView) (bytes : List Byte) : Outcome (List Byte) :=
  match alloc bytes.length with
  | .error _ => .throws
  | .ok v => if bytes.length ≤ v.bytes.length then .ok (bytes ++ v.bytes.drop bytes.length) else .ub

/-- `size`, messageDigest.hpp:81-83, and `getDigestLength`, 73-75. -/
def size (d : List Byte) : Nat := d.length
def getDigestLength (d : List Byte) : Nat := wrap64 (size d * 8)

/-- `operator[]`, messageDigest.hpp:85-89. -/
def index (d : List Byte) (i : Nat) : Outcome Byte :=
  if i < size d then
    match d[i]? with
    | some b => .ok b
    | none => .ub
  else .throws

/-- `toString`, messageDigest.cpp:37-58. `vector` is the result of `makeVector<char>(encodedSize(size()))`: an error, or the
vector made (Model/Vector) and the characters of its memory. The results of the writes are ignored. -/
def toString (alloc : Nat → Except Err MutView) (vector : Nat → Except Err (Vec Byte × List Byte)) (d : List Byte) : Str :=
  match vector (Base16.encodedSize (size d)) with
  | .error _ => ⟨[], 0⟩
  | .ok (buffer, chars) =>
    let dest := ByteWriter.ofBuffer (chars.take buffer.next)
    let dest := (Base16.encodeIter d).foldl (fun w piece => (w.write piece).1) dest
    match Str.make alloc dest.data with
    | .error _ => ⟨[], 0⟩
    | .ok s => s

/-- `makeVector<char>(n)` of vector.hpp:376-384: an error, or a vector without elements of capacity `n`. -/
def VectorOk (vector : Nat → Except Err (Vec Byte × List Byte)) : Prop :=
  ∀ n v chars, vector n = .ok (v, chars) → v = Vec.make 1 n

end Solace.MessageDigest
