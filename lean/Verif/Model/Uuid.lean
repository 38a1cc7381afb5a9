import Verif.Model.Base16
import Verif.Model.String
import Verif.Model.MemoryView
/-
Model of `UUID` (/repo/src/uuid.cpp, /repo/include/solace/uuid.hpp). A UUID is the list of its 16 bytes (`_bytes`).
-/
namespace Solace.Uuid

/-- `UUID::StaticSize`, uuid.hpp:52. -/
def staticSize : Nat := 16

/-- `UUID::StringSize`, uuid.hpp:56. -/
def stringSize : Nat := 36

/-- The sign of `memcmp` on two memory areas of the same size (C standard 7.24.4.1): bytes compared as `unsigned char`. -/
def memcmp : List Byte → List Byte → Int
  | x :: xs, y :: ys => if x.toNat < y.toNat then -1 else if y.toNat < x.toNat then 1 else memcmp xs ys
  | _, _ => 0

/-- `UUID::isNull`, uuid.cpp:58-65. The sum of 16 bytes does not overflow an `int`. -/
def isNull (u : List Byte) : Bool := u.foldl (fun s v => s + v.toNat) 0 == 0

/-- `UUID::equals`, uuid.cpp:67-69 (and `==`, uuid.hpp:171-173). -/
def equals (a b : List Byte) : Bool := memcmp a b == 0

/-- `operator <`, uuid.cpp:87-89. -/
def lt (a b : List Byte) : Bool := memcmp a b < 0

/-- `operator >`, `<=`, `>=`, uuid.hpp:179-189. -/
def gt (a b : List Byte) : Bool := lt b a
def le (a b : List Byte) : Bool := !lt b a
def ge (a b : List Byte) : Bool := !lt a b

/-- `UUID::toString(buffer)`, uuid.cpp:103-122: the writes into the buffer (results ignored; the encoder writes to the
same `ByteWriter`), then the view of its first 36 bytes. -/
def toStringInto (u buffer : List Byte) : List Byte :=
  let dest := (Base16.encode (.ofBuffer buffer) (MemoryView.slice u 0 4)).1
  let dest := (dest.write [0x2D#8]).1
  let dest := (Base16.encode dest (MemoryView.slice u 4 6)).1
  let dest := (dest.write [0x2D#8]).1
  let dest := (Base16.encode dest (MemoryView.slice u 6 8)).1
  let dest := (dest.write [0x2D#8]).1
  let dest := (Base16.encode dest (MemoryView.slice u 8 10)).1
  let dest := (dest.write [0x2D#8]).1
  let dest := (Base16.encode dest (MemoryView.slice u 10 16)).1
  MemoryView.slice dest.data 0 stringSize

/-- `UUID::toString()`, uuid.cpp:92-100: `stack` is the previous content of the 36-byte local buffer. A failing
allocation gives the empty string. -/
def toString (alloc : Nat → Except Err MutView) (stack u : List Byte) : Str :=
  match Str.make alloc (toStringInto u stack) with
  | .ok s => s
  | .error _ => ⟨[], 0⟩

/-- The loop of `UUID::parse`, uuid.cpp:140-153, with `n` characters left to `StringSize`, `src` the memory at `src + i`,
`done` the bytes stored so far (`dest - data` of them). `charToBin(src[i + 1])` may read beyond the text; storing a
17th byte is out of bounds. `decode16` is the same expression as in /repo/src/base16.cpp:169-182. -/
def parseLoop : Nat → List Byte → List Byte → Outcome (Except Err (List Byte))
  | 0, _, done => .ok (.ok done)
  | _ + 1, [], _ => .ub
  | n + 1, c :: rest, done =>
    if c = 0x2D#8 then parseLoop n rest done
    else
      match rest with
      | [] => .ub
      | d :: rest' =>
        match Base16.decode16 c d with
        | .ok (.ok v) => if done.length < staticSize then parseLoop (n - 1) rest' (done ++ [v]) else .ub
        | .ok (.error e) => .ok (.error e)
        | .throws => .throws
        | .terminate => .terminate
        | .ub => .ub

/-- `UUID::parse`, uuid.cpp:131-156: `after` is the memory following the text, `stack` the previous content of the
16-byte local array `data`, of which only the bytes stored by the loop have been replaced when it is copied. -/
def parse (stack str after : List Byte) : Outcome (Except Err (List Byte)) :=
  if str.length ≠ stringSize then .ok (.error .nodata)
  else do
    match ← parseLoop stringSize (str ++ after) [] with
    | .error e => pure (.error e)
    | .ok done => pure (.ok (done ++ stack.drop done.length))

/-- `makeUUID(MemoryView)`, uuid.cpp:159-169: throws for less than 16 bytes. -/
def ofView (v : List Byte) : Outcome (List Byte) := if v.length < staticSize then .throws else .ok (v.take staticSize)

/-- `makeUUID(a0, a1, a2, a3)`, uuid.cpp:172-183: the object representations of the four words, one after the other. The
array is filled completely, so its previous content does not matter. -/
def ofWords (a0 a1 a2 a3 : List Byte) : List Byte :=
  (((((ByteWriter.ofBuffer (List.replicate staticSize 0#8)).write a0).1.write a1).1.write a2).1.write a3).1.data

end Solace.Uuid
