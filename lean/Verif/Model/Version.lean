import Verif.Model.StringView
import Verif.Model.String
import Verif.Model.StringBuilder
/-
`Version`, /repo/include/solace/version.hpp and /repo/src/version.cpp.

Numbers are `uint32`; the two labels are represented by the content of the `String`s. `alloc` is the system heap memory
manager, as in `Verif.Model.String`. `strtoul` (C standard 7.22.1.4, 64-bit `unsigned long`) works on the memory that
starts at the piece and continues after the parsed view: `after` is that memory, and reading past its end is undefined
behaviour.
-/
namespace Solace

structure Version where
  major : Nat
  minor : Nat
  patch : Nat
  preRelease : List Byte
  build : List Byte
deriving DecidableEq, Repr

namespace Version

/-- `operator>`, src/version.cpp:51-66. -/
def gt (a b : Version) : Bool :=
  if a.major > b.major then true
  else if a.major < b.major then false
  else if a.minor > b.minor then true
  else if a.minor < b.minor then false
  else a.patch > b.patch

/-- `operator<`, version.hpp:135-137. -/
def lt (a b : Version) : Bool := !gt a b

/-- `equals`, version.hpp:139-144, and `==`, 186-188. -/
def equals (a b : Version) : Bool :=
  a.major == b.major && a.minor == b.minor && a.patch == b.patch && StringView.equals a.preRelease b.preRelease

/-- `bufferSize` of `toString`, src/version.cpp:71-79 (`int` arithmetic, no overflow). -/
def bufferSize (v : Version) : Nat :=
  (decimalText v.major).length + (decimalText v.minor).length + (decimalText v.patch).length + 2 +
    (if v.preRelease = [] then 0 else 1 + v.preRelease.length) + (if v.build = [] then 0 else 1 + v.build.length) + 1

/-- The appends of `toString`, src/version.cpp:86-100. -/
def items (v : Version) : List StringBuilder.Item :=
  [.number v.major, .char 0x2E#8, .number v.minor, .char 0x2E#8, .number v.patch] ++
    (if v.preRelease = [] then [] else [.char 0x2D#8, .str v.preRelease]) ++
    (if v.build = [] then [] else [.char 0x2B#8, .str v.build])

/-- `toString`, src/version.cpp:69-103: an empty string when there is no memory. -/
def toString (alloc : Nat → Except Err MutView) (v : Version) : Str :=
  match alloc v.bufferSize with
  | .error _ => ⟨[], 0⟩
  | .ok m => StringBuilder.build (StringBuilder.run (.ofBuffer m.bytes) v.items)

def isDigit (c : Byte) : Bool := 0x30#8 ≤ c && c ≤ 0x39#8

/-- The value `strtoul` gives to the digits: saturated, negated after a minus sign. -/
def digitsValue (neg : Bool) (ds : List Byte) : Nat :=
  let n := ds.foldl (fun a c => 10 * a + (c.toNat - 0x30)) 0
  if 2 ^ 64 ≤ n then 2 ^ 64 - 1 else if neg then (2 ^ 64 - n) % 2 ^ 64 else n

/-- `strtoul(p, &end, 10)` on the memory starting at `p`: the value and the number of characters consumed; `none` when it
reads past the end of the memory. -/
def strtoul (mem : List Byte) : Option (Nat × Nat) :=
  let m1 := mem.dropWhile StringView.isSpace
  let signed := m1.head? == some 0x2D#8 || m1.head? == some 0x2B#8
  let m2 := if signed then m1.drop 1 else m1
  let ds := m2.takeWhile isDigit
  if ds.length = m2.length then none
  else if ds = [] then some (0, 0)
  else
    some (digitsValue (m1.head? == some 0x2D#8) ds, mem.length - m2.length + ds.length)

/-- A component: the value is converted to `uint32`. -/
def number (mem : List Byte) : Outcome (Nat × Nat) :=
  match strtoul mem with
  | none => .ub
  | some (v, n) => .ok (wrap32 v, n)

/-- The labels, src/version.cpp:143-177. -/
def labels (alloc : Nat → Except Err MutView) (s : List Byte) : Except Err (List Byte × List Byte) :=
  if s = [] then .ok ([], [])
  else
    let pieces := (StringView.splitChar s 0x2B#8).1
    match Str.make alloc (StringView.trimChar (pieces.headD []) 0x2D#8) with
    | .error e => .error e
    | .ok pre =>
      if pieces.length = 1 then .ok (pre.view, [])
      else
        match Str.make alloc (pieces.getD 1 []) with
        | .error e => .error e
        | .ok build => if 2 < wrap16 pieces.length then .error .invalidInput else .ok (pre.view, build.view)

/-- `afterPatch`, src/version.cpp:125-129: `pe` is the offset of `patchEnd` in the memory; the distance to the end of the
view is converted to `uint16`. A view that is not inside the memory is undefined behaviour. -/
def afterPatch (str mem : List Byte) (pe : Nat) : Outcome (List Byte) :=
  if pe = str.length then .ok []
  else
    let size := (((str.length : Int) - pe) % 65536).toNat
    if pe + size ≤ mem.length then .ok ((mem.drop pe).take size) else .ub

/-- The components and the rest, src/version.cpp:107-137: `none` when there are fewer than three. -/
def numbers (str mem : List Byte) : Outcome (Option (Nat × Nat × Nat × List Byte)) :=
  match (StringView.splitChar str 0x2E#8).1 with
  | [] => .ok none
  | p :: ps => do
    let maj ← number mem
    match ps with
    | [] => pure none
    | q :: qs =>
      let min ← number (mem.drop (p.length + 1))
      match qs with
      | [] => pure none
      | _ :: _ =>
        let pat ← number (mem.drop (p.length + 1 + q.length + 1))
        let rest ← afterPatch str mem (p.length + 1 + q.length + 1 + pat.2)
        pure (some (maj.1, min.1, pat.1, rest))

/-- `parse`, src/version.cpp:106-182. `null`: the view has no data (default constructed), `strtoul` of the null pointer. -/
def parse (alloc : Nat → Except Err MutView) (null : Bool) (str after : List Byte) : Outcome (Except Err Version) :=
  if null then .ub
  else do
    match ← numbers str (str ++ after) with
    | none => pure (.error .invalidInput)
    | some (maj, min, pat, rest) =>
      match labels alloc rest with
      | .error e => pure (.error e)
      | .ok (pre, build) => pure (.ok ⟨maj, min, pat, pre, build⟩)

/-- `parse(String const&)`, version.hpp:75-78: the view of a string, followed in memory by the rest of its buffer. -/
def parseStr (alloc : Nat → Except Err MutView) (s : Str) : Outcome (Except Err Version) :=
  parse alloc false s.view (s.buffer.drop s.size)

end Version
end Solace
