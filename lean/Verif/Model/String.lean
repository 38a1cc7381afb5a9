import Verif.Model.StringView
import Verif.Model.ByteWriter
/-
Making strings (/repo/include/solace/string.hpp, /repo/src/string.cpp).

`alloc n` stands for `getSystemHeapMemoryManager().allocate(n)` (C17, C18): an error, or memory of `n` bytes with
arbitrary previous content (null when `malloc(0)` returns null). A returned `String` is the bytes of its buffer and its
size; `view()` is what the caller sees. Argument lists are lists of string views; the arguments of the variadic
functions that are `String`s are `const` lvalues (with a non-const one `totalSize` calls itself for ever, because the
forwarding template at string.hpp:519-522 is the better match).
-/
namespace Solace

/-- `_buffer` and `_size` of a `String`, string.hpp:350-352. -/
structure Str where
  buffer : List Byte
  size : Nat
deriving DecidableEq, Repr

namespace Str

/-- `String::view`, string.hpp:328-330. -/
def view (s : Str) : List Byte := MemoryView.slice s.buffer 0 s.size

/-- `makeString(StringView)`, src/string.cpp:29-43. -/
def make (alloc : Nat → Except Err MutView) (s : List Byte) : Except Err Str :=
  match alloc s.length with
  | .error e => .error e
  | .ok v =>
    match v.write s with
    | (_, .error e) => .error e
    | (v', .ok _) => .ok ⟨v'.bytes, s.length⟩

/-- The writes of `writeAllArgs` (string.hpp:542-545): stops at the first failing one. -/
def writeArgs (w : ByteWriter) : List (List Byte) → ByteWriter
  | [] => w
  | a :: as =>
    match w.write a with
    | (w', .ok _) => writeArgs w' as
    | (w', .error _) => w'

/-- `makeString(lhs, rhs, args...)`, string.hpp:552-582: the total length is a `uint16` (`totalSize`, 482-521) and the
result of the writes is ignored. -/
def makeConcat (alloc : Nat → Except Err MutView) (args : List (List Byte)) : Except Err Str :=
  let total := wrap16 (args.map List.length).sum
  match alloc total with
  | .error e => .error e
  | .ok v => .ok ⟨(writeArgs (.ofBuffer v.bytes) args).data, total⟩

/-- The writing loop of `makeStringJoin(by, list)` (src/string.cpp:198-212). -/
def writeJoin (w : ByteWriter) (by' : List Byte) : List (List Byte) → ByteWriter.Call
  | [] => (w, .ok ())
  | [a] => w.write a
  | a :: b :: as =>
    match w.write a with
    | (w', .error e) => (w', .error e)
    | (w', .ok _) =>
      match w'.write by' with
      | (w'', .error e) => (w'', .error e)
      | (w'', .ok _) => writeJoin w'' by' (b :: as)

/-- The length computed by `makeStringJoin(by, list)` (src/string.cpp:185-188); `list.size() - 1` and the product are
`size_t`. -/
def joinLength (by' : List Byte) (list : List (List Byte)) : Nat :=
  wrap16 (wrap16 (wrap64 (by'.length * sub64 list.length 1)) + (list.map List.length).sum)

/-- `makeStringJoin(by, list)`, src/string.cpp:184-216. -/
def makeJoin (alloc : Nat → Except Err MutView) (by' : List Byte) (list : List (List Byte)) : Except Err Str :=
  match alloc (joinLength by' list) with
  | .error e => .error e
  | .ok v =>
    match writeJoin (.ofBuffer v.bytes) by' list with
    | (_, .error e) => .error e
    | (w, .ok _) => .ok ⟨w.data, joinLength by' list⟩

/-- `writeJointArgs`, string.hpp:672-739. Each argument says whether it is a `String` (its overloads, 698-708 and
727-737, ignore the result of writing the delimiter) or a `StringView` (685-695, 713-724). -/
def writeJointArgs (w : ByteWriter) (by' : List Byte) : List (Bool × List Byte) → ByteWriter.Call
  | [] => (w, .ok ())
  | [(_, a)] => w.write a
  | (isString, a) :: b :: as =>
    match w.write a with
    | (w', .error e) => (w', .error e)
    | (w', .ok _) =>
      match w'.write by' with
      | (w'', .error e) => if isString then writeJointArgs w'' by' (b :: as) else (w'', .error e)
      | (w'', .ok _) => writeJointArgs w'' by' (b :: as)

/-- `makeStringJoin(by, args...)` for two or more arguments, string.hpp:743-782 (`by` a string or a single
character). -/
def makeJoinArgs (alloc : Nat → Except Err MutView) (by' : List Byte) (args : List (Bool × List Byte)) : Except Err Str :=
  let total := wrap16 (by'.length * (args.length - 1) + wrap16 (args.map (·.2.length)).sum)
  match alloc total with
  | .error e => .error e
  | .ok v =>
    match writeJointArgs (.ofBuffer v.bytes) by' args with
    | (_, .error e) => .error e
    | (w, .ok _) => .ok ⟨w.data, total⟩

/-- `makeStringReplace(str, char, char)`, src/string.cpp:52-74: the stored `byte` (0..255) is compared with a `char`
(-128..127), both promoted to `int`. -/
def makeReplaceChar (alloc : Nat → Except Err MutView) (s : List Byte) (what with' : Byte) : Except Err Str :=
  match alloc s.length with
  | .error e => .error e
  | .ok v =>
    match v.write s with
    | (_, .error e) => .error e
    | (v', .ok _) =>
      .ok ⟨v'.bytes.zipIdx.map fun (b, i) => if i < s.length ∧ (b.toNat : Int) = what.toInt then with' else b, s.length⟩

/-- The writing loop of `makeStringReplace` (src/string.cpp:98-109): results of the writes are ignored. -/
def replaceLoop (s what by' : List Byte) : Nat → Nat → Nat → ByteWriter → Option (ByteWriter × Nat)
  | 0, _, _, _ => none
  | fuel + 1, to', from', w =>
    if to' < s.length ∧ to' + what.length ≤ s.length then
      if StringView.equals what (StringView.substring s to' (wrap16 (to' + what.length))) then
        replaceLoop s what by' fuel (wrap16 (sub16 (to' + what.length) 1 + 1)) (wrap16 (sub16 (to' + what.length) 1 + 1))
          ((w.write (StringView.substring s from' (wrap16 (from' + sub16 to' from')))).1.write by').1
      else replaceLoop s what by' fuel (wrap16 (to' + 1)) from' w
    else some (w, from')

/-- `makeStringReplace(str, what, by)`, src/string.cpp:77-116. `none`: does not return within the fuel. The sum
`srcStrLen + byLen * delimCount` is computed in `int` and overflows from 2^31 on; `unwrap` of a failed allocation
throws. -/
def makeReplace (alloc : Nat → Except Err MutView) (fuel : Nat) (s what by' : List Byte) :
    Option (Outcome (Except Err Str)) :=
  match StringView.split3Count s what fuel 0 0 with
  | none => none
  | some n =>
    if 2 ^ 31 ≤ s.length + by'.length * n then some .ub
    else
      let newLen := wrap16 (s.length + by'.length * n - what.length * n)
      match alloc newLen with
      | .error _ => some .throws
      | .ok v =>
        match replaceLoop s what by' fuel 0 0 (.ofBuffer v.bytes) with
        | none => none
        | some (w, from') =>
          match w.write (StringView.substring s from' s.length) with
          | (_, .error e) => some (.ok (.error e))
          | (w', .ok _) => some (.ok (.ok ⟨w'.data, newLen⟩))

end Str
end Solace
