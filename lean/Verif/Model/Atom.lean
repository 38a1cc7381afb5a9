import Verif.Model.StringView
/-
Model of atoms (/repo/include/solace/atom.hpp, /repo/src/atom.cpp) and dial strings
(/repo/src/dialstring.cpp, /repo/include/solace/dialstring.hpp). `std::uintmax_t` has 64 bits; `char` is signed.
-/
namespace Solace.Atom

/-- The loop of `detail::wrap` (atom.hpp:51-55) over the first `min(N, len)` characters, `N = sizeof(T) = 8`: the value
and the number of characters taken. `str[i]` is sign extended before it is combined with `n`. -/
def wrapLoop : Nat → List Byte → BitVec 64 → Nat → BitVec 64 × Nat
  | 0, _, n, i => (n, i)
  | _ + 1, [], n, i => (n, i)
  | k + 1, c :: rest, n, i => if c = 0#8 then (n, i) else wrapLoop k rest ((n <<< 8) ||| c.signExtend 64) (i + 1)

/-- `detail::wrap(str, len)`, atom.hpp:47-60, for a text of `len` characters. The shift distance is below 64 when
`i ≠ 0`. -/
def wrap (str : List Byte) : BitVec 64 :=
  let r := wrapLoop 8 str 0#64 0
  if r.2 = 0 then 0#64 else r.1 <<< ((8 - r.2) * 8)

/-- `atom("...")`, atom.hpp:79-87: at most seven characters (`Size` counts the terminating NUL, and longer literals do not
compile). `wrap` stops at the terminating NUL. -/
def atom (literal : List Byte) : BitVec 64 := wrap (literal ++ [0#8])

/-- `detail::unwrap`, atom.hpp:62-73 (`atomToString`, 88-91): the nine characters stored. `lastbyte` is the `char` -1, so
the mask keeps all bits, and the cast keeps the lowest eight. -/
def toBuffer (n : BitVec 64) : List Byte :=
  (List.range 8).map (fun i => ((n >>> ((8 - i - 1) * 8)) &&& (0xFF#8).signExtend 64).setWidth 8) ++ [0#8]

/-- `tryParseAtom`, src/atom.cpp:64-73. -/
def tryParse (str : List Byte) : Except Err (BitVec 64) := if str.length > 8 then .error .parse else .ok (wrap str)

end Solace.Atom

namespace Solace.DialString

/-- `DialString`, dialstring.hpp:53-57. -/
structure Dial where
  protocol : BitVec 64
  address : List Byte
  service : List Byte
deriving DecidableEq, Repr

/-- The callback of `split`, src/dialstring.cpp:30-44, called with a piece and its index. -/
def onPiece (r : Except Err Dial) (piece : List Byte) (i : Nat) : Except Err Dial :=
  match r with
  | .error e => .error e
  | .ok ds =>
    if i = 0 then
      match Atom.tryParse (StringView.trim piece) with
      | .ok a => .ok { ds with protocol := a }
      | .error _ => .error .invalidInput
    else if i = 1 then .ok { ds with address := StringView.trim piece }
    else if i = 2 then .ok { ds with service := StringView.trim piece }
    else .ok ds

/-- `tryParseDailString`, src/dialstring.cpp:22-48; `fuel` bounds the loops of `split` (`none` = not finished). -/
def parse (fuel : Nat) (data : List Byte) : Option (Except Err Dial) :=
  if data.length = 0 then some (.error .invalidInput)
  else
    let result : Except Err Dial := .ok ⟨Atom.atom [], data, []⟩
    if (StringView.indexOfChar data 0x3A#8 0).isSome then
      match StringView.split3 fuel data [0x3A#8] with
      | none => none
      | some (calls, _) => some (calls.foldl (fun r c => onPiece r c.1 c.2.1) result)
    else some result

end Solace.DialString
