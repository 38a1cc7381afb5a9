import Verif.Model.Path
import Verif.Model.Atom
import Verif.Model.String
import Verif.Model.Char
import Verif.Model.Uuid
/-
The functions whose C++ text leaves something to the machine: whether `char` is signed (x86: yes, most ARM targets: no) and in which
order the bytes of an integer lie in memory. The other models fix `char` as signed; the definitions here take the machine as an
argument, and C141 compares what two machines compute. `int` has 32 bits, `size_t` 64, on all of them.
-/
namespace Solace.Machine

/-- A machine. -/
structure Machine where
  signedChar : Bool
  big : Bool
deriving DecidableEq, Repr

/-- A `char` promoted to `int` (C++ standard 7.3.7): all values of `char` fit. -/
def promote (m : Machine) (c : Byte) : Int := if m.signedChar then c.toInt else c.toNat

/-- A `char` converted to `uint64` (C++ standard 7.3.9): the value modulo 2^64. -/
def widen (m : Machine) (c : Byte) : BitVec 64 := BitVec.ofInt 64 (promote m c)

/-- `StringView::compareTo`, src/stringView.cpp:55-68: `charAt` returns a `char`, and the function an `int`. `strncmp` compares
unsigned characters on all machines. -/
def compareTo (m : Machine) (s x : List Byte) : Outcome Int :=
  if s.length > x.length then
    (do let c ← StringView.charAt s (sub16 x.length 1); pure (promote m c)).noexcept
  else if s.length < x.length then
    (do let c ← StringView.charAt x (sub16 x.length 1); pure (-promote m c)).noexcept
  else .ok (StringView.strncmp s.length s x)

/-- The loop of `Path::compareTo`, src/path.cpp:138-147. -/
def comparePathLoop (m : Machine) : List (List Byte) → List (List Byte) → Outcome Int
  | a :: as, b :: bs => do
    let diff ← compareTo m a b
    if diff ≠ 0 then pure diff else comparePathLoop m as bs
  | _, _ => .ok 0

/-- `Path::compareTo`, src/path.cpp:135-151. -/
def comparePath (m : Machine) (p q : Path) : Outcome Int := do
  let diff ← comparePathLoop m p.comps q.comps
  if diff ≠ 0 then pure diff else pure ((p.comps.length : Int) - q.comps.length)

/-- `StringView::hashCode`, src/stringView.cpp:221-232. -/
def hashCode (m : Machine) (s : List Byte) : BitVec 64 := s.foldl (fun h c => widen m c + h * 31#64) 0#64

/-- `makeStringReplace(str, char, char)`, src/string.cpp:52-74: a `byte` is compared with a `char`. -/
def makeReplaceChar (m : Machine) (alloc : Nat → Except Err MutView) (s : List Byte) (what with' : Byte) : Except Err Str :=
  match alloc s.length with
  | .error e => .error e
  | .ok v =>
    match v.write s with
    | (_, .error e) => .error e
    | (v', .ok _) =>
      .ok ⟨v'.bytes.zipIdx.map fun (b, i) => if i < s.length ∧ (b.toNat : Int) = promote m what then with' else b, s.length⟩

/-- The loop of `detail::wrap`, atom.hpp:51-55. -/
def wrapLoop (m : Machine) : Nat → List Byte → BitVec 64 → Nat → BitVec 64 × Nat
  | 0, _, n, i => (n, i)
  | _ + 1, [], n, i => (n, i)
  | k + 1, c :: rest, n, i => if c = 0#8 then (n, i) else wrapLoop m k rest ((n <<< 8) ||| widen m c) (i + 1)

/-- `detail::wrap(str, len)`, atom.hpp:47-60. -/
def wrap (m : Machine) (str : List Byte) : BitVec 64 :=
  let r := wrapLoop m 8 str 0#64 0
  if r.2 = 0 then 0#64 else r.1 <<< ((8 - r.2) * 8)

/-- `tryParseAtom`, src/atom.cpp:64-73. -/
def tryParse (m : Machine) (str : List Byte) : Except Err (BitVec 64) :=
  if str.length > 8 then .error .parse else .ok (wrap m str)

/-- `detail::unwrap`, atom.hpp:62-73: the mask is the `char` with all bits set, converted to `uint64`. -/
def toBuffer (m : Machine) (n : BitVec 64) : List Byte :=
  (List.range 8).map (fun i => ((n >>> ((8 - i - 1) * 8)) &&& widen m 0xFF#8).setWidth 8) ++ [0#8]

/-- `Char::isWhitespace(_data[i])`, src/stringView.cpp:192 and 197: the character becomes a `Char` (src/char.cpp:42-45), whose value
is handed to `isspace` (src/char.cpp:117-119). -/
def isSpace (m : Machine) (c : Byte) : Outcome Bool := (Chr.ofByte c).isWhitespace m.big

/-- First loop of `trim()`, src/stringView.cpp:191-193, `k` iterations left. -/
def trimFrom (m : Machine) (s : List Byte) : Nat → Nat → Outcome Nat
  | 0, i => .ok i
  | k + 1, i =>
    match s[i]? with
    | some c => do
      let space ← isSpace m c
      if space then trimFrom m s k (i + 1) else pure i
    | none => .ok i

/-- Second loop of `trim()`, src/stringView.cpp:196-199. -/
def trimTo (m : Machine) (s : List Byte) (from' : Nat) : Nat → Outcome Nat
  | 0 => .ok 0
  | t + 1 =>
    if from' + 1 < t + 1 then
      match s[t]? with
      | some c => do
        let space ← isSpace m c
        if space then trimTo m s from' t else pure (t + 1)
      | none => .ok (t + 1)
    else .ok (t + 1)

/-- `StringView::trim()`, src/stringView.cpp:188-202. -/
def trim (m : Machine) (s : List Byte) : Outcome (List Byte) := do
  let f ← trimFrom m s s.length 0
  let t ← trimTo m s f s.length
  pure (StringView.substring s f t)

/-- The callback of `split`, src/dialstring.cpp:30-44. -/
def onPiece (m : Machine) (r : Except Err DialString.Dial) (piece : List Byte) (i : Nat) : Outcome (Except Err DialString.Dial) :=
  match r with
  | .error e => .ok (.error e)
  | .ok ds =>
    if i = 0 then do
      let t ← trim m piece
      match tryParse m t with
      | .ok a => pure (.ok { ds with protocol := a })
      | .error _ => pure (.error .invalidInput)
    else if i = 1 then do
      let t ← trim m piece
      pure (.ok { ds with address := t })
    else if i = 2 then do
      let t ← trim m piece
      pure (.ok { ds with service := t })
    else .ok (.ok ds)

/-- `tryParseDailString`, src/dialstring.cpp:22-48; `fuel` bounds the loops of `split` (`none` = not finished). -/
def parseDial (m : Machine) (fuel : Nat) (data : List Byte) : Option (Outcome (Except Err DialString.Dial)) :=
  if data.length = 0 then some (.ok (.error .invalidInput))
  else
    let result : Except Err DialString.Dial := .ok ⟨wrap m [0#8], data, []⟩
    if (StringView.indexOfChar data 0x3A#8 0).isSome then
      match StringView.split3 fuel data [0x3A#8] with
      | none => none
      | some (calls, _) => some (calls.foldlM (fun r c => onPiece m r c.1 c.2.1) result)
    else some (.ok result)

/-- `makeUUID(a0, a1, a2, a3)`, src/uuid.cpp:172-183, of four words: `writer.write(uint32)` stores the words as they lie in memory
(byteWriter.hpp:215-223). -/
def uuidOfWords (m : Machine) (a0 a1 a2 a3 : Nat) : List Byte :=
  Uuid.ofWords (hostRepr m.big 4 a0) (hostRepr m.big 4 a1) (hostRepr m.big 4 a2) (hostRepr m.big 4 a3)

end Solace.Machine
