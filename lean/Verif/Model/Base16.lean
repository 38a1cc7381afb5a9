import Verif.Model.ByteWriter
import Verif.Model.Base16Tables
/-
Model of /repo/src/base16.cpp: bulk encoder and decoder writing to a `ByteWriter`, and the two iterators.
-/
namespace Solace.Base16

/-- `wrapMemory(kBase16Alphabet_l[value], 2)`: the two characters of a byte. The index is a byte and the table has 256
entries, so the default of `getD` is never used. -/
def hexPair (value : Byte) : List Byte :=
  let e := kBase16Alphabet_l.getD value.toNat (0, 0)
  [BitVec.ofNat 8 e.1, BitVec.ofNat 8 e.2]

/-- `Base16Encoder::encodedSize(len)`, /repo/src/base16.cpp:94-98. -/
def encodedSize (len : Nat) : Nat := wrap64 (2 * len)

/-- `Base16Encoder::encode`, /repo/src/base16.cpp:107-119. -/
def encode (dest : ByteWriter) : List Byte → ByteWriter.Call
  | [] => (dest, .ok ())
  | value :: rest =>
    match dest.write (hexPair value) with
    | (dest', .ok _) => encode dest' rest
    | (dest', .error e) => (dest', .error e)

/-- `charToBin`, /repo/src/base16.cpp:82-91: the table has 128 entries, so indexing it with a byte above 127 is
undefined behaviour. -/
def charToBin (c : Byte) : Outcome (Except Err Nat) :=
  match kHexToBin[c.toNat]? with
  | none => .ub
  | some value => if value < 0 then .ok (.error .ilseq) else .ok (.ok value.toNat)

/-- `decode16`, /repo/src/base16.cpp:169-182, also the body of the decoder loop at 145-153: both characters are looked
up before either is checked; the sum is narrowed to a byte. -/
def decode16 (a b : Byte) : Outcome (Except Err Byte) := do
  let high ← charToBin a
  let low ← charToBin b
  match high, low with
  | .error e, _ => pure (.error e)
  | .ok _, .error e => pure (.error e)
  | .ok h, .ok l => pure (.ok (BitVec.ofNat 8 ((h <<< 4) + l)))

/-- `Base16Decoder::encodedSize(len)`, /repo/src/base16.cpp:122-125. -/
def decodedSize (len : Nat) : Nat := len / 2

/-- The loop of `Base16Decoder::encode`, /repo/src/base16.cpp:144-157, entered with an even number of characters. A
single remaining character cannot occur (`src[i + 1]` would throw). -/
def decodeLoop (dest : ByteWriter) : List Byte → Outcome ByteWriter.Call
  | [] => .ok (dest, .ok ())
  | [_] => .throws
  | a :: b :: rest =>
    match decode16 a b with
    | .ok (.ok value) =>
      match dest.write [value] with
      | (dest', .ok _) => decodeLoop dest' rest
      | (dest', .error e) => .ok (dest', .error e)
    | .ok (.error e) => .ok (dest, .error e)
    | .throws => .throws
    | .terminate => .terminate
    | .ub => .ub

/-- `Base16Decoder::encode`, /repo/src/base16.cpp:136-160. -/
def decode (dest : ByteWriter) (src : List Byte) : Outcome ByteWriter.Call :=
  if src.length % 2 ≠ 0 then .ok (dest, .error .dom) else decodeLoop dest src

/-- Iterating `base16Encode_begin(src) .. base16Encode_end(src)`, /repo/include/solace/base16.hpp:53-87 and
/repo/src/base16.cpp:163-166: the pieces yielded by `operator*`. -/
def encodeIter : List Byte → List (List Byte)
  | [] => []
  | value :: rest => hexPair value :: encodeIter rest

/-- State of a `Base16Decoded_Iterator`: what is left from `_i` to `_end`, and `_decodedValue` (uninitialised when
`none`). -/
structure DecIter where
  left : List Byte
  value : Option Byte
deriving DecidableEq, Repr

/-- Common part of the constructor and `operator++`, /repo/src/base16.cpp:191-204 and 213-226. -/
def DecIter.load (left : List Byte) (old : Option Byte) : Outcome DecIter :=
  match left with
  | [] => .ok ⟨[], old⟩
  | [_] => .ok ⟨[], old⟩
  | a :: b :: rest =>
    match decode16 a b with
    | .ok (.ok v) => .ok ⟨a :: b :: rest, some v⟩
    | .ok (.error _) => .ok ⟨[], old⟩
    | .throws => .throws
    | .terminate => .terminate
    | .ub => .ub

/-- Constructor, /repo/src/base16.cpp:185-205. -/
def DecIter.begin (src : List Byte) : Outcome DecIter := load src none

/-- `operator++`, /repo/src/base16.cpp:208-229. Advancing past the end is undefined behaviour. -/
def DecIter.next (it : DecIter) : Outcome DecIter :=
  match it.left with
  | _ :: _ :: rest => load rest it.value
  | _ => .ub

/-- `operator*`, /repo/include/solace/base16.hpp:126-128; reading the uninitialised member is undefined. -/
def DecIter.deref (it : DecIter) : Outcome Byte :=
  match it.value with
  | some v => .ok v
  | none => .ub

/-- The loop `for (; it != end; ++it) out.push(*it)`; `it != end` compares positions only. `fuel` bounds the number of
iterations (`none` = not finished). -/
def DecIter.collect : Nat → DecIter → Option (Outcome (List Byte))
  | 0, _ => none
  | fuel + 1, it =>
    if it.left = [] then some (.ok [])
    else
      match it.deref, it.next with
      | .ok v, .ok it' =>
        match collect fuel it' with
        | none => none
        | some (.ok vs) => some (.ok (v :: vs))
        | some other => some other
      | .ok _, .throws => some .throws
      | .ok _, .terminate => some .terminate
      | _, _ => some .ub

end Solace.Base16
