import Verif.Model.Base16
import Verif.Model.Base64
/-
The encoders and decoders of /repo/src/base16.cpp and /repo/src/base64.cpp when the bytes they are given lie in the memory that they write to, so that
what they write may change what they have yet to read. The other models take the source as a list of its own.

The source is given by the offset of its first byte in the buffer of the writer, and its size; bytes are read from the buffer as it is at that time, in
the order of the code. `after`: the readable memory behind the buffer, which `base64decode` may get to. Reading outside of both is undefined.
-/
namespace Solace.InPlace

/-- The byte at offset `i` now. -/
def look (w : ByteWriter) (after : List Byte) (i : Nat) : Option Byte := (w.data ++ after)[i]?

/-- `Base16Encoder::encode`, base16.cpp:107-119: `left` bytes from offset `i`. -/
def enc16 (w : ByteWriter) : Nat → Nat → Outcome ByteWriter.Call
  | 0, _ => .ok (w, .ok ())
  | left + 1, i =>
    match look w [] i with
    | none => .ub
    | some v =>
      match w.write (Base16.hexPair v) with
      | (w', .ok _) => enc16 w' left (i + 1)
      | (w', .error e) => .ok (w', .error e)

/-- The loop of `Base16Decoder::encode`, base16.cpp:144-157: `left` pairs from offset `i`. -/
def dec16Loop (w : ByteWriter) : Nat → Nat → Outcome ByteWriter.Call
  | 0, _ => .ok (w, .ok ())
  | left + 1, i =>
    match look w [] i, look w [] (i + 1) with
    | some a, some b =>
      match Base16.decode16 a b with
      | .ok (.ok value) =>
        match w.write [value] with
        | (w', .ok _) => dec16Loop w' left (i + 2)
        | (w', .error e) => .ok (w', .error e)
      | .ok (.error e) => .ok (w, .error e)
      | .throws => .throws
      | .terminate => .terminate
      | .ub => .ub
    | _, _ => .ub

/-- `Base16Decoder::encode`, base16.cpp:136-160. -/
def dec16 (w : ByteWriter) (n i : Nat) : Outcome ByteWriter.Call :=
  if n % 2 ≠ 0 then .ok (w, .error .dom) else dec16Loop w (n / 2) i

/-- `base64encode`, base64.cpp:34-70: `left` bytes from offset `i`; each group is read before it is written. -/
def enc64 (alphabet : List Nat) (w : ByteWriter) : Nat → Nat → Outcome ByteWriter.Call
  | 0, _ => .ok (w, .ok ())
  | 1, i =>
    match look w [] i with
    | some a => .ok (w.write [Base64.alpha alphabet (Base64.idx0 a), Base64.alpha alphabet ((a.toNat &&& 0x3) <<< 4), Base64.pad, Base64.pad])
    | none => .ub
  | 2, i =>
    match look w [] i, look w [] (i + 1) with
    | some a, some b =>
      .ok (w.write [Base64.alpha alphabet (Base64.idx0 a), Base64.alpha alphabet (Base64.idx1 a b),
        Base64.alpha alphabet ((b.toNat &&& 0xF) <<< 2), Base64.pad])
    | _, _ => .ub
  | left + 3, i =>
    match look w [] i, look w [] (i + 1), look w [] (i + 2) with
    | some a, some b, some c =>
      match w.write [Base64.alpha alphabet (Base64.idx0 a), Base64.alpha alphabet (Base64.idx1 a b), Base64.alpha alphabet (Base64.idx2 b c),
          Base64.alpha alphabet (Base64.idx3 c)] with
      | (w', .ok _) => enc64 alphabet w' left (i + 3)
      | (w', .error e) => .ok (w', .error e)
    | _, _, _ => .ub

/-- One `if` of the end of `base64decode`: two characters are read, one byte is written. -/
def one (w : ByteWriter) (after : List Byte) (i : Nat) (f : Byte → Byte → Byte) (k : ByteWriter → Outcome ByteWriter.Call) : Outcome ByteWriter.Call :=
  match look w after i, look w after (i + 1) with
  | some x, some y =>
    match w.write [f x y] with
    | (w', .ok _) => k w'
    | (w', .error e) => .ok (w', .error e)
  | _, _ => .ub

/-- The end of `base64decode`, base64.cpp:148-165: the characters are read again after each byte written. -/
def dec64Tail (table : List Nat) (w : ByteWriter) (after : List Byte) (n i : Nat) : Outcome ByteWriter.Call :=
  if n ≤ 1 then .ok (w, .ok ())
  else one w after i (Base64.byte0 table) fun w =>
    if n ≤ 2 then .ok (w, .ok ())
    else one w after (i + 1) (Base64.byte1 table) fun w =>
      if n ≤ 3 then .ok (w, .ok ())
      else one w after (i + 2) (Base64.byte2 table) fun w => .ok (w, .ok ())

/-- The loop of `base64decode`, base64.cpp:133-146, and what follows. -/
def dec64Loop (table : List Nat) (w : ByteWriter) (after : List Byte) (n i : Nat) : Outcome ByteWriter.Call :=
  if n > 4 then
    match look w after i, look w after (i + 1), look w after (i + 2), look w after (i + 3) with
    | some x, some y, some z, some u =>
      match w.write [Base64.byte0 table x y, Base64.byte1 table y z, Base64.byte2 table z u] with
      | (w', .ok _) => dec64Loop table w' after (n - 4) (i + 4)
      | (w', .error e) => .ok (w', .error e)
    | _, _, _, _ => .ub
  else dec64Tail table w after n i
termination_by n

/-- `base64decode`, base64.cpp:120-166, of `n` characters from offset `i`: it counts before it writes anything. -/
def dec64 (table : List Nat) (w : ByteWriter) (after : List Byte) (n i : Nat) : Outcome ByteWriter.Call :=
  if n = 0 then .ok (w, .error .nodata)
  else
    match Base64.countDecodable table ((w.data ++ after).drop i) with
    | none => .ub
    | some c => dec64Loop table w after c i

end Solace.InPlace
