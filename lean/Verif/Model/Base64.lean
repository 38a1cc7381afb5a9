import Verif.Model.ByteWriter
import Verif.Model.Base64Tables
/-
Model of /repo/src/base64.cpp. Arithmetic on promoted `int` operands is done on `Nat` (all operands are non-negative and
small) and narrowed to a byte where the code stores a byte.
-/
namespace Solace.Base64

/-- `alphabet[i]`. Indices are built from six bits, so they are below 64 (proved: `enc_index_lt`). -/
def alpha (alphabet : List Nat) (i : Nat) : Byte := BitVec.ofNat 8 (alphabet.getD i 0)

/-- `(src[i] >> 2) & 0x3F` -/
def idx0 (a : Byte) : Nat := (a.toNat >>> 2) &&& 0x3F
/-- `((src[i] & 0x3) << 4) | ((src[i+1] & 0xF0) >> 4)` -/
def idx1 (a b : Byte) : Nat := ((a.toNat &&& 0x3) <<< 4) ||| ((b.toNat &&& 0xF0) >>> 4)
/-- `((src[i+1] & 0xF) << 2) | ((src[i+2] & 0xC0) >> 6)` -/
def idx2 (b c : Byte) : Nat := ((b.toNat &&& 0xF) <<< 2) ||| ((c.toNat &&& 0xC0) >>> 6)
/-- `src[i+2] & 0x3F` -/
def idx3 (c : Byte) : Nat := c.toNat &&& 0x3F

/-- `'='` -/
def pad : Byte := 61

/-- `base64encode`, /repo/src/base64.cpp:34-70. -/
def encode (alphabet : List Nat) (dest : ByteWriter) : List Byte → ByteWriter.Call
  | [] => (dest, .ok ())
  | [a] =>
    dest.write [alpha alphabet (idx0 a), alpha alphabet ((a.toNat &&& 0x3) <<< 4), pad, pad]
  | [a, b] =>
    dest.write [alpha alphabet (idx0 a), alpha alphabet (idx1 a b), alpha alphabet ((b.toNat &&& 0xF) <<< 2), pad]
  | a :: b :: c :: rest =>
    match dest.write [alpha alphabet (idx0 a), alpha alphabet (idx1 a b), alpha alphabet (idx2 b c),
        alpha alphabet (idx3 c)] with
    | (dest', .ok _) => encode alphabet dest' rest
    | (dest', .error e) => (dest', .error e)

/-- `Base64Encoder::encodedSize`, /repo/src/base64.cpp:169-172, in `size_t` (`~3` is sign-extended). -/
def encodedSize (len : Nat) : Nat := wrap64 (wrap64 (4 * len) / 3 + 3) &&& (2 ^ 64 - 4)

/-- `decodingTable[b]`; the tables have 256 entries. -/
def look (table : List Nat) (b : Byte) : Nat := table.getD b.toNat 64

/-- `while (decodingTable[*(bufin++)] <= 63) {}`, /repo/src/base64.cpp:126-130: the number of decodable bytes before the
first other byte. `mem` is the readable memory from `src.begin()` on - the loop does not look at `src.end()`. `none`: the
loop ran off the readable memory. -/
def countDecodable (table : List Nat) : List Byte → Option Nat
  | [] => none
  | b :: rest => if look table b ≤ 63 then (countDecodable table rest).map (· + 1) else some 0

/-- The byte made of two sextets, `static_cast<byte>(t[x] << 2 | t[y] >> 4)`. -/
def byte0 (table : List Nat) (x y : Byte) : Byte := BitVec.ofNat 8 ((look table x <<< 2) ||| (look table y >>> 4))
/-- `static_cast<byte>(t[x] << 4 | t[y] >> 2)` -/
def byte1 (table : List Nat) (x y : Byte) : Byte := BitVec.ofNat 8 ((look table x <<< 4) ||| (look table y >>> 2))
/-- `static_cast<byte>(t[x] << 6 | t[y])` -/
def byte2 (table : List Nat) (x y : Byte) : Byte := BitVec.ofNat 8 ((look table x <<< 6) ||| look table y)

/-- Write one byte, then go on if that succeeded. -/
def writeThen (dest : ByteWriter) (b : Byte) (k : ByteWriter → ByteWriter.Call) : ByteWriter.Call :=
  match dest.write [b] with
  | (dest', .ok _) => k dest'
  | (dest', .error e) => (dest', .error e)

/-- The tail of `base64decode`, /repo/src/base64.cpp:148-165, for `nprbytes ≤ 4`. -/
def decodeTail (table : List Nat) (dest : ByteWriter) (n : Nat) (mem : List Byte) : Outcome ByteWriter.Call :=
  match n, mem with
  | 0, _ => .ok (dest, .ok ())
  | 1, _ => .ok (dest, .ok ())
  | 2, x :: y :: _ => .ok (writeThen dest (byte0 table x y) fun d => (d, .ok ()))
  | 3, x :: y :: z :: _ =>
    .ok (writeThen dest (byte0 table x y) fun d => writeThen d (byte1 table y z) fun d => (d, .ok ()))
  | _, x :: y :: z :: w :: _ =>
    .ok (writeThen dest (byte0 table x y) fun d => writeThen d (byte1 table y z) fun d =>
      writeThen d (byte2 table z w) fun d => (d, .ok ()))
  | _, _ => .ub

/-- The loop of `base64decode`, /repo/src/base64.cpp:133-146, followed by the tail. -/
def decodeLoop (table : List Nat) (dest : ByteWriter) (n : Nat) (mem : List Byte) : Outcome ByteWriter.Call :=
  if n > 4 then
    match mem with
    | x :: y :: z :: w :: rest =>
      match dest.write [byte0 table x y, byte1 table y z, byte2 table z w] with
      | (dest', .ok _) => decodeLoop table dest' (n - 4) rest
      | (dest', .error e) => .ok (dest', .error e)
    | _ => .ub
  else decodeTail table dest n mem
termination_by n

/-- `base64decode`, /repo/src/base64.cpp:120-166. `after` is the readable memory that follows the view `src`. -/
def decode (table : List Nat) (dest : ByteWriter) (src after : List Byte) : Outcome ByteWriter.Call :=
  if src = [] then .ok (dest, .error .nodata)
  else
    match countDecodable table (src ++ after) with
    | none => .ub
    | some n => decodeLoop table dest n (src ++ after)

/-- Leading bytes decodable with `pr2six`, the loop at /repo/src/base64.cpp:185-192. -/
def leading : List Byte → Nat
  | [] => 0
  | b :: rest => if look pr2six b ≤ 63 then leading rest + 1 else 0

/-- `Base64Decoder::decodedSize`, /repo/src/base64.cpp:175-195; `Base64UrlDecoder` uses the same function
(/repo/include/solace/base64.hpp:109). -/
def decodedSize (data : List Byte) : Nat :=
  if data = [] then 0
  else if data.length % 4 ≠ 0 then 0
  else leading data * 3 / 4

end Solace.Base64
