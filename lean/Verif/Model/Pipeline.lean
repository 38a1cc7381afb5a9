import Verif.Model.Base16
import Verif.Model.Base64
/-
Encoders one after the other, and the decoders in reverse order: the output of one stage is the input of the next
(`Base16Encoder`, `Base64Encoder`, `Base64UrlEncoder` and their decoders: /repo/include/solace/base16.hpp, base64.hpp,
/repo/src/base16.cpp, base64.cpp). The loops are the caller's; each stage has a buffer of its own. An encoder gets the room it
announces, a decoder as much room as its text is long. `tail` is the memory behind each text.
-/
namespace Solace.Pipeline

inductive Codec where
  | base16
  | base64
  | base64url
deriving DecidableEq, Repr

/-- `encodedSize`, base16.cpp:94-98 and base64.cpp:169-172. -/
def Codec.encodedSize : Codec → Nat → Nat
  | .base16, n => Base16.encodedSize n
  | .base64, n => Base64.encodedSize n
  | .base64url, n => Base64.encodedSize n

/-- `encode` of the encoders, base16.cpp:107-119, base64.cpp:204-212. -/
def Codec.encode (dest : ByteWriter) (src : List Byte) : Codec → ByteWriter.Call
  | .base16 => Base16.encode dest src
  | .base64 => Base64.encode kBase64Alphabet dest src
  | .base64url => Base64.encode kBase64UrlAlphabet dest src

/-- `encode` of the decoders, base16.cpp:136-160, base64.cpp:214-222. -/
def Codec.decode (dest : ByteWriter) (src tail : List Byte) : Codec → Outcome ByteWriter.Call
  | .base16 => Base16.decode dest src
  | .base64 => Base64.decode pr2six dest src tail
  | .base64url => Base64.decode prUrl2six dest src tail

/-- One stage of encoding. -/
def encodeOne (c : Codec) (bytes : List Byte) : Except Err (List Byte) :=
  match c.encode (.ofBuffer (List.replicate (c.encodedSize bytes.length) 0#8)) bytes with
  | (w, .ok _) => .ok w.viewWritten
  | (_, .error e) => .error e

/-- One stage of decoding. -/
def decodeOne (tail : List Byte) (c : Codec) (text : List Byte) : Outcome (Except Err (List Byte)) := do
  match ← c.decode (.ofBuffer (List.replicate text.length 0#8)) text tail with
  | (w, .ok _) => pure (.ok w.viewWritten)
  | (_, .error e) => pure (.error e)

/-- All stages of encoding; the first error ends it. -/
def encodeAll : List Codec → List Byte → Except Err (List Byte)
  | [], bytes => .ok bytes
  | c :: cs, bytes =>
    match encodeOne c bytes with
    | .ok text => encodeAll cs text
    | .error e => .error e

/-- All stages of decoding; the first error ends it. -/
def decodeAll (tail : List Byte) : List Codec → List Byte → Outcome (Except Err (List Byte))
  | [], text => .ok (.ok text)
  | c :: cs, text => do
    match ← decodeOne tail c text with
    | .ok bytes => decodeAll tail cs bytes
    | .error e => pure (.error e)

/-- Encode with all codecs in order, decode in reverse order. -/
def thereAndBack (tail : List Byte) (cs : List Codec) (bytes : List Byte) : Outcome (Except Err (List Byte)) :=
  match encodeAll cs bytes with
  | .ok text => decodeAll tail cs.reverse text
  | .error e => .ok (.error e)

end Solace.Pipeline
