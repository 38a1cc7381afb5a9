import Verif.Conformance.Basic
import Verif.Model.Base16
import Verif.Model.Base64
import Verif.Model.StringBuilder
/-
/repo/test/test_base16.cpp, test_base64.cpp and test_stringBuilder.cpp.
-/
namespace Solace.Conformance.TestEncoding
open Solace

def room (n : Nat) : ByteWriter := .ofBuffer (List.replicate n 0xCD#8)

def written (r : ByteWriter.Call) : Option (List Byte) := (ok? r.2).map fun _ => r.1.viewWritten
def writtenO (r : Outcome ByteWriter.Call) : Option (List Byte) := (val r).bind written
def isError (r : Outcome ByteWriter.Call) : Bool := (val r).map (fun x => (ok? x.2).isNone) == some true

def message := b "This is test message we want to encode"
def messageHex := b "546869732069732074657374206d6573736167652077652077616e7420746f20656e636f6465"

-- Base16: testEncodedSize, testDecodedSize, 28-46
#guard [0, 1, 2, 3, 4, 5, 6].map Base16.encodedSize = [0, 2, 4, 6, 8, 10, 12]
#guard [0, 1, 2, 3, 4, 5, 6].map Base16.decodedSize = [0, 0, 1, 1, 2, 2, 3]
-- testBasicEncoding, 48-96
#guard [0, 1, 2, 3, 4, 5, 6].map (fun n => written (Base16.encode (room 80) ((b "foobar").take n))) =
  ["", "66", "666f", "666f6f", "666f6f62", "666f6f6261", "666f6f626172"].map (fun t => some (b t))
#guard written (Base16.encode (room 80) message) = some messageHex
-- testBasicEncodingIterator, 98-109
#guard (Base16.encodeIter message).flatten = messageHex && (Base16.encodeIter message).all (·.length == 2)
-- testBasicDecoding, 111-157
#guard ["", "66", "666F", "666F6F", "666F6F62", "666F6F6261", "666F6F626172"].map (fun t => writtenO (Base16.decode (room 80) (b t))) =
  ["", "f", "fo", "foo", "foob", "fooba", "foobar"].map (fun t => some (b t))
#guard writtenO (Base16.decode (room 80)
  (b "546869732069732074657374206D6573736167652077652077616E7420746F20656E636F6465")) = some message
-- testDecodingIterator, 159-171: `wrapMemory` of a literal has the terminating NUL in it
#guard ((val (Base16.DecIter.begin (messageHex ++ [0#8]))).bind (·.collect 99)).bind val = some message
-- testDecodingIterator_InvalidInputLenght, _InvalidData, 173-200
#guard (val (Base16.DecIter.begin (c "F"))).map (·.left) = some []
#guard ((val (Base16.DecIter.begin (c "F65"))).bind (·.collect 99)).bind val = some [0xF6#8]
#guard (val (Base16.DecIter.begin (c "pX"))).map (·.left) = some []
#guard ((val (Base16.DecIter.begin (c "F6k"))).bind (·.collect 99)).bind val = some [0xF6#8]
-- decodingInvalidInputThrows, decodingInputOfUnEvenSizeThrows, decodingIntoSmallerBufferErrors, 203-224
#guard isError (Base16.decode (room 30) ((b "some! Not base16 (c)").take 18))
#guard isError (Base16.decode (room 30) ((b "666F6F626172").take 11))
#guard isError (Base16.decode (room 30) ((b "666F6F626172").take 9))
#guard isError (Base16.decode (room 3) (b "666F6F626172"))

-- Base64: testEncodedSize, testDecodedSize, 30-49
#guard [0, 1, 2, 3, 4, 5, 6].map Base64.encodedSize = [0, 4, 4, 4, 8, 8, 8]
#guard ["", "Zg==", "Zm8=", "Zm9v", "Zm9vYg==", "Zm9vYmE=", "Zm9vYmFy"].map (fun t => Base64.decodedSize (b t)) = [0, 1, 2, 3, 4, 5, 6]
-- testBasicEncoding, 51-97
#guard [0, 1, 2, 3, 4, 5, 6].map (fun n => written (Base64.encode kBase64Alphabet (room 64) ((b "foobar").take n))) =
  ["", "Zg==", "Zm8=", "Zm9v", "Zm9vYg==", "Zm9vYmE=", "Zm9vYmFy"].map (fun t => some (b t))
#guard written (Base64.encode kBase64Alphabet (room 64) message) = some (b "VGhpcyBpcyB0ZXN0IG1lc3NhZ2Ugd2Ugd2FudCB0byBlbmNvZGU=")
-- testBasicDecoding, 99-145: nothing is written for the empty text; the last text is given with its terminating NUL
#guard (val (Base64.decode pr2six (room 64) [] [0#8])).map (·.1.viewWritten) = some []
#guard ["Zg==", "Zm8=", "Zm9v", "Zm9vYg==", "Zm9vYmE=", "Zm9vYmFy"].map (fun t => writtenO (Base64.decode pr2six (room 64) (b t) [0#8])) =
  ["f", "fo", "foo", "foob", "fooba", "foobar"].map (fun t => some (b t))
#guard writtenO (Base64.decode pr2six (room 64) (c "VGhpcyBpcyB0ZXN0IG1lc3NhZ2Ugd2Ugd2FudCB0byBlbmNvZGU=") []) = some message
-- testBasicUrlEncoding, testBasicUrlDecoding, 147-167
#guard written (Base64.encode kBase64UrlAlphabet (room 70) (b "This is test message encoded as a URL safe base64")) =
  some (b "VGhpcyBpcyB0ZXN0IG1lc3NhZ2UgZW5jb2RlZCBhcyBhIFVSTCBzYWZlIGJhc2U2NA==")
#guard writtenO (Base64.decode prUrl2six (room 70) (b "VGhpcyBpcyB0ZXN0IG1lc3NhZ2UgZW5jb2RlZCBhcyBhIFVSTCBzYWZlIGJhc2U2NA==") [0#8]) =
  some (b "This is test message encoded as a URL safe base64")
-- testMultilineMessageEncoding, testMultilineMessageDecoding, 170-195
def lines := b "This is line one\nThis is line two\nThis is line three\nAnd so on...\n"
def linesText := b "VGhpcyBpcyBsaW5lIG9uZQpUaGlzIGlzIGxpbmUgdHdvClRoaXMgaXMgbGluZSB0aHJlZQpBbmQgc28gb24uLi4K"
#guard written (Base64.encode kBase64Alphabet (room 90) lines) = some linesText
#guard writtenO (Base64.decode pr2six (room 90) linesText [0#8]) = some lines
-- testUnicodeCharactersEncoding, testUnicodeCharactersDecoding, 197-220
#guard written (Base64.encode kBase64Alphabet (room 30) (b "foo © bar 𝌆 baz")) = some (b "Zm9vIMKpIGJhciDwnYyGIGJheg==")
#guard writtenO (Base64.decode pr2six (room 30) (b "Zm9vIMKpIGJhciDwnYyGIGJheg==") [0#8]) = some (b "foo © bar 𝌆 baz")

-- StringBuilder: testNullString, testConstruction, testToString, 48-118
def some' := b "Some static string"
#guard StringBuilder.empty (StringBuilder.make [0#8, 0#8, 0#8, 0#8, 0#8] [])
#guard StringBuilder.empty (room 0) && StringBuilder.view (room 0) = []
#guard StringBuilder.empty (room 36) && StringBuilder.view (room 36) = []
#guard !StringBuilder.empty (StringBuilder.make (List.replicate 18 0xCD#8) some')
#guard StringBuilder.view (StringBuilder.make (List.replicate 18 0xCD#8) some') = some'
#guard StringBuilder.view (StringBuilder.make (List.replicate 36 0xCD#8) some') = some'

end Solace.Conformance.TestEncoding
