import Verif.Conformance.Basic
import Verif.Model.Md5
import Verif.Model.Sha1
import Verif.Model.Sha2
import Verif.Model.Sha2Smaller
import Verif.Model.Murmur3
/-
/repo/test/hashing/test_md5.cpp, test_sha1.cpp, test_sha256.cpp and test_murmur3.cpp: the digests expected there, on hosts of both
byte orders and with different data in memory that is not initialised. The Murmur tests expect the results of a host with the lowest
byte first (see C63).
-/
namespace Solace.Conformance.TestHashing
open Solace Solace.Hash

def host (big : Bool) (x : Nat) : Host :=
  ⟨big, fun n => ⟨List.replicate n (BitVec.ofNat 8 x), List.length_replicate⟩, fun n => ⟨List.replicate n (BitVec.ofNat 32 x), List.length_replicate⟩⟩

def digit (n : Nat) : Char := if n < 10 then Char.ofNat (48 + n) else Char.ofNat (87 + n)
def hex (l : List Byte) : String := String.ofList (l.flatMap fun x => [digit (x.toNat / 16), digit (x.toNat % 16)])

def both (f : Host → Bool) : Bool := [(false, 0), (true, 7), (false, 255)].all fun (big, x) => f (host big x)

def md5 (h : Host) (l : List (List Byte)) : Option String := (val (Md5.hash h l)).map hex
def sha1 (h : Host) (l : List (List Byte)) : Option String := (val (Sha1.hash h l)).map hex
/-- Both variants of the source, chosen by a macro (C103). -/
def sha256 (h : Host) (l : List (List Byte)) : Option String :=
  let r := (val (Sha2.hash h l)).map hex
  if r = (val (Sha2.Smaller.hash h l)).map hex then r else none
def murmur32 (h : Host) (l : List (List Byte)) : Option String :=
  (val (l.foldlM (fun c x => Murmur.M32.update { h with big := false } c 16 x) (Murmur.M32.new 0))).map
    fun c => hex (c.digest { h with big := false }).1
def murmur128 (h : Host) (l : List (List Byte)) : Option String :=
  (val (l.foldlM (fun c x => Murmur.M128.update { h with big := false } c 16 x) (Murmur.M128.new 0))).map
    fun c => hex (c.digest { h with big := false }).1

/-! hashing/test_md5.cpp -/
-- hashEmptyMessage, 32-41
#guard both fun h => md5 h [b ""] = some "d41d8cd98f00b204e9800998ecf8427e"
-- hashSingleLetter, 43-52
#guard both fun h => md5 h [b "a"] = some "0cc175b9c0f1b6a831c399e269772661"
-- hashABC, 54-63
#guard both fun h => md5 h [b "abc"] = some "900150983cd24fb0d6963f7d28e17f72"
-- hashMessageDigest, 65-76
#guard both fun h => md5 h [b "message digest"] = some "f96b697d7cb7938d525a2f31aaf161d0"
-- hashAlphabet, 78-87
#guard both fun h => md5 h [b "abcdefghijklmnopqrstuvwxyz"] = some "c3fcd3d76192e4007dfb496cca67e13b"
-- hashAlphanum, 89-98
#guard both fun h => md5 h [b "ABCDEFGHIJKLMNOPQRSTUVWXYZabcdefghijklmnopqrstuvwxyz0123456789"] = some "d174ab98d277d9f5a5611c2c9f419d9f"
-- hashNumbers, 100-110
#guard both fun h => md5 h [b "12345678901234567890123456789012345678901234567890123456789012345678901234567890"] = some "57edf4a22be3c955ac49da2e2107b67a"
/-! hashing/test_sha1.cpp -/
-- hashEmptyMessage, 33-42
#guard both fun h => sha1 h [b ""] = some "da39a3ee5e6b4b0d3255bfef95601890afd80709"
-- hashSingleLetter, 44-53
#guard both fun h => sha1 h [b "a"] = some "86f7e437faa5a7fce15d1ddcb9eaeaea377667b8"
-- hashAx1000, 55-67
#guard both fun h => sha1 h (List.replicate 1000 (b "a")) = some "291e9a6c66994949b57ba5e650361e98fc36b1ba"
-- hashABC, 69-78
#guard both fun h => sha1 h [b "abc"] = some "a9993e364706816aba3e25717850c26c9cd0d89d"
-- hashMessageDigest, 80-91
#guard both fun h => sha1 h [b "abcdbcdecdefdefgefghfghighijhijkijkljklmklmnlmnomnopnopq"] = some "84983e441c3bd26ebaae4aa1f95129e5e54670f1"
/-! hashing/test_sha256.cpp -/
-- hashEmptyMessage, 33-44
#guard both fun h => sha256 h [b ""] = some "e3b0c44298fc1c149afbf4c8996fb92427ae41e4649b934ca495991b7852b855"
-- hashSingleLetter, 46-57
#guard both fun h => sha256 h [b "a"] = some "ca978112ca1bbdcafac231b39a23dc4da786eff8147c4e72b9807785afee48bb"
-- hashABC, 59-70
#guard both fun h => sha256 h [b "abc"] = some "ba7816bf8f01cfea414140de5dae2223b00361a396177a9cb410ff61f20015ad"
-- hashMessageDigest, 72-85
#guard both fun h => sha256 h [b "abcdbcdecdefdefgefghfghighijhijkijkljklmklmnlmnomnopnopq"] = some "248d6a61d20638b8e5c026930c3e6039a33ce45964ff2167f6ecedd419db06c1"
/-! hashing/test_murmur3.cpp -/
-- hashEmptyMessage32, 34-38
#guard both fun h => murmur32 h [b ""] = some "00000000"
-- hashEmptyMessage128, 40-45
#guard both fun h => murmur128 h [b ""] = some "00000000000000000000000000000000"
-- hashSingleLetter32, 47-51
#guard both fun h => murmur32 h [b "a"] = some "3c2569b2"
-- hashSingleLetter128, 53-58
#guard both fun h => murmur128 h [b "a"] = some "897859f6655555855a890e51483ab5e6"
-- hashABC32, 60-64
#guard both fun h => murmur32 h [b "abc"] = some "b3dd93fa"
-- hashABC128, 66-71
#guard both fun h => murmur128 h [b "abc"] = some "6778ad3f3f3f96b4522dca264174a23b"
-- hashMessageDigest32, 73-79
#guard both fun h => murmur32 h [b "message digest"] = some "638f4169"
-- hashMessageDigest128, 81-88
#guard both fun h => murmur128 h [b "message digest"] = some "fc7d14762d2c5d87396fbc122ab022f6"
-- hashAlphabet32, 90-94
#guard both fun h => murmur32 h [b "abcdefghijklmnopqrstuvwxyz"] = some "a34e036d"
-- hashAlphabet128, 96-101
#guard both fun h => murmur128 h [b "abcdefghijklmnopqrstuvwxyz"] = some "a94a6f517e9d9c7429d5a7b6899cade9"
-- hashAlphanum32, 103-107
#guard both fun h => murmur32 h [b "ABCDEFGHIJKLMNOPQRSTUVWXYZabcdefghijklmnopqrstuvwxyz0123456789"] = some "a27af39b"
-- hashAlphanum128, 109-114
#guard both fun h => murmur128 h [b "ABCDEFGHIJKLMNOPQRSTUVWXYZabcdefghijklmnopqrstuvwxyz0123456789"] = some "3b3ed75f321f9949bcb9cea93cd2adcb"
-- hashNumbers32, 116-120
#guard both fun h => murmur32 h [b "12345678901234567890123456789012345678901234567890123456789012345678901234567890"] = some "f8e05287"
-- hashNumbers128, 122-127
#guard both fun h => murmur128 h [b "12345678901234567890123456789012345678901234567890123456789012345678901234567890"] = some "ee6a87a47f066391abf5d5a227ca4f77"

end Solace.Conformance.TestHashing
