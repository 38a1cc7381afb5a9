import Verif.Conformance.Basic
import Verif.Model.Char
import Verif.Model.CharObject
import Verif.Model.Atom
import Verif.Model.Uuid
import Verif.Model.UuidMore
import Verif.Model.Version
import Verif.Model.Env
import Verif.Model.EnvIterate
/-
/repo/test/test_char.cpp, test_atom.cpp, test_dialstring.cpp, test_uuid.cpp, test_version.cpp and test_env.cpp.
-/
namespace Solace.Conformance.TestValues
open Solace

def fails {α : Type} (r : Outcome (Except Err α)) : Bool := (val r).map (fun x => (ok? x).isNone) == some true

/-! Char -/
-- testConstruction, 27-66
#guard CharObj.ofNothing.chr.getBytesCount = 0 && [false, true].all fun big => CharObj.ofNothing.chr.value big == 0
#guard (Chr.ofByte 0x63).getBytesCount = 1 && (Chr.ofByte 0x63).value false = 0x63
#guard (val (Chr.ofBytes [0xE2, 0x9D, 0xA4])).map (fun x => (x.getBytesCount, x.bytes.take 3)) = some (3, [0xE2, 0x9D, 0xA4])
-- testEquality, 70-75
#guard [false, true].all fun big => !(Chr.ofByte 0x61).equals big (Chr.ofByte 0x62)

/-! Atoms: testStaticEncodDecoding, testEncodDecoding, testParsingFailure, 27-53 -/
def cText (buffer : List Byte) : List Byte := buffer.takeWhile (· ≠ 0#8)
#guard cText (Atom.toBuffer (Atom.atom (b "test"))) = b "test"
#guard cText (Atom.toBuffer (Atom.atom (b "custom"))) = b "custom"
#guard ok? (Atom.tryParse (b "test")) = some (Atom.atom (b "test"))
#guard (ok? (Atom.tryParse (b "test"))).map (fun a => cText (Atom.toBuffer a)) = some (b "test")
#guard ok? (Atom.tryParse (b "long-ass-atom")) = none

/-! Dial strings, 26-86 -/
def dial (s : String) : Option (BitVec 64 × List Byte × List Byte) :=
  ((DialString.parse 100 (b s)).bind ok?).map fun d => (d.protocol, d.address, d.service)
#guard DialString.parse 100 [] = some (.error .invalidInput)
#guard dial "filename" = some (Atom.atom (b ""), b "filename", [])
#guard dial "::http" = some (Atom.atom (b ""), [], b "http")
#guard dial "sctp:10.3.2.1" = some (Atom.atom (b "sctp"), b "10.3.2.1", [])
#guard dial "udp:10.3.2.1:54321" = some (Atom.atom (b "udp"), b "10.3.2.1", b "54321")
#guard dial "unix:/dev/null" = some (Atom.atom (b "unix"), b "/dev/null", [])
#guard dial "blah:" = some (Atom.atom (b "blah"), [], [])
#guard dial "somelongvalue:87212" = none && (DialString.parse 100 (b "somelongvalue:87212")).isSome

/-! UUIDs -/
-- testStaticConstraints, testConstruction, 31-76
#guard Uuid.staticSize = 16 && Uuid.stringSize = 36
#guard Uuid.isNull (List.replicate 16 0#8)
def bytes1 : List Byte := [7, 5, 3, 4, 8, 6, 7, 8, 3, 7, 3, 4, 5, 6, 7, 8]
#guard (List.range 16).map (fun i => val (Uuid.index bytes1 i)) = bytes1.map some
-- testMakeUUIDwithInsufficientData, 79-85
#guard throws (Uuid.ofView [1, 0, 3, 4, 5, 6, 7, 8])
#guard throws (Uuid.ofView (([1, 0, 3, 4, 5, 6, 7, 8, 1, 0, 3, 4, 5, 6, 7, 8] : List Byte).take 7))
-- testComparable, 88-97
def upTo : List Byte := (List.range 16).map (BitVec.ofNat 8)
def down : List Byte := upTo.reverse
#guard (val (Uuid.ofView upTo)).map (Uuid.equals upTo) = some true
#guard (val (Uuid.ofView (1#8 :: upTo.drop 1))).map (Uuid.equals upTo) = some false
-- testIterable, 100-111
#guard val (Uuid.iterate down 16 0) = some down
-- testIndexOpThrowsOnIndexOutOfRange, 114-116
#guard throws (Uuid.index (List.replicate 16 0#8) 16)
-- testFormattable, testParsable, 118-146
def bytes2 : List Byte := [0x12, 0x3e, 0x45, 0x67, 0xe8, 0x9b, 0x12, 0xd3, 0xa4, 0x56, 0x42, 0x66, 0x55, 0x44, 0x0, 0x0]
def stack : List Byte := List.replicate 36 0xCD#8
#guard (Uuid.toString heap stack bytes2).view = b "123e4567-e89b-12d3-a456-426655440000"
#guard (Uuid.toString heap stack (List.replicate 16 0#8)).view = b "00000000-0000-0000-0000-000000000000"
def uuid (s : String) := Uuid.parse (List.replicate 16 0xCD#8) (b s) [0#8]
#guard (val (uuid "00000000-0000-0000-0000-000000000000")).bind ok? = some (List.replicate 16 0#8)
#guard (val (uuid "123e4567-e89b-12d3-a456-426655440000")).bind ok? = some bytes2
#guard fails (uuid "SOMEHTING")
#guard fails (uuid "1203045e-X054-Y000-3e3d-000000000000")
-- testParsing_and_ToString_are_consistent, 149-156 (for every value: C37)
#guard [upTo, down, bytes1, bytes2].all fun u =>
  (val (Uuid.parse (List.replicate 16 0xCD#8) (Uuid.toString heap stack u).view [])).bind ok? = some u
-- testContainerReq, 159-194
#guard !Uuid.isNull upTo && !Uuid.isNull down && Uuid.equals upTo upTo
#guard (List.range 16).all fun i => val (Uuid.index down (15 - i)) == val (Uuid.index upTo i)

/-! Versions -/
def v (a m p : Nat) (pre build : String := "") : Version := ⟨a, m, p, b pre, b build⟩
-- testComparable, 36-58
#guard (v 1 2 3).equals (v 1 2 3) && !(v 1 2 3).equals (v 3 2 3) && !(v 3 2 3).equals (v 1 2 3)
#guard (v 1 2 3).equals (v 1 2 3 "" "build.1321")
-- testSpecs, testSpecs_ignoringMeta, 63-158
def chain := [v 1 0 0, v 2 0 0, v 2 1 0, v 2 1 1]
def chainMeta := [v 1 0 0 "" "Something", v 2 0 0 "" "3.2.1", v 2 1 0 "" "3333", v 2 1 1 "" "180.213"]
#guard [chain, chainMeta].all fun l => (List.range 4).all fun i => (List.range i).all fun j =>
  match l[j]?, l[i]? with
  | some x, some y => x.lt y && y.gt x
  | _, _ => false
#guard (v 1 0 0 "rc.1.alpha").lt (v 1 0 0) && (v 1 37 0 "alpha" "betta").lt (v 1 37 0)
#guard [("alpha", "alpha.1"), ("alpha.1", "alpha.beta"), ("beta", "beta.2"), ("beta.2", "beta.11"), ("beta.11", "rc.1"), ("rc.1", "")].all
  fun (x, y) => (v 1 0 7 x).lt (v 1 0 7 y)
#guard [("alpha", "alpha.1"), ("alpha.1", "alpha.beta"), ("beta", "beta.2"), ("beta.2", "beta.11"), ("beta.11", "rc.1"),
  ("rc.1", "how.to.mess.it.123")].all fun (x, y) => (v 1 0 0 x "12.asdf").lt (v 1 0 0 y)
-- testToString, 163-188
#guard [v 3 2 1, v 2 0 5 "alpha1", v 41 7 5 "alpha1.something-awesome.31", v 33 1 8 "" "20130313144700",
    v 6 12 77 "" "the.best.version-1", v 1 13 7 "" "the.best.version", v 1 4 99 "beta" "exp.sha.5114f85",
    v 1 4 99 "alpha.beta.rc-1" "exp.sha.5114f85"].map (fun x => (x.toString heap).view) =
  ["3.2.1", "2.0.5-alpha1", "41.7.5-alpha1.something-awesome.31", "33.1.8+20130313144700",
    "6.12.77+the.best.version-1", "1.13.7+the.best.version", "1.4.99-beta+exp.sha.5114f85",
    "1.4.99-alpha.beta.rc-1+exp.sha.5114f85"].map b
-- testParsing, 193-242; `EXPECT_EQ` compares with `equals`
def version (s : String) : Option Version := (val (Version.parse heap false (b s) [0#8])).bind ok?
def parses (s : String) (x : Version) : Bool := (version s).map x.equals == some true
#guard parses "3.231.1" (v 3 231 1)
#guard parses "2.0.5-alpha1" (v 2 0 5 "alpha1")
#guard parses "233.1076.532-alpha1.something-awesome" (v 233 1076 532 "alpha1.something-awesome")
#guard parses "33.1.8+20130313144700" (v 33 1 8 "" "20130313144700")
#guard parses "6.12.77+the.best.version-rc1" (v 6 12 77 "" "the.best.version-rc1")
#guard parses "1.4.99-beta+exp.sha-5114f85" (v 1 4 99 "beta" "exp.sha-5114f85")
#guard parses "1.13.7-alpha1.betta+the-best.version" (v 1 13 7 "alpha1.betta" "the-best.version")
#guard ["x3+Bingo", "3.+Bingo", "3.1-+Bingo"].all fun s => fails (Version.parse heap false (b s) [0#8])
-- testParsing_and_ToString_are_consistent, 247-269
#guard ["0.4.9", "1.4.99-beta+exp.sha.5114f85"].all fun s => (version s).map (fun x => (x.toString heap).view) == some (b s)
#guard ((val (Version.parseStr heap ((v 37 4 9 "something.pre.els" "2475-betta.soon").toString heap))).bind ok?).map
  (v 37 4 9 "something.pre.els" "2475-betta.soon").equals = some true

/-! The environment; the names and values stand for the random ones of the tests -/
def env0 : Env.Environ := [b "HOME=/root", b "PATH=/bin:/usr/bin", b "A=b=c"]
def name := b "test-env-123e4567"
def value1 := b "123e4567-e89b-12d3-a456-426655440000"
def value2 := b "00000000-0000-0000-0000-000000000000"
def setOk (e : Env.Environ) (n x : List Byte) : Option Env.Environ :=
  (val (Env.set true e n [0#8] x [0#8] true)).bind fun r => (ok? r.2).map fun _ => r.1
def unsetOk (e : Env.Environ) (n : List Byte) : Option Env.Environ :=
  (val (Env.unset e n [0#8])).bind fun r => (ok? r.2).map fun _ => r.1
def get (e : Env.Environ) (n : List Byte) : Option (Option (List Byte)) := (Env.get 100 e n).bind val
-- testComplex, 46-68
#guard (setOk env0 name value1).bind (get · name) = some (some value1)
#guard (setOk env0 name value1).bind (Env.size 100 ·) = some 4
#guard ((setOk env0 name value1).bind (setOk · name value2)).bind (get · name) = some (some value2)
-- testSize, testUnset, 71-95
#guard get env0 name = some none && Env.size 100 env0 = some 3
#guard ((setOk env0 name value1).bind (unsetOk · name)).bind (Env.size 100 ·) = some 3
-- testSetIllFormatedVar, 97-105: a default constructed view is a null pointer to `setenv`, which refuses it as it refuses ""
#guard setOk env0 [] value1 = none && setOk env0 (b "DumbName=") value1 = none && setOk env0 (b "Dumb=Name") [] = none
#guard unsetOk env0 (b "DumbName=") = none && unsetOk env0 [] = none
-- testSetEmptyString, 107-117
#guard (setOk env0 name []).bind (get · name) = some (some [])
#guard ((setOk env0 name []).bind (unsetOk · name)).bind (get · name) = some none
-- testIteration, 119-147
#guard ((Env.visit 100 env0).bind val).map (fun l => (l.length, l.any (·.name == name))) = some (3, false)
#guard ((setOk env0 name value1).bind fun e => (Env.visit 100 e).bind val).map (·.any (·.name == name)) = some true

end Solace.Conformance.TestValues
