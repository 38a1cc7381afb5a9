import Verif.Conformance.Basic
import Verif.Model.String
import Verif.Model.StringArgs
import Verif.Model.StringQueries
/-
/repo/test/test_string.cpp.
-/
namespace Solace.Conformance.TestString
open Solace

/-- `makeString` of a literal, as the tests use it. -/
def s (t : String) : Str := match Str.make heap (b t) with | .ok r => r | .error _ => ⟨[], 0⟩

def view? (r : Option (Outcome (Except Err Str))) : Option (List Byte) := r.bind fun o => (val o).bind fun e => (ok? e).map (·.view)

-- testConstruction_null, 41-46
#guard (val (Make.ofCString none)).bind (fun v => val v.chars) |>.bind (fun t => ok? (Str.make heap t)) |>.isSome
-- testDefaultConstruction, 78-81
#guard (⟨[], 0⟩ : Str).equalsString ⟨[], 0⟩ && (⟨[], 0⟩ : Str).isEmpty
-- makeStringFromCString, 83-88
#guard ((val (Make.ofPointer (some ((c "some cstr source").drop 5)) 4)).bind (fun v => val v.chars)).bind
  (fun t => (ok? (Str.make heap t)).map (·.equals (b "cstr"))) = some true
-- testMoveConstruction, 91-109 (the copies)
#guard (s "Some static string").equals (b "Some static string")
#guard (ok? (Str.make heap (s "Some static string").view)).map (·.equals (b "Some static string")) = some true
-- testMoveAssignment, 114-131
#guard (s "some string").substring 5 8 = b "str"
-- testEquality, 136-185
#guard (s "some test string").equalsString (s "some test string")
#guard (s "some test string").equals (b "some test string")
#guard (s "some other test string").equals (b "some other test string")
#guard (s "some test string").notEquals (b "some other test string")
#guard (s "some other test string").notEqualsString (s "some test string")
-- testContains, 187-194
#guard val ((s "Hello, world!  ").contains (s "world").view []) = some true
#guard (s "Hello, world!  ").containsChar 0x21#8
#guard val ((s "Hello, world!  ").contains (b "a") [0#8]) = some false
-- testLength, 196-203
#guard (s "").length = 0 && (s "world").length = 5
-- testReplace, 206-214
#guard view? (Str.makeReplace heap 99 (b "attraction{holder}") (b "VALUE") (b "{holder}")) = some (b "attraction{holder}")
#guard (ok? (Str.makeReplaceChar heap (b "attraction{holder}") 0x74#8 0x58#8)).map (·.view) = some (b "aXXracXion{holder}")
#guard view? (Str.makeReplace heap 99 (b "attraction{holder}") (b "tt") (b "WORD")) = some (b "aWORDraction{holder}")
#guard view? (Str.makeReplace heap 99 (b "attraction{holder}") (b "{holder}") (b "VALUE")) = some (b "attractionVALUE")
-- testSplit, 217-282
#guard (StringView.split1 99 (s "boo:and:foo").view (b ":")).map (·.1) = some [b "boo", b "and", b "foo"]
#guard (StringView.splitChar (s "boo").view 0x3A#8).1 = [b "boo"]
#guard (StringView.split1 99 (s "boo:and:foo").view (b "/")).map (·.1) = some [b "boo:and:foo"]
#guard (StringView.split1 99 (s ":foo").view (b ":")).map (·.1) = some [[], b "foo"]
-- testIndexOf, 284-312
def src := s "Hello, World! Good bye, World "
def world := s "World"
#guard val (src.indexOf world.view [] 0) = some (some 7)
#guard src.indexOfChar 0x21#8 0 = some 12
#guard val (src.indexOf world.view [] 12) = some (some 24)
#guard val (src.indexOf (b "bye") [0#8] 3) = some (some 19)
#guard val (src.indexOf (b "awesome") [0#8] 0) = some none
#guard val (src.indexOf (b "World") [0#8] (src.length - 3)) = some none
#guard val (src.indexOf (b "World") [0#8] (src.length + 3)) = some none
#guard src.indexOfChar 0x21#8 (src.length - 3) = none
#guard src.indexOfChar 0x21#8 src.length = none
#guard src.indexOfChar 0x21#8 (src.length + 25) = none
#guard val (world.indexOf src.view [] 0) = some none
#guard val (world.indexOf (b "Some very long and obscure string??") [0#8] 0) = some none
#guard val (world.indexOf src.view [] (world.length + 3)) = some none
#guard val (world.indexOf (b "Some very long and obscure string??") [0#8] (world.length + 3)) = some none
#guard world.indexOfChar 0x2F#8 0 = none
#guard world.indexOfChar 0x21#8 3321 = none
#guard world.indexOfChar 0x21#8 (src.length + 25) = none
-- testLastIndexOf, 314-332
def src2 := s "Hello, World! Good bye, World - and again!"
#guard val (src2.lastIndexOf world.view [] 0) = some (some 24)
#guard src2.lastIndexOfChar 0x21#8 0 = some 41
#guard val (src2.lastIndexOf world.view [] 12) = some (some 24)
#guard val (src2.lastIndexOf (b "bye") [0#8] 12) = some (some 19)
#guard src2.lastIndexOfChar 0x21#8 src2.length = none
#guard src2.lastIndexOfChar 0x21#8 (src2.length + 25) = none
#guard val (world.lastIndexOf src2.view [] 0) = some none
#guard val (world.lastIndexOf (b "Some very long and obscure string??") [0#8] 0) = some none
#guard val (world.lastIndexOf src2.view [] (world.length + 3)) = some none
#guard world.lastIndexOfChar 0x2F#8 0 = none
-- testConcat, 334-345
#guard view? (StringArgs.makeString heap 99 (.constString []) (.constString (b "Hello")) []) = some (b "Hello")
#guard view? (StringArgs.makeString heap 99 (.constString (b "Hello")) (.constString []) []) = some (b "Hello")
#guard view? (StringArgs.makeString heap 99 (.constString (b "Hello")) (.constString (b ", ")) [.constString (b "world!")]) =
  some (b "Hello, world!")
#guard view? (StringArgs.makeString heap 99 (.constString (b "Hello")) (.view (b ", world!")) []) = some (b "Hello, world!")
-- testSubstring, 350-373
#guard world.substringFrom 0 = world.view
#guard world.substring 1 1 = [] && world.substring 3 3 = []
#guard src2.substring 7 12 = b "World"
#guard (val (src2.indexOf (b "and again!") [] 0)).join.map src2.substringFrom = some (b "and again!")
#guard (val (src2.indexOf (b "bye") [] 0)).join.map (fun i => src2.substring i (i + 3)) = some (b "bye")
#guard (val (src2.indexOf (b "Good") [0#8] 0)).join.map (src2.substring · 1042) = some (b "Good bye, World - and again!")
#guard src2.substringFrom 1042 = [] && src2.substring 1042 2048 = []
-- testTrim, 378-434
#guard (⟨[], 0⟩ : Str).trim = []
#guard (s "   ").trim = []
#guard (s "Hello, world!").trim = b "Hello, world!"
#guard (s " Hello, world!").trim = b "Hello, world!"
#guard (s "  Hello, world!  ").trim = b "Hello, world!"
#guard (s "Hello, world !  ").trim = b "Hello, world !"
-- testStartsWith, 505-521
def there := s "Hello, world out there!"
#guard val ((⟨[], 0⟩ : Str).startsWithChar true 0x48#8) = some false
#guard !(⟨[], 0⟩ : Str).startsWith (b "Something")
#guard there.startsWith []
#guard val (there.startsWithChar false 0x48#8) = some true
#guard there.startsWith (b "Hello")
#guard !there.startsWith (b "there!")
#guard !there.startsWith (b "Hello, world out there! And here!")
#guard !there.startsWith (b "Some very long statement that can't possibly feet")
-- testEndsWith, 526-542
def there2 := s "Hello, world out there !"
#guard !(⟨[], 0⟩ : Str).endsWithChar true 0x78#8
#guard !(⟨[], 0⟩ : Str).endsWith (b "Something")
#guard there2.endsWith []
#guard there2.endsWithChar false 0x21#8
#guard there2.endsWith there2.view
#guard !there2.endsWith (b "Hello")
#guard there2.endsWith (b "there !")
#guard !there2.endsWith (b "Hello, world out there ! And here!")
#guard !there2.endsWith (b "Some very long statement that can't possibly feet")
-- testHashCode, 547-556
#guard (s "Hello otu there").hashCode ≠ 0 && (s "Hello out there").hashCode ≠ 0
#guard (s "Hello otu there").hashCode ≠ (s "Hello out there").hashCode
-- test_makingJoin_char, test_makingJoin_str, 620-632
#guard view? (StringArgs.makeJoin heap 99 (b ",") [.cstring (some (c "1")), .cstring (some (c "2")), .cstring (some (c "Bingo!"))]) =
  some (b "1,2,Bingo!")
#guard view? (StringArgs.makeJoin heap 99 (b "-! +") [.cstring (some (c "1")), .cstring (some (c "2")), .cstring (some (c "Bingo!"))]) =
  some (b "1-! +2-! +Bingo!")

end Solace.Conformance.TestString
