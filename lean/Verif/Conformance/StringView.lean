import Verif.Conformance.Basic
import Verif.Model.StringView
import Verif.Model.StringViewMake
/-
/repo/test/test_stringView.cpp.
-/
namespace Solace.Conformance.TestStringView
open Solace.StringView

-- testConstructionFromNull, 34-40
#guard val (Make.ofPointer none 0) = some ⟨none, 0⟩
#guard val (Make.ofCString none) = some ⟨none, 0⟩
#guard throws (Make.ofPointer none 16)
-- testConstructEmptyString, 42-49
#guard Make.SV.empty.size = 0
#guard (val (Make.ofCString (some (c "")))).map (·.size) = some 0
-- testConstructionUnsized, 51-57
#guard (val (Make.ofCString (some (c "Non-empty")))).map (·.truth) = some true
#guard (val (Make.ofCString (some (c "world")))).map (·.size) = some 5
-- testConstructionSized, 59-66
#guard (val (Make.ofPointer (some (c "world")) 3)).bind (fun v => val v.chars) = some (b "wor")
#guard (val (Make.ofPointer (some ((c "world").drop 2)) 3)).bind (fun v => val v.chars) = some (b "rld")
-- testAssignmentFromCstring, testAssignment, 68-90
#guard (val (Make.ofCString (some (c "Something else")))).map (·.size) = some 14
#guard (val (Make.ofCString (some (c "Completely different value")))).map (·.size) = some 26
-- testEquality, 97-121
#guard equals (b "hello") (b "hello")
#guard !equals (b "hello") (b "hello here")
#guard !equals (b "hello") (b "here hello")
#guard !equals (b "hello") (b "Completely different value")
#guard !equals (b "hello") (b "hi hello")
#guard (val (Make.ofCString (some (c "hello")))).bind (fun v => val (v.equalsCString (some (c "hello")))) = some true
#guard (val (Make.ofCString (some (c "hello")))).bind (fun v => val (v.equalsCString (some (c "hello here")))) = some false
-- testCompareTo, 127-133
#guard (val (compareTo (b "aab") (b "aaa"))).map (decide <| · > 0) = some true
#guard (val (compareTo (b "aabc") (b "aab"))).map (decide <| · > 0) = some true
#guard (val (compareTo (b "baa") (b "bbc"))).map (decide <| · < 0) = some true
#guard (val (compareTo (b "bcd") (b "bcd0x"))).map (decide <| · < 0) = some true
-- testLength, 138-144
#guard (val (Make.ofCString (some (c "world")))).map (·.size) = some 5
-- testStartsWith, 150-163
#guard val (startsWithChar true [] [] 0#8) = some true
#guard val (startsWithChar true [] [] 0x74#8) = some false
#guard val (startsWithChar false (b "Hello world") [0#8] 0#8) = some false
#guard val (startsWithChar false (b "Hello world") [0#8] 0x48#8) = some true
#guard startsWith [] []
#guard startsWith (b "Hello") []
#guard !startsWith [] (b "Hello")
#guard startsWith (b "Hello world") (b "Hello")
#guard !startsWith (b "Hello world") (b "world")
#guard !startsWith (b "Some") (b "Some very long statement that can't possibly")
-- testEndsWith, 168-181
#guard endsWithChar true [] 0#8
#guard endsWithChar false (b "Hello world!") 0x21#8
#guard !endsWithChar false [] 0x63#8
#guard !endsWithChar false (b "Hello world!") 0#8
#guard endsWith [] []
#guard endsWith (b "Hello") []
#guard endsWith (b "Hello world!") (b "world!")
#guard !endsWith (b "Hello world") (b "hello")
#guard !endsWith (b "Hello world") (b "Some very long statement that can't possibly")
-- testSubstring, 186-212
def source := b "Hello, world! Good bye, World - and again!"
#guard substring [] 0 0 = []
#guard substring source 0 source.length = source
#guard (val (indexOf source [0#8] (b "and again!") [0#8] 0)).join.map (fun i => substring source i source.length) = some (b "and again!")
#guard substring source 7 12 = b "world"
#guard (val (indexOf source [0#8] (b "bye") [0#8] 0)).join.map (fun i => substring source i (i + 3)) = some (b "bye")
#guard substring (b "hi") 13 2 = []
#guard substring (b "hi") 13 14 = []
#guard substring (b "hi") 13 3 = []
#guard substring (b "hi") 0 8 = b "hi"
#guard substring (b "hi there") 4 2 = []
-- testTrim, 218-236
#guard trim [] = []
#guard trim (b "   ") = []
#guard trim (b "Hello, world!") = b "Hello, world!"
#guard trim (b "  Hello, world!") = b "Hello, world!"
#guard trim (b " Hello, world!   ") = b "Hello, world!"
#guard trim (b "Hello, world!  ") = b "Hello, world!"
-- testIndexOf, 242-263
def src := b "Hello, world! $$Blarg"
#guard indexOfChar src 0x21#8 0 = some 12 && val (charAt src 12) == some 0x21#8
#guard val (indexOf src [0#8] (b "world") [0#8] 0) = some (some 7)
#guard val (indexOf (b "hello") [0#8] (b "lo") [0#8] 0) = some (some 3)
#guard indexOfChar src 0x24#8 12 = some 14
#guard val (indexOf src [0#8] (b "$Bl") [0#8] 3) = some (some 15)
#guard indexOfChar src 0x21#8 14 = none
#guard val (indexOf src [0#8] (b "awesome") [0#8] 0) = some none
#guard val (indexOf src [0#8] (b "World") [0#8] (src.length - 3)) = some none
#guard val (indexOf (b "hi") [0#8] (b "hi, long string") [0#8] 0) = some none
#guard indexOfChar (b "hi") 0x69#8 5 = none
#guard val (indexOf (b "hi") [0#8] (b "hi") [0#8] 5) = some none
-- testLastIndexOf, 266-287
def source2 := b "Hello, World! Good bye, World - and again rld!"
#guard lastIndexOfChar source2 0x21#8 0 = some 45
#guard val (lastIndexOf source2 [0#8] (b "World") [0#8] 0) = some (some 24)
#guard val (lastIndexOf source2 [0#8] (b "World") [0#8] 12) = some (some 24)
#guard val (lastIndexOf source2 [0#8] (b "rld!") [0#8] 0) = some (some 42)
#guard lastIndexOfChar source2 0x78#8 0 = none
#guard lastIndexOfChar source2 0x78#8 45 = none
#guard val (lastIndexOf source2 [0#8] (b "awesome") [0#8] 0) = some none
#guard val (lastIndexOf source2 [0#8] (b "World") [0#8] (source2.length - 3)) = some none
#guard val (lastIndexOf (b "hi, i,") [0#8] (b "i, long string") [0#8] 0) = some none
#guard lastIndexOfChar (b "hi") 0x69#8 5 = none
#guard val (lastIndexOf (b "hi") [0#8] (b "hi") [0#8] 5) = some none
-- testContains, 292-297
#guard (indexOfChar (b "Hello, world!") 0x65#8 0).isSome
#guard val (contains (b "Hello, world!") [0#8] (b "world") [0#8]) = some true
#guard (indexOfChar (b "hi") 0x21#8 0).isNone
#guard val (contains (b "hi") [0#8] (b "hight") [0#8]) = some false
-- testHashCode, 302-307
#guard hashCode (b "Hello otu there") ≠ 0
#guard hashCode (b "Hello otu there") ≠ hashCode (b "Hello out there")
-- testSplitByChar, 309-385
#guard (splitChar [] 0x78#8).1.length = 1
#guard (splitChar (b "boo:and:foo") 0x3A#8).1 = [b "boo", b "and", b "foo"]
#guard (splitChar (b "warning,performance,portability,") 0x2C#8).1 = [b "warning", b "performance", b "portability", []]
#guard (splitChar (b "boo::foo") 0x3A#8).1 = [b "boo", [], b "foo"]
#guard (splitChar (b "boo::foo:") 0x3A#8).1 = [b "boo", [], b "foo", []]
#guard (splitChar (b "boo") 0x3A#8).1 = [b "boo"]
#guard (splitChar (b ":boo") 0x3A#8).1 = [[], b "boo"]
-- testSplitByStringToken, 388-456
#guard (split1 99 [] (b "tok")).map (·.1.length) = some 1
#guard (split1 99 (b "boo:!and:!foo") (b ":!")).map (·.1) = some [b "boo", b "and", b "foo"]
#guard (split1 99 (b "boo:!and:!") (b ":!")).map (·.1) = some [b "boo", b "and", []]
#guard (split1 99 (b "boo:!:!foo:!") (b ":!")).map (·.1) = some [b "boo", [], b "foo", []]
#guard (split1 99 (b ":x!boofoo:x!") (b ":x!")).map (·.1) = some [[], b "boofoo", []]
#guard (split1 99 (b "boo") (b "other")).map (·.1) = some [b "boo"]
-- splittingByEmptyToken, 459-472
#guard (split1 99 (b "this is some arbiterry string") []).map (fun r => (r.1.map List.length).sum) = some 29

end Solace.Conformance.TestStringView
