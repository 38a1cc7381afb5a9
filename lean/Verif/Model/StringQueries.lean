import Verif.Model.StringViewMake
/-
The functions of `String` that ask about its text (/repo/include/solace/string.hpp, /repo/src/string.cpp). They are those of the
view (`Verif.Model.StringView`), with the memory of the string around it: the rest of the buffer follows the text, and behind the
buffer is nothing that may be read. A function that takes a view gets the memory behind that view as well (`xAfter`).
-/
namespace Solace.Str

/-- What follows the text in memory. -/
def after (s : Str) : List Byte := s.buffer.drop s.size

/-- `empty`, `length` and `size`, string.hpp:95-116. -/
def isEmpty (s : Str) : Bool := s.size == 0
def length (s : Str) : Nat := s.size

/-- `equals(StringView)`, string.hpp:123, src/string.cpp:119-121, and `==` with a view or literal on either side,
string.hpp:368-385. -/
def equals (s : Str) (x : List Byte) : Bool := StringView.equals s.view x

/-- `equals(String const&)`, string.hpp:118-120, and `==`, 362-365. -/
def equalsString (s x : Str) : Bool := s.equals x.view

/-- `==` with a C string on either side, string.hpp:387-395: the view of the C string is made first. -/
def equalsCString (s : Str) (m : Option (List Byte)) : Outcome Bool :=
  (Make.ofCString m).bind fun v => v.chars.bind fun x => .ok (s.equals x)

/-- `!=`, string.hpp:398-421. -/
def notEquals (s : Str) (x : List Byte) : Bool := !s.equals x
def notEqualsString (s x : Str) : Bool := !s.equalsString x
def notEqualsCString (s : Str) (m : Option (List Byte)) : Outcome Bool := (s.equalsCString m).bind fun b => .ok !b

/-- `compareTo`, string.hpp:135-139, src/string.cpp:123-125. -/
def compareTo (s : Str) (x : List Byte) : Outcome Int := StringView.compareTo s.view x

/-- `operator<`, string.hpp:356-359. -/
def lt (s x : Str) : Outcome Bool := (s.compareTo x.view).bind fun r => .ok (decide (r < 0))

/-- `charAt` and `operator[]`, string.hpp:149, 307-309, src/string.cpp:127-130. -/
def charAt (s : Str) (i : Nat) : Outcome Byte := StringView.charAt s.view i

/-- `indexOf(char, from)`, src/string.cpp:132-135. -/
def indexOfChar (s : Str) (c : Byte) (from' : Nat) : Option Nat := StringView.indexOfChar s.view c from'

/-- `indexOf(str, from)`, string.hpp:176-180, src/string.cpp:138-141. -/
def indexOf (s : Str) (x xAfter : List Byte) (from' : Nat) : Outcome (Option Nat) :=
  StringView.indexOf s.view s.after x xAfter from'

/-- `lastIndexOf(char, from)`, src/string.cpp:143-146. -/
def lastIndexOfChar (s : Str) (c : Byte) (from' : Nat) : Option Nat := StringView.lastIndexOfChar s.view c from'

/-- `lastIndexOf(str, from)`, string.hpp:184-188, src/string.cpp:148-151. -/
def lastIndexOf (s : Str) (x xAfter : List Byte) (from' : Nat) : Outcome (Option Nat) :=
  StringView.lastIndexOf s.view s.after x xAfter from'

/-- `contains`, string.hpp:157-164. -/
def contains (s : Str) (x xAfter : List Byte) : Outcome Bool := (s.indexOf x xAfter 0).bind fun r => .ok r.isSome
def containsChar (s : Str) (c : Byte) : Bool := (s.indexOfChar c 0).isSome

/-- `startsWith` and `endsWith`, string.hpp:243-282, src/string.cpp:154-168; `null` tells whether the buffer is null. -/
def startsWith (s : Str) (x : List Byte) : Bool := StringView.startsWith s.view x
def startsWithChar (s : Str) (null : Bool) (c : Byte) : Outcome Bool := StringView.startsWithChar null s.view s.after c
def endsWith (s : Str) (x : List Byte) : Bool := StringView.endsWith s.view x
def endsWithChar (s : Str) (null : Bool) (c : Byte) : Bool := StringView.endsWithChar null s.view c

/-- `substring(from)`, string.hpp:227-229, with stringView.hpp:242-244. -/
def substringFrom (s : Str) (from' : Nat) : List Byte := StringView.substring s.view from' s.view.length

/-- `hashCode` and `trim`, src/string.cpp:171-180. -/
def hashCode (s : Str) : BitVec 64 := StringView.hashCode s.view
def trim (s : Str) : List Byte := StringView.trim s.view

/-- `forEach(f)`, string.hpp:337-348: the characters `f` is called with. -/
def forEach (s : Str) : List Byte := s.view

end Solace.Str
