import Verif.Model.Dictionary
import Verif.Model.Atom
import Verif.Model.String
/-
Model of the error domain registry (/repo/src/errorDomain.cpp) and of `Error` (/repo/include/solace/error.hpp,
/repo/src/error.cpp, the `make*Error` functions of /repo/include/solace/posixErrorDomain.hpp).

Simplifications: a domain is an opaque value of type `D` (the code stores its address and never changes or reads the object
while registering or looking up). `AtomValue` is a 64-bit integer and pointers have 8 bytes. The map is taken to be
constructed before the first registration; the order in which the static initialisers of different translation units run is the
subject of Verif.Model.Startup.
-/
namespace Solace

namespace ErrorDomains
variable {D : Type}

/-- `kErrorDomainMap` as constructed by `autoRegisterDomainMap`, errorDomain.cpp:29-43: two buffers of 128 entries of eight
bytes. -/
def registry : Dict (BitVec 64) D := Dict.ofBytes 8 8 (128 * 8) (128 * 8)

/-- `registerErrorDomain`, errorDomain.cpp:48-53: the result of `put` is dropped; returns the size of the dictionary, which
is that of the vector of values (dictionary.hpp:135), as a `uint32`. A `put` that did not return would end the program
(`noexcept`). -/
def register (m : Dict (BitVec 64) D) (id : BitVec 64) (d : D) : Dict (BitVec 64) D × Outcome Nat :=
  match Dict.put 8 8 m (some id) (some d) with
  | (m', .ok _) => (m', .ok (wrap32 m'.values.next))
  | (m', .ub) => (m', .ub)
  | (m', _) => (m', .terminate)

/-- `findErrorDomain`, errorDomain.cpp:56-65. -/
def find (m : Dict (BitVec 64) D) (id : BitVec 64) : Outcome (Option D) := (Dict.find 8 m id).noexcept

end ErrorDomains

/-- `Error`, error.hpp:38-92: `_code`, `_domain`, `_tag`. -/
structure ErrorValue where
  code : BitVec 32
  domain : BitVec 64
  tag : List Byte
deriving DecidableEq, Repr

namespace ErrorValue

/-- `operator==`, error.hpp:66-69. -/
def equals (a b : ErrorValue) : Bool := a.domain == b.domain && a.code == b.code

/-- `explicit operator bool`, error.hpp:80-82. -/
def toBool (a : ErrorValue) : Bool := a.code != 0#32

/-- `swap`, error.hpp:71-78: the pair `(*this, rhs)` afterwards, member by member. -/
def swap (a b : ErrorValue) : ErrorValue × ErrorValue :=
  let t := (({ a with tag := b.tag } : ErrorValue), ({ b with tag := a.tag } : ErrorValue))
  let c := (({ t.1 with code := t.2.code } : ErrorValue), ({ t.2 with code := t.1.code } : ErrorValue))
  (({ c.1 with domain := c.2.domain } : ErrorValue), ({ c.2 with domain := c.1.domain } : ErrorValue))

/-- `kSystemCatergory = atom("posix")`, systemErrorDomain.cpp:32. -/
def systemCategory : BitVec 64 := Atom.atom [0x70#8, 0x6F#8, 0x73#8, 0x69#8, 0x78#8]

/-- `makeError` (all three overloads) and `makeSystemError`, posixErrorDomain.hpp:196-220. -/
def makeError (code : BitVec 32) (tag : List Byte) : ErrorValue := ⟨code, systemCategory, tag⟩

/-- `BasicError`, posixErrorDomain.hpp:45-48. -/
def basicOverflow : BitVec 32 := 0#32
def basicInvalidInput : BitVec 32 := 1#32
/-- `GenericError::PERM`, posixErrorDomain.hpp:51. -/
def genericPerm : BitVec 32 := 1#32

/-- `Error::toString`, error.cpp:27-43. `message d code` is the virtual `message` of the domain. `StringView{buffer}` stops
at the first NUL of the nine characters written by `atomToString`. When memory runs out the result is an empty string. -/
def toString {D : Type} (alloc : Nat → Except Err MutView) (message : D → BitVec 32 → List Byte)
    (m : Dict (BitVec 64) D) (e : ErrorValue) : Outcome (List Byte) :=
  match ErrorDomains.find m e.domain with
  | .ok (some d) => .ok (message d e.code)
  | .ok none =>
    match Str.makeConcat alloc [(Atom.toBuffer e.domain).takeWhile (· ≠ 0#8), [0x3A#8, 0x20#8], e.tag] with
    | .ok s => .ok s.view
    | .error _ => .ok []
  | .throws => .throws
  | .terminate => .terminate
  | .ub => .ub

end ErrorValue
end Solace
