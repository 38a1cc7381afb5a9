import Verif.Model.Base16
import Verif.Model.ErrorDomain
/-
Model of /repo/include/solace/output_utils.hpp: what the operators `<<` append to a `std::ostream`. The stream is in a good
state with the default format; `ostr.write(p, n)` appends `n` characters and `ostr << buffer` those before the first NUL.
The operators for `Path`, `UUID`, `Version` and the strings append what `toString` and `view` give.
-/
namespace Solace.Output

/-- `ostr << buffer` of a `char` array. -/
def chars (buffer : List Byte) : List Byte := buffer.takeWhile (· ≠ 0#8)

/-- `operator<<(ostream&, MemoryView)`, output_utils.hpp:48-61. -/
def memoryView (view : List Byte) : List Byte :=
  if view.length = 0 then [0x3C#8, 0x6E#8, 0x75#8, 0x6C#8, 0x6C#8, 0x3E#8]
  else (Base16.encodeIter view).foldl (fun out piece => out ++ piece) []

/-- `operator<<(ostream&, MessageDigest const&)`, output_utils.hpp:96-112. -/
def digest (d : List Byte) : List Byte :=
  (Base16.encodeIter d).foldl (fun out piece => out ++ [0x30#8, 0x78#8] ++ piece) [0x5B#8] ++ [0x5D#8]

/-- `operator<<(ostream&, Error const&)`, output_utils.hpp:69-94. `name d` and `message d code` are the virtual functions of
the domain, `decimal` is how the stream prints an `int`. The buffer has `sizeof(size_t) + 1` = 9 characters. -/
def error {D : Type} (name : D → List Byte) (message : D → BitVec 32 → List Byte) (decimal : Int → List Byte)
    (m : Dict (BitVec 64) D) (e : ErrorValue) : Outcome (List Byte) :=
  ErrorDomains.find m e.domain >>= fun domain =>
    let out := match domain with
      | some d => name d
      | none => chars (Atom.toBuffer e.domain)
    let out := out ++ [0x3A#8] ++ decimal e.code.toInt ++ [0x3A#8]
    let out := match domain with
      | some d => out ++ message d e.code
      | none => out
    .ok (if e.tag.length = 0 then out else out ++ [0x3A#8] ++ e.tag)

/-- `operator<<(ostream&, DialString const&)`, output_utils.hpp:129-140. -/
def dial (ds : DialString.Dial) : List Byte :=
  let out := chars (Atom.toBuffer ds.protocol) ++ [0x3A#8] ++ ds.address
  if ds.service.length = 0 then out else out ++ [0x3A#8] ++ ds.service

/-- `operator<<(ostream&, Optional<T> const&)`, output_utils.hpp:145-150. -/
def optional {α : Type} (text : α → List Byte) : Option α → List Byte
  | none => [0x4E#8, 0x6F#8, 0x6E#8, 0x65#8]
  | some x => text x

end Solace.Output
