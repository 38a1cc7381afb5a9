import Verif.Model.ByteReader
import Verif.Model.Hashing
import Verif.Model.Murmur3
import Verif.Model.Sha3
/-
Feeding hashes from byte readers, `HashingAlgorithm::update(ByteReader&)` of /repo/include/solace/hashing/digestAlgorithm.hpp,
which every algorithm takes over (`using HashingAlgorithm::update` in md5.hpp:53, murmur3.hpp:42 and 92, sha1.hpp:49,
sha2.hpp:49, sha3.hpp:49).
-/
namespace Solace.Hash

/-- A byte reader and the address its memory begins at. -/
structure Source where
  base : Nat
  reader : ByteReader
deriving DecidableEq

/-- `HashingAlgorithm::update(ByteReader&)`, digestAlgorithm.hpp:67-73: the virtual `update(MemoryView)` of the object gets what
remains, whose address matters for Murmur3, then the reader is advanced; the result of that is dropped. -/
def updateReader {C : Type} (update : C → Nat → List Byte → Outcome C) (c : C) (s : Source) : Outcome (C × Source) :=
  let memView := s.reader.viewRemaining
  (update c (s.base + s.reader.position) memView).bind fun c' =>
    .ok (c', { s with reader := (s.reader.advance memView.length).reader })

/-- One call of `update`: with a view, or with one of the readers. -/
inductive Feed where
  | view (address : Nat) (bytes : List Byte)
  | reader (i : Nat)
deriving DecidableEq

/-- The calls one after the other: the hash and the readers afterwards. (A reader that does not exist cannot be given.) -/
def feed {C : Type} (update : C → Nat → List Byte → Outcome C) : C → List Source → List Feed → Outcome (C × List Source)
  | c, rs, [] => .ok (c, rs)
  | c, rs, .view a bytes :: fs => (update c a bytes).bind fun c' => feed update c' rs fs
  | c, rs, .reader i :: fs =>
    match rs[i]? with
    | none => .ub
    | some r => (updateReader update c r).bind fun x => feed update x.1 (rs.set i x.2) fs

/-- `update(MemoryView)` of MD5, SHA-1 and SHA-256 does not look at the address. -/
def blockUpdate {S : Type} (process : S → List Byte → S) (c : Ctx S) (_address : Nat) (bytes : List Byte) : Outcome (Ctx S) :=
  update process c bytes

/-- `update(MemoryView)` of SHA-3 as well. -/
def Sha3.feedUpdate (c : Ctx (List Word)) (_address : Nat) (bytes : List Byte) : Outcome (Ctx (List Word)) :=
  .ok (Sha3.update c bytes)

end Solace.Hash
