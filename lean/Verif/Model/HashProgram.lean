import Verif.Model.Md5
import Verif.Model.Sha1
import Verif.Model.Sha2
import Verif.Model.Sha3
import Verif.Model.Murmur3
/-
Programs with objects of the hashing classes: /repo/include/solace/hashing/digestAlgorithm.hpp:33-75 and the six classes derived from it
(md5.hpp:40-84, sha1.hpp:36-83, sha2.hpp:36-83, sha3.hpp:36-83, murmur3.hpp:35-127). None of them declares a copy or move operation: copying
copies every member, moving does the same because all members are arrays of numbers and numbers, and assignment through references
to the base class `HashingAlgorithm`, which has no members, copies nothing.
-/
namespace Solace.Hash.Prog

/-- An object of one of the classes. -/
inductive Obj where
  | md5 (c : Ctx Md5.Regs)
  | sha1 (c : Ctx Sha1.Regs)
  | sha256 (c : Ctx (List Word))
  | sha3 (c : Ctx (List Word))
  | murmur32 (c : Murmur.M32)
  | murmur128 (c : Murmur.M128)

/-- The classes; Murmur3 takes a seed. -/
inductive Kind where
  | md5 | sha1 | sha256 | sha3
  | murmur32 (seed : Word)
  | murmur128 (seed : Word)
deriving DecidableEq, Repr

/-- The constructors: md5.cpp:183-191, sha1.cpp:219-227, sha2.cpp:184-199, sha3.cpp:30-37, murmur3.hpp:44-48, 94-97. -/
def make (h : Host) : Kind → Obj
  | .md5 => .md5 (Md5.init h)
  | .sha1 => .sha1 (Sha1.init h)
  | .sha256 => .sha256 Sha2.init
  | .sha3 => .sha3 Sha3.init
  | .murmur32 s => .murmur32 (.new s)
  | .murmur128 s => .murmur128 (.new s)

/-- `getAlgorithm()`: md5.cpp:29, 194-196; sha1.cpp:29, 232-234; sha2.cpp:29, 204-206; sha3.cpp:27, 40-43; murmur3.cpp:19-20, 320-322, 353-355. -/
def Obj.name : Obj → String
  | .md5 _ => "MD5"
  | .sha1 _ => "SHA1"
  | .sha256 _ => "SHA256"
  | .sha3 _ => "SHA3"
  | .murmur32 _ => "MURMUR3-32"
  | .murmur128 _ => "MURMUR3-128"

/-- `update(MemoryView)`, virtual; the address matters to Murmur3. -/
def Obj.update (h : Host) (addr : Nat) (input : List Byte) : Obj → Outcome Obj
  | .md5 c => do let c ← Hash.update (Md5.process h) c input; pure (.md5 c)
  | .sha1 c => do let c ← Hash.update (Sha1.process h) c input; pure (.sha1 c)
  | .sha256 c => do let c ← Hash.update (Sha2.process h) c input; pure (.sha256 c)
  | .sha3 c => .ok (.sha3 (Sha3.update c input))
  | .murmur32 c => do let c ← c.update h addr input; pure (.murmur32 c)
  | .murmur128 c => do let c ← c.update h addr input; pure (.murmur128 c)

/-- `digest()`, virtual: the digest and the object afterwards. -/
def Obj.digest (h : Host) : Obj → Outcome (List Byte × Obj)
  | .md5 c => do let r ← Md5.digest h c; pure (r.1, .md5 r.2)
  | .sha1 c => do let r ← Sha1.digest h c; pure (r.1, .sha1 r.2)
  | .sha256 c => do let r ← Sha2.digest h c; pure (r.1, .sha256 r.2)
  | .sha3 c => .ok ((Sha3.digest h c).1, .sha3 (Sha3.digest h c).2)
  | .murmur32 c => .ok ((c.digest h).1, .murmur32 (c.digest h).2)
  | .murmur128 c => .ok ((c.digest h).1, .murmur128 (c.digest h).2)

inductive Op where
  /-- `MD5 a;` -/
  | make (k : Kind)
  /-- `auto b = a;` or `auto b = std::move(a);` -/
  | copy (x : Nat)
  /-- `a = b;`, or `a = std::move(b);`, compiled for objects of one class -/
  | assign (x y : Nat)
  /-- `static_cast<HashingAlgorithm&>(a) = b;` -/
  | assignBase (x y : Nat)
  /-- `a.update(view)` -/
  | update (x addr : Nat) (input : List Byte)
  /-- `a.digest()` -/
  | digest (x : Nat)

/-- The objects, and the digests computed so far. -/
structure World where
  objs : List Obj
  out : List (List Byte)

def World.empty : World := ⟨[], []⟩

/-- One statement; one that names no object leaves the world. -/
def step (h : Host) (w : World) : Op → Outcome World
  | .make k => .ok { w with objs := w.objs ++ [make h k] }
  | .copy x =>
    match w.objs[x]? with
    | some o => .ok { w with objs := w.objs ++ [o] }
    | none => .ok w
  | .assign x y =>
    match w.objs[x]?, w.objs[y]? with
    | some a, some b => .ok (if a.name = b.name then { w with objs := w.objs.set x b } else w)
    | _, _ => .ok w
  | .assignBase _ _ => .ok w
  | .update x addr input =>
    match w.objs[x]? with
    | some o => do let o' ← o.update h addr input; pure { w with objs := w.objs.set x o' }
    | none => .ok w
  | .digest x =>
    match w.objs[x]? with
    | some o => do let r ← o.digest h; pure ⟨w.objs.set x r.2, w.out ++ [r.1]⟩
    | none => .ok w

def run (h : Host) : World → List Op → Outcome World
  | w, [] => .ok w
  | w, op :: rest => do let w' ← step h w op; run h w' rest

end Solace.Hash.Prog
