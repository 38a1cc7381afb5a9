import Verif.Model.HashProgram
import Verif.Model.PathMemory
import Verif.Model.MessageDigest
import Verif.Model.ArrayFactory
/-
Programs with hash objects and with the digests they return, /repo/include/solace/hashing/messageDigest.hpp:37-147 and
/repo/src/hashing/messageDigest.cpp:32-34, when the memory manager may refuse any request. A `MessageDigest` is an `Array<byte>`, a block
with the bytes; they can not be changed through it, so they are kept in the object and not in the block. Digests can be moved and not
copied (the move constructor deletes the copy constructor). Exceptions are caught around each statement; what happens before they are
thrown stays. The heap is that of Model/PathMemory: giving back a block twice is undefined.
-/
namespace Solace.Hash.Digests
open PathMem (Heap Policy allocate freeOpt)
open Prog (Obj)

/-- `MessageDigest`: the block of `_storage` and its elements. -/
structure DObj where
  block : Option Nat
  bytes : List Byte
deriving DecidableEq, Repr

/-- What a move leaves behind, messageDigest.hpp:52 with array.hpp:72-77. -/
def DObj.none : DObj := ⟨.none, []⟩

/-- `MessageDigest(MemoryView)`, messageDigest.cpp:32-34, with `makeArray(n, pointer)`, array.hpp:388-404; `none`: `moveResult` throws
because there is no memory. The elements are copied into the block, which must have room for them. -/
def create (g : Policy) (h : Heap) (bytes : List Byte) : Outcome (Heap × Option DObj) :=
  match allocate g h bytes.length with
  | (h1, .error _) => .ok (h1, .none)
  | (h1, .ok (b, v)) => if bytes.length ≤ v.bytes.length then .ok (h1, some ⟨some b, bytes⟩) else .ub

/-- `==`, messageDigest.hpp:133-136, array.hpp:108-111 and arrayView.hpp:102-123. Two arrays begin at the same address if they are one,
or both have no block. -/
def equals (a b : DObj) : Outcome Bool :=
  if a.bytes.length ≠ b.bytes.length then .ok false
  else if a.block = b.block then .ok true
  else Vec.equalsViewLoop (· == ·) (a.bytes.map some) (b.bytes.map some)

/-- `==` with a list, messageDigest.hpp:138-146, array.hpp:113-130. -/
def equalsList (a : DObj) (list : List Byte) : Outcome Bool :=
  if a.bytes.length ≠ list.length then .ok false else Vec.equalsLoop (· == ·) (a.bytes.map some) list

inductive Op where
  /-- a statement with hash objects; the digest computed by `digest` becomes a new variable -/
  | hash (op : Prog.Op)
  /-- `MessageDigest d{view};` -/
  | make (bytes : List Byte)
  /-- `MessageDigest d{std::move(a)};` -/
  | move (i : Nat)
  /-- `a = std::move(b);`, a swap, messageDigest.hpp:60-69, or `swap(a, b)`, 127-130 -/
  | assign (i j : Nat)
  /-- the end of the life of a variable -/
  | destroy (i : Nat)
  /-- `a == b` -/
  | same (i j : Nat)
  /-- `a == {..}` or `{..} == a` -/
  | sameList (i : Nat) (list : List Byte)
  /-- `a[k]`; an exception is `none` -/
  | index (i k : Nat)
  /-- `a.getDigestLength()` -/
  | bits (i : Nat)

/-- What the program gets to know. -/
inductive Seen where
  | truth (b : Bool)
  | byte (b : Option Byte)
  | number (n : Nat)
deriving DecidableEq, Repr

structure World where
  objs : List Obj
  heap : Heap
  digests : List (Option DObj)
  seen : List Seen

def World.start : World := ⟨[], ⟨0, 0, 0, []⟩, [], []⟩

def getVar (ds : List (Option DObj)) (i : Nat) : Option DObj := (ds[i]?).join

/-- A digest made is a new variable; one that throws is not. -/
def keep (ds : List (Option DObj)) : Option DObj → List (Option DObj)
  | some d => ds ++ [some d]
  | .none => ds

/-- One statement; those that name no object leave the world. The functions `digest` (md5.cpp:212-236, sha1.cpp:249-272,
sha2.cpp:221-244, sha3.cpp:61-70, murmur3.cpp:338-346, 376-378) have changed the hash object before they construct the `MessageDigest`
they return, which may throw. -/
def step (h : Host) (g : Policy) (w : World) : Op → Outcome World
  | .hash (.digest x) =>
    match w.objs[x]? with
    | some o => do
      let r ← o.digest h
      let m ← create g w.heap r.1
      pure { w with objs := w.objs.set x r.2, heap := m.1, digests := keep w.digests m.2 }
    | .none => .ok w
  | .hash op => do
    let w' ← Prog.step h ⟨w.objs, []⟩ op
    pure { w with objs := w'.objs }
  | .make bytes => do
    let m ← create g w.heap bytes
    pure { w with heap := m.1, digests := keep w.digests m.2 }
  | .move i =>
    match getVar w.digests i with
    | some d => .ok { w with digests := w.digests.set i (some .none) ++ [some d] }
    | .none => .ok w
  | .assign i j =>
    match getVar w.digests i, getVar w.digests j with
    | some a, some b => .ok { w with digests := (w.digests.set i (some b)).set j (some a) }
    | _, _ => .ok w
  | .destroy i =>
    match getVar w.digests i with
    | some d => do
      let h' ← freeOpt w.heap d.block
      pure { w with heap := h', digests := w.digests.set i .none }
    | .none => .ok w
  | .same i j =>
    match getVar w.digests i, getVar w.digests j with
    | some a, some b => do
      let r ← equals a b
      pure { w with seen := w.seen ++ [.truth r] }
    | _, _ => .ok w
  | .sameList i list =>
    match getVar w.digests i with
    | some a => do
      let r ← equalsList a list
      pure { w with seen := w.seen ++ [.truth r] }
    | .none => .ok w
  | .index i k =>
    match getVar w.digests i with
    | some a =>
      match MessageDigest.index a.bytes k with
      | .ok b => .ok { w with seen := w.seen ++ [.byte (some b)] }
      | .throws => .ok { w with seen := w.seen ++ [.byte .none] }
      | .terminate => .terminate
      | .ub => .ub
    | .none => .ok w
  | .bits i =>
    match getVar w.digests i with
    | some a => .ok { w with seen := w.seen ++ [.number (MessageDigest.getDigestLength a.bytes)] }
    | .none => .ok w

def run (h : Host) (g : Policy) : World → List Op → Outcome World
  | w, [] => .ok w
  | w, op :: rest => do
    let w' ← step h g w op
    run h g w' rest

end Solace.Hash.Digests
