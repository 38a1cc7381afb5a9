import Verif.Conformance.Basic
import Verif.Model.Memory
import Verif.Model.MemoryAccess
import Verif.Model.ViewObject
import Verif.Model.Endian
/-
/repo/test/test_memoryManager.cpp, test_memoryResource.cpp and test_memoryView.cpp. Two arrays of a test are two parts of one block.
-/
namespace Solace.Conformance.TestMemory
open Solace

/-! MemoryManager; the machine has 4096 pages of 4096 bytes -/
open Memory in
def mgr (cap : Nat) : World := newMgr .init cap (4096 * 4096)
open Memory in
def state (w : World) : List (Nat × Nat × Nat) := w.mgrs.map fun m => (m.capacity, m.size, m.capacity - m.size)
open Memory in
def allocs (w : World) (n : Nat) : World × Bool := let r := alloc w 0 n true; (r.1, (ok? r.2).isSome)
-- testConstruction, 29-46
#guard state (mgr 0) = [(0, 0, 0)] && state (mgr 1024) = [(1024, 0, 1024)]
-- testAllocation, 69-87
#guard (allocs (mgr 512) 512).2 && state (allocs (mgr 512) 512).1 = [(512, 512, 0)]
#guard state (Memory.destroy (allocs (mgr 512) 512).1 0) = [(512, 0, 512)]
-- testAllocationBeyondCapacity, 90-114
#guard !(allocs (mgr 128) 2048).2
def one := (allocs (mgr 128) 64).1
def two := (allocs one 64).1
#guard state one = [(128, 64, 64)] && state two = [(128, 128, 0)] && !(allocs two 64).2
#guard state (Memory.destroy (Memory.destroy two 1) 0) = [(128, 0, 128)]
-- testAllocationLocking, 117-143
#guard (one.mgrs.map (·.locked)) = [false] && ((Memory.setLocked one 0 true).mgrs.map (·.locked)) = [true]
#guard !(allocs (Memory.setLocked one 0 true) 64).2
#guard (allocs (Memory.setLocked (Memory.setLocked one 0 true) 0 false) 64).2
-- test_memoryResource.cpp, moveAssignment, 48-63: one block is held until the variable that received it goes
#guard (let w := (allocs (mgr 512) 32).1
        let w1 := Memory.swapRes (Memory.wrapForeign w 0) 1 0
        state w1 == [(512, 32, 480)] && state (Memory.destroy w1 1) == [(512, 0, 512)] && ((Memory.destroy w1 1).vars[0]? == some (some ⟨none, 0, none⟩)))

/-! MemoryView -/
def m48 : List Byte := List.replicate 48 0xCD#8
-- testFill, 30-70
#guard (⟨0, 48⟩ : Window).fill m48 64 = List.replicate 48 64#8
#guard (⟨0, 48⟩ : Window).fillRange (List.replicate 48 64#8) 36 20 40 = List.replicate 20 64#8 ++ List.replicate 20 36#8 ++ List.replicate 8 64#8
-- testWrapping, 73-104
#guard val (ViewObj.make 0 0) = some ⟨0, 0⟩ && throws (ViewObj.make 0 321) && val (ViewObj.make 4096 6) = some ⟨4096, 6⟩
-- testRead, 145-180: the source at 0, the destination at 128
def m152 : List Byte := List.replicate 128 64#8 ++ List.replicate 24 0#8
def src : Window := ⟨0, 128⟩
def dst : Window := ⟨128, 24⟩
#guard (ok? (src.read m152 dst).2).isSome && dst.bytes (src.read m152 dst).1 = List.replicate 24 64#8
#guard dst.bytes (src.fill (src.read m152 dst).1 76) = List.replicate 24 64#8
#guard (ok? ((src.slice 0 10).read m152 dst).2).isNone && (ok? (dst.read m152 src).2).isNone && (ok? ((src.slice 128 3).read m152 dst).2).isNone
-- testReadingPastTheSize, 183-189
#guard (⟨0, 15⟩ : Window).offsetAddress 16 = none && throws (MemoryView.at (List.replicate 15 0#8) 1042)
-- testDataAs, 192-235; dataAsWhenNoRoom
def put (m : List Byte) (at_ : Nat) (x : Int) : List Byte :=
  let m1 := m.take 17 ++ hostRepr false 4 (x % 2 ^ 32).toNat
  ((Window.write ((⟨0, 17⟩ : Window).slice at_ (at_ + 4)) m1 ⟨17, 4⟩).1).take 17
def simple (x y z : Int) : List Byte := [x, y, z].flatMap fun v => hostRepr false 4 (v % 2 ^ 32).toNat
def put3 (m : List Byte) (o : Nat) (x y z : Int) : List Byte := put (put (put m o x) (o + 4) y) (o + 8) z
def first := put3 (List.replicate 17 0xCD#8) 0 1 3 2
def second := put3 first 0 7 44 (-32)
def third := put3 second 4 (-91) 12 0
#guard val ((⟨0, 17⟩ : Window).dataAs 12 first) = some (simple 1 3 2) && val ((⟨0, 17⟩ : Window).dataAs 12 second) = some (simple 7 44 (-32))
#guard val ((⟨0, 17⟩ : Window).dataAsAt 12 third 4) = some (simple (-91) 12 0)
#guard throws ((⟨0, 17⟩ : Window).dataAsAt 12 third 6) && throws ((⟨0, 17⟩ : Window).dataAs 80 third) && throws ((⟨0, 17⟩ : Window).dataAs 34 third)
-- testWrite, 245-289
#guard Window.write src m152 src = (m152, .ok ())
def src2 : Window := ⟨128, 24⟩
def w152 : List Byte := List.replicate 128 0#8 ++ List.replicate 24 32#8
#guard (src.write w152 src2).1 = List.replicate 24 32#8 ++ List.replicate 104 0#8 ++ List.replicate 24 32#8 && (ok? (src.write w152 src2).2).isSome
#guard src.bytes (src2.fill (src.write w152 src2).1 76) = List.replicate 24 32#8 ++ List.replicate 104 0#8
#guard (ok? (src2.write w152 src).2).isNone && (ok? ((src.slice 129 10).write w152 src2).2).isNone
-- testZeroSizedSlice, testSlice, testGreadySlice, 292-351
#guard [((24 : Nat), (3 : Nat)), (24, 512), (0, 0), (0, 312), (0, 10)].all fun (n, k) =>
  (MutableMemoryView.slice n k k).2 == 0 && (MemoryView.slice (List.replicate n 1#8) k k).length == 0
def bytes64 : List Byte := (List.range 64).map fun i => BitVec.ofNat 8 i
#guard (⟨0, 64⟩ : Window).slice 32 64 = ⟨32, 32⟩ && MemoryView.slice bytes64 32 64 = bytes64.drop 32
#guard (⟨0, 64⟩ : Window).slice 0 64 = ⟨0, 64⟩ && MemoryView.equals bytes64 (MemoryView.slice bytes64 0 64)
#guard [((3 : Nat), (3 : Nat)), (128, 256), (128, 2), (32, 2)].all fun (f, t) =>
  ((⟨0, 64⟩ : Window).slice f t).size == 0 && (MemoryView.slice bytes64 f t).isEmpty
#guard (⟨0, 64⟩ : Window).slice 0 256 = ⟨0, 64⟩ && MemoryView.slice bytes64 0 256 = bytes64
-- testPlacementConstruct, 354-375
#guard throws ((⟨0, 3⟩ : Window).construct 12 [1, 2, 3] (simple 4 (-2) 12))
#guard val ((⟨0, 12⟩ : Window).construct 12 (List.replicate 12 0xCD#8) (simple 4 (-2) 12)) = some (simple 4 (-2) 12)

end Solace.Conformance.TestMemory
