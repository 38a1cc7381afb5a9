import Verif.Model.Memory
import Verif.Model.Assert
/-
Model of how a `MemoryManager` comes to exist: the page queries, the constructor and the manager of the system's heap
(/repo/src/memoryManager.cpp:31-39, 53-80, 132-138). `Except.error e` is the exception thrown.

`sysconf` is a parameter: the answers of one moment, any values of type `long` (64 bits), and the value of `errno` after each.
`size_type` has 64 bits. Simplification: the answers do not change during one constructor call, in which each is asked once.
-/
namespace Solace.SysMem
open Exn (lit)
open Memory (Mgr)

/-- What `sysconf` answers for `_SC_PAGESIZE`, `_SC_PHYS_PAGES` and `_SC_AVPHYS_PAGES`, each with the `errno` it leaves. -/
structure Machine where
  pageSize : Int
  pageSizeErrno : Int
  pages : Int
  pagesErrno : Int
  available : Int
  availableErrno : Int
deriving DecidableEq, Repr

/-- A value of type `long` converted to `size_type`: modulo 2^64. -/
def toSize (v : Int) : Nat := (v % 2 ^ 64).toNat

/-- `getPageSize`, memoryManager.cpp:53-59. -/
def getPageSize (s : Machine) : Except Exn.Exception Nat :=
  (Assert.assertErrno (decide (s.pageSize ≥ 0)) s.pageSizeErrno (lit "sysconf(_SC_PAGESIZE)")).bind fun _ => .ok (toSize s.pageSize)

/-- `getNbPages`, memoryManager.cpp:62-68. -/
def getNbPages (s : Machine) : Except Exn.Exception Nat :=
  (Assert.assertErrno (decide (s.pages ≥ 0)) s.pagesErrno (lit "sysconf(_SC_PHYS_PAGES)")).bind fun _ => .ok (toSize s.pages)

/-- `getNbAvailablePages`, memoryManager.cpp:70-80; `linux`: whether `SOLACE_PLATFORM_LINUX` is defined. -/
def getNbAvailablePages (linux : Bool) (s : Machine) : Except Exn.Exception Nat :=
  if linux then
    (Assert.assertErrno (decide (s.available ≥ 0)) s.availableErrno (lit "sysconf(_SC_AVPHYS_PAGES)")).bind fun _ =>
      .ok (toSize s.available)
  else .ok 0

/-- `getPageSize() * getNbPages()`, memoryManager.cpp:37. The order of the two calls is not specified: `pagesFirst`. -/
def totalMemory (pagesFirst : Bool) (s : Machine) : Except Exn.Exception Nat :=
  if pagesFirst then (getNbPages s).bind fun n => (getPageSize s).bind fun p => .ok (wrap64 (p * n))
  else (getPageSize s).bind fun p => (getNbPages s).bind fun n => .ok (wrap64 (p * n))

/-- The constructor, memoryManager.cpp:31-39, of an object that gets the number `self`. -/
def create (pagesFirst : Bool) (s : Machine) (self cap : Nat) : Except Exn.Exception Mgr :=
  (totalMemory pagesFirst s).bind fun total =>
    (Assert.assertTrue (decide (cap < total)) (lit "allowedCapacity can't be more then total system's memory")).bind fun _ =>
      .ok ⟨cap, 0, false, self⟩

/-- What happens between calls of `getSystemHeapMemoryManager`: a call, or anything done to the object if it exists. -/
inductive Act where
  | call (pagesFirst : Bool) (s : Machine)
  | use (f : Mgr → Mgr)

/-- The static object of `getSystemHeapMemoryManager`, memoryManager.cpp:132-138: initialised by the first call whose
initialisation does not throw (an initialisation left by an exception is tried again by the next call). The result of a call
is the object it refers to, as it is then; other actions have no result. -/
def act (g : Option Mgr) : Act → Option Mgr × Option (Except Exn.Exception Mgr)
  | .call o s =>
    match g with
    | some m => (some m, some (.ok m))
    | none =>
      match create o s 0 (16 * 1024 * 1024) with
      | .ok m => (some m, some (.ok m))
      | .error e => (none, some (.error e))
  | .use f => (g.map f, none)

/-- A history of a program, from the beginning. -/
def history (acts : List Act) : Option Mgr := acts.foldl (fun g a => (act g a).1) none

end Solace.SysMem
