import Verif.Model.Basic
/-
Model of `MemoryManager` (/repo/src/memoryManager.cpp, /repo/include/solace/memoryManager.hpp) and of `MemoryResource`
(/repo/include/solace/memoryResource.hpp): a world of manager objects and resource variables, with a log of the calls
made to `malloc` and `free`.

Blocks are identified by a serial number. Managers outlive the resources allocated from them (documented requirement,
/repo/include/solace/memoryManager.hpp:49-52), so managers are never destroyed. An operation that names a variable that
does not exist or is already destroyed is not a C++ program; the model leaves the world unchanged for it.
-/
namespace Solace.Memory

/-- `_capacity`, `_size`, `_isLocked` and the `_self` pointer of the embedded `_disposer` (index of a manager). -/
structure Mgr where
  capacity : Nat
  size : Nat
  locked : Bool
  self : Nat
deriving DecidableEq, Repr

/-- A `MemoryResource`: `_data` (block, or none for null / foreign memory, and size) and `_disposer` (index of the
manager whose disposer it is). -/
structure Res where
  block : Option Nat
  size : Nat
  disposer : Option Nat
deriving DecidableEq, Repr

/-- Calls to the C library. `malloc` events record which manager made the call. -/
inductive Event where
  | malloc (id mgr size : Nat)
  | free (id : Nat)
deriving DecidableEq, Repr

structure World where
  mgrs : List Mgr
  vars : List (Option Res)
  log : List Event
  next : Nat
deriving DecidableEq, Repr

def World.init : World := ⟨[], [], [], 0⟩

/-- Constructor, /repo/src/memoryManager.cpp:31-39; `total` is the page size times the number of pages. The assertion
throws, so there is no object. -/
def newMgr (w : World) (cap total : Nat) : World :=
  if cap < wrap64 total then { w with mgrs := w.mgrs ++ [⟨cap, 0, false, w.mgrs.length⟩] } else w

/-- `swap`, /repo/src/memoryManager.cpp:42-50, also move assignment (/repo/include/solace/memoryManager.hpp:65-67): the
disposers are not swapped. -/
def swapMgr (w : World) (a b : Nat) : World :=
  match w.mgrs[a]?, w.mgrs[b]? with
  | some x, some y =>
    { w with mgrs := (w.mgrs.set a { y with self := x.self }).set b { x with self := y.self } }
  | _, _ => w

/-- Defaulted move constructor, /repo/include/solace/memoryManager.hpp:64: every member is copied, the disposer with
its pointer to the old manager. -/
def moveMgr (w : World) (a : Nat) : World :=
  match w.mgrs[a]? with
  | some x => { w with mgrs := w.mgrs ++ [x] }
  | none => w

/-- `lock` / `unlock`, /repo/src/memoryManager.cpp:118-129. -/
def setLocked (w : World) (a : Nat) (l : Bool) : World :=
  match w.mgrs[a]? with
  | some x => { w with mgrs := w.mgrs.set a { x with locked := l } }
  | none => w

/-- `allocate`, /repo/src/memoryManager.cpp:97-115, storing a successful result in a new variable. `sysOk`: whether
`malloc` returns memory. -/
def alloc (w : World) (m n : Nat) (sysOk : Bool) : World × Except Err Unit :=
  match w.mgrs[m]? with
  | none => (w, .error .invalidInput)
  | some x =>
    if sub64 x.capacity x.size < n then (w, .error .nomem)
    else if x.locked then (w, .error .perm)
    else if !sysOk && n != 0 then (w, .error .nomem)
    else
      ({ mgrs := w.mgrs.set m { x with size := wrap64 (x.size + n) }
         vars := w.vars ++ [some ⟨if sysOk then some w.next else none, n, some m⟩]
         log := if sysOk then w.log ++ [.malloc w.next m n] else w.log
         next := if sysOk then w.next + 1 else w.next }, .ok ())

/-- `::free` of the address of a block; nothing for the null address. -/
def logFree (log : List Event) : Option Nat → List Event
  | some id => log ++ [.free id]
  | none => log

/-- `HeapMemoryDisposer::dispose` and `MemoryManager::free`, /repo/src/memoryManager.cpp:83-94. -/
def dispose (w : World) (d : Nat) (r : Res) : World :=
  match w.mgrs[d]? with
  | none => w
  | some x =>
    let mgrs := match w.mgrs[x.self]? with
      | some y => w.mgrs.set x.self { y with size := sub64 y.size r.size }
      | none => w.mgrs
    { w with mgrs := mgrs, log := logFree w.log r.block }

/-- Destructor of a resource variable, /repo/include/solace/memoryResource.hpp:57-61. -/
def destroy (w : World) (v : Nat) : World :=
  match w.vars[v]? with
  | some (some r) =>
    match r.disposer with
    | some d => dispose { w with vars := w.vars.set v none } d r
    | none => { w with vars := w.vars.set v none }
  | _ => w

/-- Move construction of a new variable, /repo/include/solace/memoryResource.hpp:70-74 with
/repo/include/solace/memoryView.hpp:109-113. -/
def moveCtor (w : World) (v : Nat) : World :=
  match w.vars[v]? with
  | some (some r) => { w with vars := w.vars.set v (some ⟨none, 0, none⟩) ++ [some r] }
  | _ => w

/-- `swap`, and move assignment which is `swap`: /repo/include/solace/memoryResource.hpp:76-78, 90-96. -/
def swapRes (w : World) (v u : Nat) : World :=
  match w.vars[v]?, w.vars[u]? with
  | some (some a), some (some b) => { w with vars := (w.vars.set v (some b)).set u (some a) }
  | _, _ => w

/-- A variable that refers to memory it does not own (no disposer), or an empty one:
/repo/include/solace/memoryResource.hpp:68, 85-88. -/
def wrapForeign (w : World) (size : Nat) : World := { w with vars := w.vars ++ [some ⟨none, size, none⟩] }

inductive Op where
  | newMgr (cap total : Nat)
  | swapMgr (a b : Nat)
  | moveMgr (a : Nat)
  | lock (a : Nat)
  | unlock (a : Nat)
  | alloc (m n : Nat) (sysOk : Bool)
  | destroy (v : Nat)
  | moveCtor (v : Nat)
  | assign (v u : Nat)
  | swap (v u : Nat)
  | wrapForeign (size : Nat)
deriving DecidableEq, Repr

def step (w : World) : Op → World
  | .newMgr c t => newMgr w c t
  | .swapMgr a b => swapMgr w a b
  | .moveMgr a => moveMgr w a
  | .lock a => setLocked w a true
  | .unlock a => setLocked w a false
  | .alloc m n s => (alloc w m n s).1
  | .destroy v => destroy w v
  | .moveCtor v => moveCtor w v
  | .assign v u => swapRes w v u
  | .swap v u => swapRes w v u
  | .wrapForeign n => wrapForeign w n

def run (ops : List Op) : World := ops.foldl step World.init

end Solace.Memory
