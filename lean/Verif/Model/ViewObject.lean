import Verif.Model.Basic
/-
`MemoryView` and `MutableMemoryView` as objects that refer to memory (/repo/include/solace/memoryView.hpp,
/repo/include/solace/mutableMemoryView.hpp, /repo/src/memoryView.cpp, /repo/src/mutableMemoryView.cpp): making, copying, moving, exchanging
and slicing views, and writing through views that may overlap. Model/MemoryView has the same functions on the bytes seen.

Memory is a map from addresses to bytes, `none` where there is no memory; reading or writing there is undefined. Address 0 is the
null pointer. Addresses and sizes are natural numbers (an object ends before the end of the address space, so sums do not wrap).
`memmove` and `memset` of zero bytes with a null pointer do nothing. Operations that do not compile (a variable that does not exist, or
a constant view where a mutable one is needed) are no programs and change nothing.
-/
namespace Solace.ViewObj

abbrev Mem := Nat → Option Byte

/-- `_size` and `_dataAddress`, memoryView.hpp:225-228. -/
structure View where
  addr : Nat
  size : Nat
deriving DecidableEq, Repr

/-- A variable: its type (is it a `MutableMemoryView`?) and its value. -/
structure Var where
  mutable : Bool
  view : View
deriving DecidableEq, Repr

structure World where
  mem : Mem
  vars : List Var

/-- Reading `n` bytes; `none` if one of them is not memory. -/
def load (m : Mem) (a : Nat) : Nat → Option (List Byte)
  | 0 => some []
  | n + 1 =>
    match m a, load m (a + 1) n with
    | some b, some bs => some (b :: bs)
    | _, _ => none

def store (m : Mem) (a : Nat) (bs : List Byte) : Mem :=
  fun p => if a ≤ p ∧ p < a + bs.length then bs[p - a]? else m p

/-- `std::memmove`. -/
def memmove (m : Mem) (dest src n : Nat) : Outcome Mem :=
  match load m src n, load m dest n with
  | some bs, some _ => .ok (store m dest bs)
  | _, _ => .ub

/-- `std::memset`. -/
def memset (m : Mem) (dest : Nat) (value : Byte) (n : Nat) : Outcome Mem :=
  match load m dest n with
  | some _ => .ok (store m dest (List.replicate n value))
  | none => .ub

/-- The default constructors, memoryView.hpp:83-90: the null pointer and no bytes. -/
def View.null : View := ⟨0, 0⟩

/-- `MemoryView(data, size)`, memoryView.hpp:98-103, mutableMemoryView.hpp:77-79, and `wrapMemory`, memoryView.hpp:267-279,
mutableMemoryView.hpp:219-231. -/
def make (addr size : Nat) : Outcome View := if addr ≠ 0 ∨ size = 0 then .ok ⟨addr, size⟩ else .throws

/-- `MemoryView::slice`, memoryView.cpp:50-59; `noexcept`. -/
def slice (v : View) (from_ to : Nat) : Outcome View :=
  let f := min from_ v.size
  let t := min v.size (max to f)
  (make (v.addr + f) (t - f)).noexcept

/-- `MutableMemoryView::slice`, mutableMemoryView.cpp:84-100; `noexcept`. -/
def sliceMut (v : View) (from_ to : Nat) : Outcome View :=
  if from_ = to then (make v.addr 0).noexcept
  else
    let f := min from_ v.size
    let t := min (max to f) v.size
    (make (v.addr + f) (t - f)).noexcept

/-- The slice taken of a view used as this type (`using MemoryView::slice`, mutableMemoryView.hpp:179-182). -/
def sliceAs (mutable : Bool) (v : View) (from_ to : Nat) : Outcome View :=
  if mutable then sliceMut v from_ to else slice v from_ to

/-- `MemoryView::equals`, memoryView.cpp:82-93. -/
def equals (m : Mem) (a b : View) : Outcome Bool :=
  if a.size ≠ b.size then .ok false
  else if a.addr = b.addr then .ok true
  else
    match load m a.addr a.size, load m b.addr a.size with
    | some x, some y => .ok (x == y)
    | _, _ => .ub

/-- `MutableMemoryView::write`, mutableMemoryView.cpp:39-59. -/
def write (m : Mem) (v src : View) : Outcome (Mem × Except Err Unit) :=
  if v.addr = 0 then .ok (m, .error .dom)
  else if src.size > v.size then .ok (m, .error .dom)
  else if src.size > 0 then do
    let m' ← memmove m v.addr src.addr src.size
    pure (m', .ok ())
  else .ok (m, .ok ())

/-- `MutableMemoryView::read`, mutableMemoryView.cpp:62-73. -/
def read (m : Mem) (v dest : View) : Outcome (Mem × Except Err Unit) :=
  if v.size < dest.size then .ok (m, .error .overflow)
  else do
    let m' ← memmove m dest.addr v.addr dest.size
    pure (m', .ok ())

/-- `MutableMemoryView::fill`, mutableMemoryView.cpp:76-81. -/
def fill (m : Mem) (v : View) (value : Byte) : Outcome Mem := memset m v.addr value v.size

inductive Op where
  | null (mutable : Bool)
  | wrap (mutable : Bool) (addr size : Nat)
  | copy (mutable : Bool) (v : Nat)
  | move (mutable : Bool) (v : Nat)
  | assign (v u : Nat)
  | assignMove (v u : Nat)
  | swap (v u : Nat)
  | slice (mutable : Bool) (v from_ to : Nat)
  | cast (v : Nat)
  | write (v u : Nat)
  | read (v u : Nat)
  | fill (v : Nat) (value : Byte)
deriving DecidableEq, Repr

/-- The view in a variable, if it can be used where a view of this type is expected: a `MutableMemoryView` is also a `MemoryView`. -/
def World.get (w : World) (mutable : Bool) (v : Nat) : Option View :=
  match w.vars[v]? with
  | some x => if mutable && !x.mutable then none else some x.view
  | none => none

def World.put (w : World) (v : Nat) (x : View) : World := { w with vars := w.vars.modify v fun y => { y with view := x } }

def World.push (w : World) (mutable : Bool) (x : View) : World := { w with vars := w.vars ++ [⟨mutable, x⟩] }

/-- Is the variable a `MutableMemoryView`? -/
def World.isMut (w : World) (v : Nat) : Bool := (w.vars[v]?.map (·.mutable)).getD false

/-- `swap`, memoryView.hpp:121-128, 282-285, mutableMemoryView.hpp:89-93, 238-241. `MemoryView::swap(MemoryView&)` and the free function
take a `MutableMemoryView` on either side. -/
def World.swap (w : World) (v u : Nat) : World :=
  match w.get false v, w.get false u with
  | some x, some y => (w.put v y).put u x
  | _, _ => w

def step (w : World) : Op → Outcome World
  | .null k => .ok (w.push k .null)
  | .wrap k a n =>
    match make a n with
    | .ok x => .ok (w.push k x)
    | _ => .ok w
  -- the defaulted copy constructors, memoryView.hpp:105, mutableMemoryView.hpp:60
  | .copy k v =>
    match w.get k v with
    | some x => .ok (w.push k x)
    | none => .ok w
  -- `MemoryView(MemoryView&&)`, memoryView.hpp:109-113, mutableMemoryView.hpp:63
  | .move k v =>
    match w.get k v with
    | some x => .ok ((w.put v .null).push k x)
    | none => .ok w
  -- the defaulted assignments, memoryView.hpp:106, mutableMemoryView.hpp:61
  | .assign v u =>
    match w.get (w.isMut v) u with
    | some x => .ok (w.put v x)
    | none => .ok w
  -- `operator=(MemoryView&&)`, memoryView.hpp:116-118; `operator=(MutableMemoryView&&)`, mutableMemoryView.hpp:65-67
  | .assignMove v u =>
    match w.get (w.isMut v) u with
    | some _ => .ok (w.swap v u)
    | none => .ok w
  | .swap v u => .ok (w.swap v u)
  | .slice k v f t =>
    match w.get k v with
    | some x => do
      let y ← sliceAs k x f t
      pure (w.push k y)
    | none => .ok w
  -- `mutable_cast`, mutableMemoryView.hpp:233-236
  | .cast v =>
    match w.get false v with
    | some x =>
      match make x.addr x.size with
      | .ok y => .ok (w.push true y)
      | _ => .ok w
    | none => .ok w
  | .write v u =>
    match w.get true v, w.get false u with
    | some x, some y => do
      let r ← ViewObj.write w.mem x y
      pure { w with mem := r.1 }
    | _, _ => .ok w
  | .read v u =>
    match w.get true v, w.get true u with
    | some x, some y => do
      let r ← ViewObj.read w.mem x y
      pure { w with mem := r.1 }
    | _, _ => .ok w
  | .fill v b =>
    match w.get true v with
    | some x => do
      let m ← ViewObj.fill w.mem x b
      pure { w with mem := m }
    | none => .ok w

def run (w : World) : List Op → Outcome World
  | [] => .ok w
  | op :: ops => step w op >>= fun w' => run w' ops

end Solace.ViewObj
