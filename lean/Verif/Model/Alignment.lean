import Verif.Model.MemoryView
/-
Where typed access to raw memory goes: /repo/include/solace/memoryView.hpp, mutableMemoryView.hpp, arrayView.hpp, vector.hpp,
dictionary.hpp and the buffers of /repo/src/errorDomain.cpp. Here a view is its address and its size, and only the address of
the object matters: forming a reference to an object at an address that is not a multiple of `alignof(T)` is undefined. What
the objects hold, and whether they are alive, is in Model/Vector, Model/Array and Model/MemoryAccess.
-/
namespace Solace.Align

/-- `sizeof(T)` and `alignof(T)`. -/
structure Ty where
  size : Nat
  align : Nat
deriving DecidableEq, Repr

/-- What the language guarantees of every object type: the alignment is a power of two and divides the size. -/
def Ty.Valid (t : Ty) : Prop := (∃ k, k ≤ 64 ∧ t.align = 2 ^ k) ∧ t.align ∣ t.size ∧ 0 < t.size

/-- `_dataAddress` and `_size` of a memory view. -/
structure View where
  addr : Nat
  size : Nat
deriving DecidableEq, Repr

/-- `*reinterpret_cast<T*>(address)`: the address of the object. -/
def refTo (t : Ty) (address : Nat) : Outcome Nat := if address % t.align = 0 then .ok address else .ub

namespace View

/-- `dataAs<T>()`, memoryView.hpp:187-192 and mutableMemoryView.hpp:130-133. -/
def dataAs (t : Ty) (v : View) : Outcome Nat := if t.size ≤ v.size then refTo t v.addr else .throws

/-- `dataAs<T>(offset)`, memoryView.hpp:195-200 and mutableMemoryView.hpp:135-138. -/
def dataAsAt (t : Ty) (v : View) (offset : Nat) : Outcome Nat :=
  if wrap64 (offset + t.size) ≤ v.size then refTo t (v.addr + offset) else .throws

/-- `MutableMemoryView::slice`, mutableMemoryView.cpp:84-100. -/
def sliceMut (v : View) (from_ to : Nat) : View :=
  let r := MutableMemoryView.slice v.size from_ to
  ⟨v.addr + r.1, r.2⟩

/-- `MemoryView::slice`, memoryView.cpp:50-59. -/
def slice (v : View) (from_ to : Nat) : View :=
  let f := min from_ v.size
  let t := min v.size (max to f)
  ⟨v.addr + f, t - f⟩

/-- `sliceFor<T>(offset)`, mutableMemoryView.hpp:184-187. -/
def sliceFor (t : Ty) (v : View) (offset : Nat) : View :=
  v.sliceMut (wrap64 (offset * t.size)) (wrap64 (wrap64 (offset + 1) * t.size))

/-- `construct<T>(args...)`, mutableMemoryView.hpp:190-198: where the object is made. -/
def construct (t : Ty) (v : View) : Outcome Nat := if t.size ≤ v.size then v.dataAs t else .throws

/-- `ArrayView::size`, arrayView.hpp:161-163. -/
def count (t : Ty) (v : View) : Nat := v.size / t.size

/-- `ArrayView::operator[]` and `set`, arrayView.hpp:166-177 and 211-217. -/
def index (t : Ty) (v : View) (i : Nat) : Outcome Nat :=
  if i < v.count t then v.dataAsAt t (wrap64 (t.size * i)) else .throws

/-- `ArrayView::emplace`, arrayView.hpp:223-231: `destruct` and `construct` in the slice of the element. -/
def emplace (t : Ty) (v : View) (i : Nat) : Outcome Nat :=
  if i < v.count t then do
    let _ ← (v.sliceFor t i).dataAs t
    (v.sliceFor t i).construct t
  else .throws

/-- A loop from `begin()` to `end()`, arrayView.hpp:180-194: the addresses of the objects, `n` of them still to come. -/
def walkFrom (t : Ty) : Nat → Nat → Outcome (List Nat)
  | _, 0 => .ok []
  | a, n + 1 => do
    let x ← refTo t a
    let xs ← walkFrom t (a + t.size) n
    pure (x :: xs)

def walk (t : Ty) (v : View) : Outcome (List Nat) := if v.size = 0 then .ok [] else walkFrom t v.addr (v.count t)

/-- `ArrayView::slice`, arrayView.hpp:198-205; `mutable` for an `ArrayView<T>` that is not constant. -/
def sliceArray (t : Ty) (mutable : Bool) (v : View) (from_ to : Nat) : View :=
  if mutable then v.sliceMut (wrap64 (from_ * t.size)) (wrap64 (to * t.size))
  else v.slice (wrap64 (from_ * t.size)) (wrap64 (to * t.size))

end View

/-- `_buffer` and `_nextInsertPosition`, vector.hpp:293-294. -/
structure Vect where
  buf : View
  next : Nat
deriving DecidableEq, Repr

namespace Vect

/-- `view()`, vector.hpp:193-199. -/
def view (t : Ty) (v : Vect) : View := v.buf.sliceMut 0 (wrap64 (t.size * v.next))

/-- `emplace_back`, vector.hpp:210-228: the vector and the address of the new element; `none` when the vector is full. -/
def emplaceBack (t : Ty) (v : Vect) : Vect × Outcome (Option Nat) :=
  if v.buf.size / t.size ≤ v.next then (v, .ok none)
  else
    let arena := v.buf.sliceFor t v.next
    if arena.size = 0 then (v, .ok none)
    else
      match arena.construct t with
      | .ok a => ({ v with next := wrap64 (v.next + 1) }, .ok (some a))
      | .throws => (v, .throws)
      | .terminate => (v, .terminate)
      | .ub => (v, .ub)

/-- `pop_back`, vector.hpp:244-253: the address of the element destroyed, if any. The function is `noexcept`. -/
def popBack (t : Ty) (v : Vect) : Vect × Outcome (Option Nat) :=
  if v.next < 1 then (v, .ok none)
  else
    let n := sub64 v.next 1
    match ((v.buf.sliceFor t n).dataAs t).noexcept with
    | .ok a => ({ v with next := n }, .ok (some a))
    | .throws => (v, .throws)
    | .terminate => (v, .terminate)
    | .ub => (v, .ub)

/-- `dispose`, vector.hpp:277-284: the addresses of the elements destroyed. -/
def dispose (t : Ty) (v : Vect) : Vect × Outcome (List Nat) := ({ v with next := 0 }, (v.view t).walk t)

inductive Op where
  /-- `push_back`, `emplace_back` -/
  | emplaceBack
  | popBack
  /-- `v[i]` -/
  | index (i : Nat)
  /-- a loop over the elements -/
  | walk
  /-- `v = nullptr`, and the destructor -/
  | dispose
deriving DecidableEq, Repr

/-- One call: the vector afterwards and the addresses of the objects it touched. -/
def step (t : Ty) (v : Vect) : Op → Vect × Outcome (List Nat)
  | .emplaceBack => let r := emplaceBack t v; (r.1, r.2 >>= fun a => pure a.toList)
  | .popBack => let r := popBack t v; (r.1, r.2 >>= fun a => pure a.toList)
  | .index i => (v, (v.view t).index t i >>= fun a => pure [a])
  | .walk => (v, (v.view t).walk t)
  | .dispose => dispose t v

/-- A program; exceptions are caught. -/
def run (t : Ty) (v : Vect) : List Op → Outcome (Vect × List Nat)
  | [] => .ok (v, [])
  | op :: ops =>
    match step t v op with
    | (v', .ok touched) => do
      let r ← run t v' ops
      pure (r.1, touched ++ r.2)
    | (v', .throws) => run t v' ops
    | (_, .terminate) => .terminate
    | (_, .ub) => .ub

end Vect

/-- `Dictionary::put`, dictionary.hpp:145-176, for a key and a value that can be made: both vectors afterwards, and whether
there was room. -/
def put (tk tv : Ty) (keys values : Vect) : Outcome (Vect × Vect × Bool) :=
  match Vect.emplaceBack tv values with
  | (vs, .ok (some _)) =>
    match Vect.emplaceBack tk keys with
    | (ks, .ok (some _)) => .ok (ks, vs, true)
    | (ks, .ok none) =>
      match Vect.popBack tv vs with
      | (vs', .ok _) => .ok (ks, vs', false)
      | (_, .throws) => .throws
      | (_, .terminate) => .terminate
      | (_, .ub) => .ub
    | (_, .throws) => .throws
    | (_, .terminate) => .terminate
    | (_, .ub) => .ub
  | (vs, .ok none) => .ok (keys, vs, false)
  | (_, .throws) => .throws
  | (_, .terminate) => .terminate
  | (_, .ub) => .ub

/-- `AtomValue` and `ErrorDomain*`. -/
def word : Ty := ⟨8, 8⟩

/-- `registerErrorDomain`, errorDomain.cpp:48-53, `n` times on the map made of the two static byte arrays `kKeysBuffer` and
`kValuesBuffer` at these addresses (errorDomain.cpp:31-43). An array of `byte` has alignment 1. The result of `put` is
dropped. -/
def registerLoop : Nat → Vect → Vect → Outcome (Vect × Vect)
  | 0, ks, vs => .ok (ks, vs)
  | n + 1, ks, vs =>
    match (put word word ks vs).noexcept with
    | .ok r => registerLoop n r.1 r.2.1
    | .throws => .throws
    | .terminate => .terminate
    | .ub => .ub

def registrations (keysAddr valuesAddr n : Nat) : Outcome (Vect × Vect) :=
  registerLoop n ⟨⟨keysAddr, 128 * 8⟩, 0⟩ ⟨⟨valuesAddr, 128 * 8⟩, 0⟩

end Solace.Align
