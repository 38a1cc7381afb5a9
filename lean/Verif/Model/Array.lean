import Verif.Model.Vector
import Verif.Spec.Lifetime
/-
Model of the construction of arrays (/repo/include/solace/details/array_utils.hpp, /repo/include/solace/arrayView.hpp) and
of programs that use `Vector<T>` and `Array<T>` variables (/repo/include/solace/vector.hpp, /repo/include/solace/array.hpp),
with a log of constructor and destructor calls on elements. Destructors do not throw. Element types that the code copies
with `memcpy` (`canMemcpy`) have no constructor calls to log and are not covered.
-/
namespace Solace
open Lifetime

namespace Guard

/-- `~ExceptionGuard` and `~ArrayExceptionGuard`, array_utils.hpp:37-41 and arrayView.hpp:375-379: the cells destroyed, in
order. The argument is `pos`. -/
def dtor (start : Nat) : Nat → List Nat
  | 0 => []
  | pos + 1 => if start < pos + 1 then pos :: dtor start pos else []

/-- The loop under a guard: `initArray` array_utils.hpp:55-61, `CopyConstructArray_` 113-119 and 136-142, `emplaceAll`
arrayView.hpp:396-404, `makeVectorOf` vector.hpp:495-507. `left` elements are still to be made, `pos` is the guard's position,
`size` the number of cells there are; `throwsAt i`: the constructor of element `i` throws. The log has positions for object
numbers. -/
def loop (throwsAt : Nat → Bool) (size : Nat) : Nat → Nat → List Event → List Event × Outcome Unit
  | 0, pos, log => (log ++ (dtor pos pos).map .destroy, .ok ())
  | left + 1, pos, log =>
    if size ≤ pos then (log, .ub)
    else if throwsAt pos then (log ++ (dtor 0 pos).map .destroy, .throws)
    else loop throwsAt size left (pos + 1) (log ++ [.construct pos])

/-- Make `n` elements in a view of `size` cells. -/
def build (throwsAt : Nat → Bool) (size n : Nat) : List Event × Outcome Unit := loop throwsAt size n 0 []

end Guard

namespace Lifetimes

inductive Kind where
  | vector
  | array
deriving DecidableEq, Repr

/-- A `Vector` or an `Array`: both are a buffer and a number of elements (array.hpp:299-300). The cells hold object
numbers. -/
structure Cont where
  kind : Kind
  store : Vec Nat
deriving DecidableEq, Repr

structure World where
  vars : List (Option Cont)
  log : List Event
  next : Nat
deriving DecidableEq, Repr

def World.init : World := ⟨[], [], 0⟩

/-- Destructor calls on cells. -/
def destroyCells (cells : List (Option Nat)) : List Event :=
  cells.map fun
    | some id => .destroy id
    | none => .destroyRaw

/-- The log of `Guard.build`, with the object numbers that are next. -/
def shift (base : Nat) : Event → Event
  | .construct i => .construct (base + i)
  | .destroy i => .destroy (base + i)
  | .use i => .use (base + i)
  | .destroyRaw => .destroyRaw

inductive Op where
  /-- `makeVector(n)` -/
  | newVector (n : Nat)
  /-- `makeVectorOf(list)` and `makeVector(ArrayView)` with `n` elements; the constructor throws at these positions -/
  | newVectorOf (n : Nat) (throwsAt : List Nat)
  /-- `makeArray(n)` and `makeArray(n, carray)` -/
  | newArray (n : Nat) (throwsAt : List Nat)
  | emplaceBack (v : Nat) (throws : Bool)
  | popBack (v : Nat)
  | clear (v : Nat)
  /-- `v = nullptr` -/
  | assignNull (v : Nat)
  /-- `swap(a, b)` and `a = mv(b)` -/
  | swap (a b : Nat)
  /-- `Vector c{mv(a)}`, `Array c{mv(a)}` -/
  | moveCtor (a : Nat)
  /-- `Array c = a.toArray()` -/
  | toArray (a : Nat)
  /-- `a.view().emplace(i, ...)`, arrayView.hpp:223-231 -/
  | emplaceAt (a i : Nat) (throws : Bool)
  /-- end of the variable's life -/
  | destroy (v : Nat)
deriving DecidableEq, Repr

/-- A new container of `n` elements made by the guarded loop; an exception leaves no container. -/
def build (sz : Nat) (w : World) (kind : Kind) (n : Nat) (throwsAt : List Nat) : World :=
  let bytes := wrap64 (n * sz)
  let cells := bytes / sz
  match Guard.build (fun i => throwsAt.contains i) cells (if kind = .array then cells else n) with
  | (log, .ok ()) =>
    { vars := w.vars ++ [some ⟨kind, ⟨bytes, (List.range cells).map fun i => some (w.next + i), n⟩⟩]
      log := w.log ++ log.map (shift w.next), next := w.next + cells }
  | (log, .throws) => { w with log := w.log ++ log.map (shift w.next), next := w.next + cells }
  | (log, _) => { w with log := w.log ++ log.map (shift w.next) ++ [.destroyRaw], next := w.next + cells }

/-- One operation. An operation on a variable that does not exist, or not of the right kind, is not a program; the model
leaves the world unchanged for it. Outcomes other than a return or an exception add a `destroyRaw`, so that no legal log has
them. -/
def step (sz : Nat) (w : World) : Op → World
  | .newVector n => { w with vars := w.vars ++ [some ⟨.vector, .make sz n⟩] }
  -- vector.hpp:405-418, 485-510. The `n` elements to copy exist, so `n * sz` does not wrap.
  | .newVectorOf n throwsAt => if n * sz < 2 ^ 64 then build sz w .vector n throwsAt else w
  -- array.hpp:353-367, 388-404
  | .newArray n throwsAt => build sz w .array n throwsAt
  | .emplaceBack v throws =>
    match w.vars[v]? with
    | some (some ⟨.vector, s⟩) =>
      match Vec.emplaceBack sz s (if throws then none else some w.next) with
      | (s', .ok (.ok ())) =>
        { vars := w.vars.set v (some ⟨.vector, s'⟩), log := w.log ++ [.construct w.next], next := w.next + 1 }
      | (s', .ok (.error _)) => { w with vars := w.vars.set v (some ⟨.vector, s'⟩) }
      | (s', .throws) => { w with vars := w.vars.set v (some ⟨.vector, s'⟩) }
      | (s', _) => { w with vars := w.vars.set v (some ⟨.vector, s'⟩), log := w.log ++ [.destroyRaw] }
    | _ => w
  | .popBack v =>
    match w.vars[v]? with
    | some (some ⟨.vector, s⟩) =>
      match Vec.popBack sz s with
      | .ok (s', d) => { w with vars := w.vars.set v (some ⟨.vector, s'⟩), log := w.log ++ destroyCells d }
      | _ => { w with log := w.log ++ [.destroyRaw] }
    | _ => w
  | .clear v =>
    match w.vars[v]? with
    | some (some ⟨.vector, s⟩) =>
      match Vec.clearLoop sz (s.next + 1) s with
      | some (.ok (s', d)) => { w with vars := w.vars.set v (some ⟨.vector, s'⟩), log := w.log ++ destroyCells d }
      | _ => { w with log := w.log ++ [.destroyRaw] }
    | _ => w
  | .assignNull v =>
    match w.vars[v]? with
    -- vector.hpp:109-112 with 277-284
    | some (some ⟨.vector, s⟩) =>
      { w with vars := w.vars.set v (some ⟨.vector, (Vec.dispose sz s).1⟩)
               log := w.log ++ destroyCells (Vec.dispose sz s).2 }
    -- array.hpp:97-101 with 288-293: `_size` stays
    | some (some ⟨.array, s⟩) => { w with log := w.log ++ destroyCells (s.cells.take (Vec.viewSize sz s)) }
    | _ => w
  | .swap a b =>
    match w.vars[a]?, w.vars[b]? with
    | some (some x), some (some y) =>
      if x.kind = y.kind then { w with vars := (w.vars.set a (some y)).set b (some x) } else w
    | _, _ => w
  | .moveCtor a =>
    match w.vars[a]? with
    | some (some x) => { w with vars := w.vars.set a (some ⟨x.kind, .empty⟩) ++ [some x] }
    | _ => w
  | .toArray a =>
    match w.vars[a]? with
    | some (some ⟨.vector, s⟩) => { w with vars := w.vars.set a (some ⟨.vector, .empty⟩) ++ [some ⟨.array, s⟩] }
    | _ => w
  | .emplaceAt a i throws =>
    match w.vars[a]? with
    | some (some ⟨k, s⟩) =>
      if i < Vec.viewSize sz s then
        let log := w.log ++ destroyCells (s.cells[i]?).toList
        if throws then { w with log := log }
        else { vars := w.vars.set a (some ⟨k, { s with cells := s.cells.set i (some w.next) }⟩)
               log := log ++ [.construct w.next], next := w.next + 1 }
      else w
    | _ => w
  | .destroy v =>
    match w.vars[v]? with
    | some (some c) =>
      { w with vars := w.vars.set v none, log := w.log ++ destroyCells (c.store.cells.take (Vec.viewSize sz c.store)) }
    | _ => w

def run (sz : Nat) (w : World) (ops : List Op) : World := ops.foldl (step sz) w

/-- The end of the program: all variables end. -/
def closing (w : World) : List Op := (List.range w.vars.length).map .destroy

end Lifetimes
end Solace
