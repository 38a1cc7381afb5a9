import Verif.Model.MemoryView
/-
Model of `Vector<T>` (/repo/include/solace/vector.hpp).

The storage is a list of cells, one for each whole `T` that fits into the buffer. A cell is `none` when nothing has been
constructed there yet; a destroyed object leaves its cell as it was (the bytes are still there). `sz` is `sizeof(T)`.
-/
namespace Solace

/-- `_buffer` (its size in bytes and its cells) and `_nextInsertPosition`, vector.hpp:293-294. -/
structure Vec (α : Type u) where
  bytes : Nat
  cells : List (Option α)
  next : Nat
deriving DecidableEq, Repr

namespace Vec
variable {α : Type u}

/-- A fresh buffer of that many bytes: `makeVector(MemoryResource&&)`, vector.hpp:355-359. -/
def ofBytes (sz bytes : Nat) : Vec α := ⟨bytes, List.replicate (bytes / sz) none, 0⟩

/-- `Vector()`, also what is left after a move: vector.hpp:70, 76-79. -/
def empty : Vec α := ⟨0, [], 0⟩

/-- `makeVector(memManager, size)`, vector.hpp:374-384, when the allocation succeeds. -/
def make (sz n : Nat) : Vec α := ofBytes sz (wrap64 (n * sz))

/-- `capacity`, vector.hpp:137-139. -/
def capacity (sz : Nat) (v : Vec α) : Nat := v.bytes / sz

/-- Number of elements of `view()`, vector.hpp:193-199 with arrayView.hpp:161-163. -/
def viewSize (sz : Nat) (v : Vec α) : Nat :=
  (MutableMemoryView.slice v.bytes 0 (wrap64 (sz * v.next))).2 / sz

/-- `emplace_back`, vector.hpp:210-228. `x` is the element the constructor makes; `none`: the constructor throws.
`sliceFor` is mutableMemoryView.hpp:185-187, `construct` 190-198. -/
def emplaceBack (sz : Nat) (v : Vec α) (x : Option α) : Vec α × Outcome (Except Err Unit) :=
  if capacity sz v ≤ v.next then (v, .ok (.error .overflow))
  else
    let arena := MutableMemoryView.slice v.bytes (wrap64 (v.next * sz)) (wrap64 (wrap64 (v.next + 1) * sz))
    if arena.2 = 0 then (v, .ok (.error .overflow))
    else if arena.2 < sz then (v, .throws)
    else
      match x with
      | none => (v, .throws)
      | some x => ({ v with cells := v.cells.set (arena.1 / sz) (some x), next := wrap64 (v.next + 1) }, .ok (.ok ()))

/-- `pop_back`, vector.hpp:244-253: the new vector and the cells whose destructor ran. `dataAs` asserts that the slice is
large enough inside a function that is `noexcept` for the usual element. -/
def popBack (sz : Nat) (v : Vec α) : Outcome (Vec α × List (Option α)) :=
  if v.next < 1 then .ok (v, [])
  else
    let n := sub64 v.next 1
    let arena := MutableMemoryView.slice v.bytes (wrap64 (n * sz)) (wrap64 (wrap64 (n + 1) * sz))
    if arena.2 < sz then .terminate
    else
      match v.cells[arena.1 / sz]? with
      | some c => .ok ({ v with next := n }, [c])
      | none => .ub

/-- The loop of `clear`, vector.hpp:260-264; `fuel` bounds the rounds (`none` = not finished). -/
def clearLoop (sz : Nat) : Nat → Vec α → Option (Outcome (Vec α × List (Option α)))
  | 0, _ => none
  | fuel + 1, v =>
    if 0 < v.next then
      match popBack sz v with
      | .ok (v', d) => (clearLoop sz fuel v').map fun o => o >>= fun r => .ok (r.1, d ++ r.2)
      | .throws => some .throws
      | .terminate => some .terminate
      | .ub => some .ub
    else some (.ok (v, []))

/-- `operator[]`, vector.hpp:234-236 with arrayView.hpp:166-170. Reading a cell without an object is undefined. -/
def index (sz : Nat) (v : Vec α) (i : Nat) : Outcome α :=
  if i < viewSize sz v then
    match v.cells[i]? with
    | some (some x) => .ok x
    | _ => .ub
  else .throws

/-- `dispose`, vector.hpp:277-284, also `operator=(nullptr)`: the cells whose destructor ran. -/
def dispose (sz : Nat) (v : Vec α) : Vec α × List (Option α) :=
  ({ v with next := 0 }, v.cells.take (viewSize sz v))

end Vec
end Solace
