import Verif.Model.Vector
/-
Model of the functions that make an `Array<T>` or a `Vector<T>` from elements, and of what an `Array<T>` shows
(/repo/include/solace/array.hpp, /repo/include/solace/vector.hpp, /repo/include/solace/details/array_utils.hpp).

Both containers are a buffer and a number of elements, so both are a `Vec`; `next` is `_size` of an array. Constructors of
elements do not throw here (C46 is about those that do). `heap n` tells whether `allocate(n)` succeeds; an allocation of that
many bytes gives a buffer of that many bytes. The object that a copy makes is equal to the one copied.
-/
namespace Solace
namespace Vec
variable {α : Type u}

/-- `memManager.allocate(bytes)`: a buffer in which nothing has been constructed. -/
def allocate (heap : Nat → Bool) (sz bytes : Nat) : Except Err (Vec α) :=
  if heap bytes then .ok (ofBytes sz bytes) else .error .nomem

/-- `ctor(*pos++, *start++)` for `n` elements: array_utils.hpp:102-122 and vector.hpp:495-507. `src` is the memory the elements
are read from, `dest` the cells of the buffer; leaving one of them is undefined. -/
def copyLoop : Nat → List α → List (Option α) → Outcome (List (Option α))
  | 0, _, dest => .ok dest
  | n + 1, x :: src, _ :: dest => copyLoop n src dest >>= fun r => .ok (some x :: r)
  | _ + 1, _, _ => .ub

/-- `dest.view().write(src.view())` with its result dropped, array_utils.hpp:69-76: `srcBytes` bytes to the beginning of a
buffer of `destBytes`. -/
def copyBytes (sz srcBytes destBytes : Nat) (src : List α) (dest : List (Option α)) : Outcome (List (Option α)) :=
  if srcBytes / sz = 0 then .ok dest
  else if srcBytes > destBytes then .ok dest
  else copyLoop (srcBytes / sz) src dest

/-- `CopyConstructArray_<T, T*, false>::apply(dest, src)`, array_utils.hpp:69-76 and 102-122, chosen by `canMemcpy<T>()`. -/
def copyConstruct (memcpy : Bool) (sz srcBytes : Nat) (src : List α) (dest : Vec α) : Outcome (Vec α) :=
  (if memcpy then copyBytes sz srcBytes dest.bytes src dest.cells else copyLoop (srcBytes / sz) src dest.cells) >>=
    fun cells => .ok { dest with cells := cells }

/-- `makeArray(memManager, n)`, array.hpp:353-367; `x` is the value-initialised element. -/
def makeArray (heap : Nat → Bool) (sz n : Nat) (x : α) : Except Err (Vec α) :=
  match (allocate heap sz (wrap64 (n * sz)) : Except Err (Vec α)) with
  | .error e => .error e
  | .ok buffer => .ok { buffer with cells := buffer.cells.map fun _ => some x, next := n }

/-- `makeArray(memManager, n, carray)`, array.hpp:388-463; `mem` is the memory behind `carray`. -/
def makeArrayFrom (heap : Nat → Bool) (memcpy : Bool) (sz n : Nat) (mem : List α) : Outcome (Except Err (Vec α)) :=
  match (allocate heap sz (wrap64 (n * sz)) : Except Err (Vec α)) with
  | .error e => .ok (.error e)
  | .ok buffer => copyConstruct memcpy sz (wrap64 (sz * n)) mem buffer >>= fun a => .ok (.ok { a with next := n })

/-- `makeVector(memManager, view)`, vector.hpp:405-418; `bytes` is the size of the view in bytes. -/
def makeVectorFrom (heap : Nat → Bool) (memcpy : Bool) (sz bytes : Nat) (mem : List α) : Outcome (Except Err (Vec α)) :=
  match (allocate heap sz (wrap64 (bytes / sz * sz)) : Except Err (Vec α)) with
  | .error e => .ok (.error e)
  | .ok buffer => copyConstruct memcpy sz bytes mem buffer >>= fun a => .ok (.ok { a with next := bytes / sz })

/-- `makeVectorOf`, vector.hpp:485-543, and `makeArrayOf(args...)`, array.hpp:466-483 with
arrayView.hpp:396-404. -/
def makeOf (heap : Nat → Bool) (sz : Nat) (list : List α) : Outcome (Except Err (Vec α)) :=
  match (allocate heap sz (wrap64 (list.length * sz)) : Except Err (Vec α)) with
  | .error e => .ok (.error e)
  | .ok buffer => copyLoop list.length list buffer.cells >>= fun cells => .ok (.ok { buffer with cells := cells, next := list.length })

/-- `Vector::toArray`, vector.hpp:271-273: the array and what is left. -/
def toArray (v : Vec α) : Vec α × Vec α := (v, empty)

/-- `makeArray(MemoryResource&&, n)`, array.hpp:340-345 with the constructor 80-83, and `Vector(MemoryResource&&, n)`,
vector.hpp:94-97: the memory, with the objects that are in it, and the number are taken as they are given. -/
def overMemory (bytes : Nat) (cells : List (Option α)) (n : Nat) : Except Err (Vec α) := .ok ⟨bytes, cells, n⟩

/-- `Array::empty`, array.hpp:136-138, also `== nullptr`. -/
def arrayEmpty (a : Vec α) : Bool := a.bytes == 0

/-- The elements of `begin()` to `end()`, array.hpp:168-186 and vector.hpp:151-173. -/
def shown (sz : Nat) (a : Vec α) : List (Option α) := a.cells.take (viewSize sz a)

/-- The loop of `equals(initializer_list)`, array.hpp:113-130. -/
def equalsLoop (eq : α → α → Bool) : List (Option α) → List α → Outcome Bool
  | some a :: as, b :: bs => if !eq a b then .ok false else equalsLoop eq as bs
  | none :: _, _ :: _ => .ub
  | _, _ => .ok true

/-- `Array::equals(initializer_list)`, array.hpp:113-130, also `==` of a digest with a list, hashing/messageDigest.hpp:138-146. -/
def equalsList (sz : Nat) (eq : α → α → Bool) (a : Vec α) (list : List α) : Outcome Bool :=
  if a.next ≠ list.length then .ok false else equalsLoop eq (shown sz a) list

/-- The loop of `ArrayView::equals`, arrayView.hpp:111-122. -/
def equalsViewLoop (eq : α → α → Bool) : List (Option α) → List (Option α) → Outcome Bool
  | some a :: as, some b :: bs => if !eq a b then .ok false else equalsViewLoop eq as bs
  | _ :: _, _ :: _ => .ub
  | _, _ => .ok true

/-- `Array::equals(Array)`, array.hpp:108-111, `Vector::equals`, vector.hpp:114-117, and `==` of digests,
hashing/messageDigest.hpp:133-136: `same` when the two begin at the same
address (then they are the same variable, or both have no buffer). -/
def equals (sz : Nat) (eq : α → α → Bool) (same : Bool) (a b : Vec α) : Outcome Bool :=
  if viewSize sz a ≠ viewSize sz b then .ok false
  else if same then .ok true
  else equalsViewLoop eq (shown sz a) (shown sz b)

end Vec
end Solace
