import Verif.Model.ArrayFactory
/-
Programs with any number of `Array<T>` and `Vector<T>` variables, as values (/repo/include/solace/array.hpp,
/repo/include/solace/vector.hpp, /repo/include/solace/arrayView.hpp): what each call returns and what each variable holds.

Both containers are a `Vec` (Model/ArrayFactory). An element whose destructor has run leaves a cell without an object; `trivial`
tells that the destructor of the elements does nothing, then the object stays. Constructors of elements do not throw where a
container is made (that is C46). Whether an allocation succeeds is an argument of the operation. Operations on variables that do
not exist or have the wrong type cannot be written; here they do nothing. When elements are destroyed and memory is given back is
in C45 and C97.
-/
namespace Solace
namespace Containers
open Vec

/-- A `Vector<T>` or an `Array<T>`: vector.hpp:293-294, array.hpp:299-300. -/
structure Cont (α : Type) where
  vector : Bool
  store : Vec α
deriving DecidableEq, Repr

abbrev World (α : Type) := List (Option (Cont α))

variable {α : Type}

/-- Reading every cell of a range; a cell without an object is undefined. -/
def readAll : List (Option α) → Outcome (List α)
  | [] => .ok []
  | some x :: cells => readAll cells >>= fun xs => .ok (x :: xs)
  | none :: _ => .ub

/-- The loop of `indexOf`, arrayView.hpp:258-268. -/
def indexOfLoop (eq : α → α → Bool) (value : α) : List (Option α) → Nat → Outcome (Option Nat)
  | [], _ => .ok none
  | some x :: cells, i => if eq value x then .ok (some i) else indexOfLoop eq value cells (i + 1)
  | none :: _, _ => .ub

/-- `Array::indexOf` and `Vector::indexOf`, array.hpp:226-228, vector.hpp:205-208. -/
def indexOf (sz : Nat) (eq : α → α → Bool) (v : Vec α) (value : α) : Outcome (Option Nat) :=
  indexOfLoop eq value (shown sz v) 0

/-- `contains`, array.hpp:222-224, vector.hpp:201-203 with arrayView.hpp:254-256. -/
def contains (sz : Nat) (eq : α → α → Bool) (v : Vec α) (value : α) : Outcome Bool :=
  indexOf sz eq v value >>= fun r => .ok r.isSome

/-- `Array::set(index, f)`, array.hpp:156-161 with arrayView.hpp:211-217, also `array[index] = f()`; `x` is what `f` returns,
`none`: it throws. -/
def setAt (sz : Nat) (v : Vec α) (i : Nat) (x : Option α) : Vec α × Outcome Unit :=
  if i < viewSize sz v then
    match x with
    | none => (v, .throws)
    | some x =>
      match v.cells[i]? with
      | some (some _) => ({ v with cells := v.cells.set i (some x) }, .ok ())
      | _ => (v, .ub)
  else (v, .throws)

/-- `forEach(f)` with an `f` that replaces the element it is given, array.hpp:236-247 with arrayView.hpp:304-315. -/
def forEach (sz : Nat) (v : Vec α) (g : α → α) : Vec α × Outcome Unit :=
  match readAll (shown sz v) with
  | .ok xs => ({ v with cells := (xs.map fun x => some (g x)) ++ v.cells.drop (viewSize sz v) }, .ok ())
  | _ => (v, .ub)

/-- `Array = nullptr`, array.hpp:99-103 with 283-288: the elements are destroyed, the size stays. -/
def arrayNull (trivial : Bool) (sz : Nat) (v : Vec α) : Vec α :=
  if trivial then v else { v with cells := List.replicate (shown sz v).length none ++ v.cells.drop (viewSize sz v) }

/-- What the caller sees. -/
inductive Obs (α : Type) where
  | skipped
  | done
  | nomem
  | overflow
  | exception
  | element (x : α)
  | elements (xs : List α)
  | number (n : Nat)
  | position (p : Option Nat)
  | flag (b : Bool)
  | diverged
  | terminated
  | undefined
deriving DecidableEq, Repr

inductive Op (α : Type) where
  /-- `Vector<T>{}`, `makeVector<T>()`, `Array<T>{}`, `makeArray<T>()` -/
  | newEmpty (vector : Bool)
  /-- `makeVector<T>(n)` -/
  | newVector (n : Nat) (memory : Bool)
  /-- `makeArray<T>(n)`; `x` is the value-initialised element -/
  | newArray (n : Nat) (x : α) (memory : Bool)
  /-- `makeVectorOf` and `makeArrayOf` -/
  | newOf (vector : Bool) (xs : List α) (memory : Bool)
  /-- `makeArray(a)` and `makeVector(a)`: a copy -/
  | copyOf (a : Nat) (memory : Bool)
  /-- a new variable move constructed from `a` -/
  | moveFrom (a : Nat)
  /-- `a = mv(b)` -/
  | moveAssign (a b : Nat)
  /-- `a.swap(b)`, `swap(a, b)` of arrays -/
  | swap (a b : Nat)
  /-- a new array made by `a.toArray()` -/
  | toArray (a : Nat)
  /-- `a = nullptr` -/
  | assignNull (a : Nat)
  /-- `emplace_back`, `push_back`; `none`: the constructor throws -/
  | emplaceBack (a : Nat) (x : Option α)
  | popBack (a : Nat)
  | clear (a : Nat)
  | set (a i : Nat) (x : Option α)
  | forEach (a : Nat) (g : α → α)
  | index (a i : Nat)
  | size (a : Nat)
  | empty (a : Nat)
  | capacity (a : Nat)
  | iterate (a : Nat)
  | indexOf (a : Nat) (x : α)
  | contains (a : Nat) (x : α)
  /-- `a == b`, also of an array and the view of a vector -/
  | equal (a b : Nat)
  /-- `a.equals({...})` of an array -/
  | equalList (a : Nat) (xs : List α)
  /-- end of the variable's life -/
  | destroy (a : Nat)

def get (w : List (Option β)) (a : Nat) : Option β := (w[a]?).join

def put (w : List (Option β)) (a : Nat) (c : β) : List (Option β) := w.set a (some c)

/-- What is seen of a value read. -/
def see (f : β → Obs α) : Outcome β → Obs α
  | .ok x => f x
  | .throws => .exception
  | .terminate => .terminated
  | .ub => .undefined

/-- A new variable from a factory function. -/
def made (w : World α) (vector : Bool) : Outcome (Except Err (Vec α)) → World α × Obs α
  | .ok (.ok v) => (w ++ [some ⟨vector, v⟩], .done)
  | .ok (.error _) => (w, .nomem)
  | .throws => (w, .exception)
  | .terminate => (w, .terminated)
  | .ub => (w, .undefined)

/-- The copy: `makeArray(Array const&)`, array.hpp:445-463, copies `size()` elements from `data()`; `makeVector(Vector const&)`,
vector.hpp:436-450, the view. -/
def copyOf (heap : Nat → Bool) (memcpy : Bool) (sz : Nat) (c : Cont α) : Outcome (Except Err (Vec α)) :=
  readAll (shown sz c.store) >>= fun mem =>
    if c.vector then makeVectorFrom heap memcpy sz (viewSize sz c.store * sz) mem
    else makeArrayFrom heap memcpy sz c.store.next mem

/-- One operation. `eq` is `==` of elements, `memcpy` whether they are copied as bytes. -/
def step (sz : Nat) (eq : α → α → Bool) (memcpy trivial : Bool) (w : World α) : Op α → World α × Obs α
  | .newEmpty vector => (w ++ [some ⟨vector, Vec.empty⟩], .done)
  | .newVector n memory =>
    made w true (.ok (match (allocate (fun _ => memory) sz (wrap64 (n * sz)) : Except Err (Vec α)) with
      | .ok v => .ok v
      | .error e => .error e))
  | .newArray n x memory => made w false (.ok (makeArray (fun _ => memory) sz n x))
  | .newOf vector xs memory => made w vector (makeOf (fun _ => memory) sz xs)
  | .copyOf a memory =>
    match get w a with
    | some c => made w c.vector (copyOf (fun _ => memory) memcpy sz c)
    | none => (w, .skipped)
  | .moveFrom a =>
    match get w a with
    | some c => (put w a ⟨c.vector, Vec.empty⟩ ++ [some c], .done)
    | none => (w, .skipped)
  | .moveAssign a b | .swap a b =>
    match get w a, get w b with
    | some c, some d => if c.vector = d.vector then (put (put w a d) b c, .done) else (w, .skipped)
    | _, _ => (w, .skipped)
  | .toArray a =>
    match get w a with
    | some c =>
      if c.vector then (put w a ⟨true, (Vec.toArray c.store).2⟩ ++ [some ⟨false, (Vec.toArray c.store).1⟩], .done) else (w, .skipped)
    | none => (w, .skipped)
  | .assignNull a =>
    match get w a with
    | some c => (put w a ⟨c.vector, if c.vector then (dispose sz c.store).1 else arrayNull trivial sz c.store⟩, .done)
    | none => (w, .skipped)
  | .emplaceBack a x =>
    match get w a with
    | some c =>
      if c.vector then
        match Vec.emplaceBack sz c.store x with
        | (v, .ok (.ok ())) => (put w a ⟨true, v⟩, .done)
        | (v, .ok (.error _)) => (put w a ⟨true, v⟩, .overflow)
        | (v, .throws) => (put w a ⟨true, v⟩, .exception)
        | (v, .terminate) => (put w a ⟨true, v⟩, .terminated)
        | (v, .ub) => (put w a ⟨true, v⟩, .undefined)
      else (w, .skipped)
    | none => (w, .skipped)
  | .popBack a =>
    match get w a with
    | some c =>
      if c.vector then
        match Vec.popBack sz c.store with
        | .ok (v, _) => (put w a ⟨true, v⟩, .done)
        | .throws => (w, .exception)
        | .terminate => (w, .terminated)
        | .ub => (w, .undefined)
      else (w, .skipped)
    | none => (w, .skipped)
  | .clear a =>
    match get w a with
    | some c =>
      if c.vector then
        match clearLoop sz (c.store.next + 1) c.store with
        | none => (w, .diverged)
        | some (.ok (v, _)) => (put w a ⟨true, v⟩, .done)
        | some .throws => (w, .exception)
        | some .terminate => (w, .terminated)
        | some .ub => (w, .undefined)
      else (w, .skipped)
    | none => (w, .skipped)
  | .set a i x =>
    match get w a with
    | some c =>
      if c.vector then (w, .skipped)
      else (put w a ⟨false, (setAt sz c.store i x).1⟩, see (fun _ => .done) (setAt sz c.store i x).2)
    | none => (w, .skipped)
  | .forEach a g =>
    match get w a with
    | some c =>
      if c.vector then (w, .skipped)
      else (put w a ⟨false, (forEach sz c.store g).1⟩, see (fun _ => .done) (forEach sz c.store g).2)
    | none => (w, .skipped)
  | .index a i =>
    match get w a with
    | some c => (w, see .element (Vec.index sz c.store i))
    | none => (w, .skipped)
  | .size a =>
    match get w a with
    | some c => (w, .number c.store.next)
    | none => (w, .skipped)
  | .empty a =>
    match get w a with
    | some c => (w, .flag (if c.vector then c.store.next == 0 else arrayEmpty c.store))
    | none => (w, .skipped)
  | .capacity a =>
    match get w a with
    | some c => if c.vector then (w, .number (Vec.capacity sz c.store)) else (w, .skipped)
    | none => (w, .skipped)
  | .iterate a =>
    match get w a with
    | some c => (w, see .elements (readAll (shown sz c.store)))
    | none => (w, .skipped)
  | .indexOf a x =>
    match get w a with
    | some c => (w, see .position (indexOf sz eq c.store x))
    | none => (w, .skipped)
  | .contains a x =>
    match get w a with
    | some c => (w, see .flag (contains sz eq c.store x))
    | none => (w, .skipped)
  | .equal a b =>
    match get w a, get w b with
    | some c, some d => (w, see .flag (equals sz eq (a == b) c.store d.store))
    | _, _ => (w, .skipped)
  | .equalList a xs =>
    match get w a with
    | some c => if c.vector then (w, .skipped) else (w, see .flag (equalsList sz eq c.store xs))
    | none => (w, .skipped)
  | .destroy a =>
    match get w a with
    | some _ => (w.set a none, .done)
    | none => (w, .skipped)

def run (sz : Nat) (eq : α → α → Bool) (memcpy trivial : Bool) : World α → List (Op α) → World α × List (Obs α)
  | w, [] => (w, [])
  | w, op :: ops =>
    let r := step sz eq memcpy trivial w op
    let t := run sz eq memcpy trivial r.1 ops
    (t.1, r.2 :: t.2)

end Containers
end Solace
