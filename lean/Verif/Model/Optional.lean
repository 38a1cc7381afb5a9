import Verif.Model.Basic
/-
`Optional<T>` (/repo/include/solace/optional.hpp) as seen by its user: the content. Object lifetimes are in
Model/OptionalLifetime.

The content is `Option T`: `_engaged` and `_payload`. Moving from a value leaves `moved v` in its place; moving or copying
into a new object gives the same value. Functions passed in are pure; that a function is called, and with what, is returned
where it matters.
-/
namespace Solace.Opt

/-- `get()`, `move()`, optional.hpp:203-226: `raiseInvalidStateError` when empty. -/
def get (o : Option T) : Outcome T :=
  match o with
  | none => .throws
  | some x => .ok x

/-- `operator*`, optional.hpp:200-201: `noexcept`. -/
def deref (o : Option T) : Outcome T := (get o).noexcept

/-- `Optional<U>{value}` for a `U` that is not itself an `Optional`, optional.hpp:134-137. -/
def ofValue (u : U) : Option U := some u

/-- `Optional<Optional<X>>{value}` for a value of type `Optional<X>`: overload resolution takes the converting constructor
`Optional(Optional<D>&&)` with `D = X` (optional.hpp:126-132), which is more specialised than `Optional(CanBeT&&)`. -/
def ofOptional (u : Option X) : Option (Option X) :=
  match u with
  | none => none
  | some x => some (ofValue x)

/-- `orElse`, optional.hpp:228-234. -/
def orElse (o : Option T) (t : T) : T :=
  match o with
  | none => t
  | some x => x

/-- `map` (both overloads), optional.hpp:236-250; `wrap` is the constructor of `Optional<U>` from a value of type `U`. -/
def map (wrap : U → Option U) (f : T → U) (o : Option T) : Option U :=
  match o with
  | none => none
  | some x => wrap (f x)

/-- `flatMap` on a const object, optional.hpp:253-261. -/
def flatMap (f : T → Option U) (o : Option T) : Option U :=
  match o with
  | none => none
  | some x => f x

/-- `flatMap` on a non-const object, an rvalue or an lvalue alike (optional.hpp:264-282): the payload is moved into the
call. Result and content afterwards. -/
def flatMapMoving (moved : T → T) (f : T → Option U) (o : Option T) : Option U × Option T :=
  match o with
  | none => (none, none)
  | some x => (f x, some (moved x))

/-- `filter`, optional.hpp:284-289: `*this` or the static empty instance. -/
def filter (p : T → Bool) (o : Option T) : Option T :=
  match o with
  | none => none
  | some x => if p x then some x else none

/-- `operator==(Optional, Optional)`, optional.hpp:351-360; `same`: both are the same object. -/
def eq (eqT : T → T → Bool) (same : Bool) (a b : Option T) : Bool :=
  if same then true
  else match a, b with
    | some x, some y => eqT x y
    | none, none => true
    | _, _ => false

/-- `operator!=(Optional, Optional)`, optional.hpp:362-371; `neT` is the `!=` of `T`. -/
def ne (neT : T → T → Bool) (same : Bool) (a b : Option T) : Bool :=
  if same then false
  else match a, b with
    | some x, some y => neT x y
    | none, none => false
    | _, _ => true

/-- `operator==(Optional, T)`, optional.hpp:374-378. -/
def eqValue (eqT : T → T → Bool) (a : Option T) (v : T) : Bool :=
  match a with
  | none => false
  | some x => eqT x v

/-- `operator!=(Optional, T)`, optional.hpp:380-384. -/
def neValue (neT : T → T → Bool) (a : Option T) (v : T) : Bool :=
  match a with
  | none => true
  | some x => neT x v

/-- A store of objects, for operations on two of them. -/
abbrev Store (A : Type) := Nat → A

def Store.set (s : Store A) (i : Nat) (a : A) : Store A := fun j => if j = i then a else s j

/-- `std::swap` of the payloads of `i` and `j`, both engaged: `tmp = mv(a); a = mv(b); b = mv(tmp)`. -/
def stdSwap (moved : T → T) (s : Store (Option T)) (i j : Nat) : Store (Option T) :=
  match s i with
  | none => s
  | some x =>
    match (s.set i (some (moved x))) j with
    | none => s
    | some y => (((s.set i (some (moved x))).set i (some y)).set j (some (moved y))).set j (some x)

/-- `swap`, optional.hpp:149-169, of the objects `i` (this) and `j` (rhs). -/
def swap (moved : T → T) (s : Store (Option T)) (i j : Nat) : Store (Option T) :=
  match s i, s j with
  | some _, some _ => stdSwap moved s j i
  | some x, none => (s.set j (some x)).set i none
  | none, some y => (s.set i (some y)).set j none
  | none, none => s

/-- `operator=(Optional&&)`, optional.hpp:179-183. -/
def assign (moved : T → T) (s : Store (Option T)) (i j : Nat) : Store (Option T) := swap moved s i j

end Solace.Opt
