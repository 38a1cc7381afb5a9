import Verif.Model.Array
/-
Elements whose destructors throw, in `Vector`, `Array` and `Optional` (/repo/include/solace/vector.hpp, array.hpp, arrayView.hpp, optional.hpp,
details/array_utils.hpp): which exceptions leave a call, which end the program, and what is left in the variables.

All elements are of one type. `nothrow`: its destructor is declared `noexcept` (`std::is_nothrow_destructible`), then an exception in it ends the
program there. `bad`: the objects whose destructor throws. An object whose destructor has thrown is destroyed all the same (C++17
[basic.life]/1). Whether a type is `nothrow` constructible or assignable takes its destructor into account ([meta.unary.prop]: the variable that is
defined is also destroyed), so with a destructor that may throw the `noexcept(std::is_nothrow_move_constructible<T>::value)` of `Optional` is
`noexcept(false)`, and the loops that construct elements are the ones under a guard. Constructors that throw are not declared `noexcept` (for those that
are, see C124). `Result` is not covered: whether its destructor, which has no exception specification, is `noexcept` depends on how the compiler treats
the anonymous union in it.
-/
namespace Solace.DtorThrow
open Lifetime

/-- What an exception came from. -/
inductive Source where
  | ctor
  | dtor (id : Nat)
  /-- an index out of range -/
  | range
deriving DecidableEq, Repr

/-- How a call ends. -/
inductive End where
  | returns
  | throws (s : Source)
  | terminates
deriving DecidableEq, Repr

/-- A function declared `noexcept(b)`. -/
def End.spec (b : Bool) : End → End
  | .throws s => if b then .terminates else .throws s
  | e => e

/-- `dtor(T& location)`, utils.hpp:129-132. -/
def dtor (nothrow : Bool) (bad : Nat → Bool) (id : Nat) : End :=
  if bad id then End.spec nothrow (.throws (.dtor id)) else .returns

/-- Destructor calls one after the other, until one throws: the objects destroyed, and the end. -/
def destroyAll (nothrow : Bool) (bad : Nat → Bool) : List Nat → List Nat × End
  | [] => ([], .returns)
  | x :: xs =>
    match dtor nothrow bad x with
    | .returns => (x :: (destroyAll nothrow bad xs).1, (destroyAll nothrow bad xs).2)
    | e => ([x], e)

/-- `pop_back`, vector.hpp:244-253: the elements left, those destroyed, and the end. The position is changed first. -/
def popBack (nothrow : Bool) (bad : Nat → Bool) (es : List Nat) : List Nat × List Nat × End :=
  match es.getLast? with
  | none => (es, [], .returns)
  | some x => (es.dropLast, [x], End.spec nothrow (End.spec nothrow (dtor nothrow bad x)))

/-- The loop of `clear`, vector.hpp:260-264. `none`: it does not end within the fuel. -/
def clearLoop (nothrow : Bool) (bad : Nat → Bool) : Nat → List Nat → Option (List Nat × List Nat × End)
  | 0, _ => none
  | fuel + 1, es =>
    if 0 < es.length then
      match popBack nothrow bad es with
      | (rest, d, .returns) =>
        match clearLoop nothrow bad fuel rest with
        | none => none
        | some r => some (r.1, d ++ r.2.1, r.2.2)
      | r => some r
    else some (es, [], .returns)

/-- `dispose`, vector.hpp:277-284 and array.hpp:288-293, without the reset of the position. -/
def dispose (nothrow : Bool) (bad : Nat → Bool) (es : List Nat) : List Nat × End := destroyAll nothrow bad es

/-- The destructor of a guard that has been left by an exception, array_utils.hpp:37-41 and arrayView.hpp:375-379: an exception of an element's destructor
ends the program, as the stack is being unwound already ([except.ctor]). -/
def unwind (nothrow : Bool) (bad : Nat → Bool) (cells : List Nat) (cause : Source) : List Nat × End :=
  match destroyAll nothrow bad cells with
  | (d, .returns) => (d, .throws cause)
  | (d, _) => (d, .terminates)

/-- The loop under a guard as in `Guard.loop` (array_utils.hpp:55-61, 113-119, 136-142; arrayView.hpp:396-404; vector.hpp:499-507), for destructors that
throw: the calls, and the end. Element `i` is object `base + i`. At the end the guard is released (`start = pos`) and destroyed without an exception on its
way: what then throws leaves, as its destructor is `noexcept(false)`. -/
def guardLoop (nothrow : Bool) (bad : Nat → Bool) (throwsAt : Nat → Bool) (base : Nat) : Nat → Nat → List Event × End
  | 0, pos =>
    let r := destroyAll nothrow bad ((Guard.dtor pos pos).map (base + ·))
    (r.1.map .destroy, r.2)
  | left + 1, pos =>
    if throwsAt pos then
      let r := unwind nothrow bad ((Guard.dtor 0 pos).map (base + ·)) .ctor
      (r.1.map .destroy, r.2)
    else
      let r := guardLoop nothrow bad throwsAt base left (pos + 1)
      (.construct (base + pos) :: r.1, r.2)

/-! ### Programs -/

/-- A variable with the numbers of the objects in it. -/
inductive Var where
  | vec (cap : Nat) (es : List Nat)
  | arr (es : List Nat)
  | opt (x : Option Nat)
deriving DecidableEq, Repr

structure World where
  vars : List (Option Var)
  log : List Event
  next : Nat
deriving DecidableEq, Repr

def World.init : World := ⟨[], [], 0⟩

def World.get (w : World) (v : Nat) : Option Var := (w.vars[v]?).join

inductive Op where
  /-- `makeVector<T>(n)` -/
  | vector (n : Nat)
  /-- `makeVectorOf`, `makeVector(ArrayView)`: `n` elements, the constructor throws at these positions -/
  | vectorOf (n : Nat) (throwsAt : List Nat)
  /-- `makeArray` of `n` elements -/
  | array (n : Nat) (throwsAt : List Nat)
  | push (v : Nat) (throws : Bool)
  | pop (v : Nat)
  | clear (v : Nat)
  /-- `v = nullptr` for a vector or an array -/
  | null (v : Nat)
  /-- `swap(a, b)` and `a = mv(b)` for vectors, for arrays -/
  | swap (a b : Nat)
  /-- a new vector or array from `mv(a)` -/
  | moveCtor (a : Nat)
  | toArray (a : Nat)
  /-- `v.view().emplace(i, ...)` -/
  | emplaceAt (v i : Nat) (throws : Bool)
  /-- a default constructed `Optional` -/
  | optNone
  /-- `Optional{in_place, ...}` and others that make a payload -/
  | optSome (throws : Bool)
  /-- `o = T{...}`; the temporary is not of interest -/
  | optAssign (v : Nat) (throws : Bool)
  /-- `o = none` -/
  | optReset (v : Nat)
  /-- `swap(a, b)` and `a = mv(b)` for optionals -/
  | optSwap (a b : Nat)
  /-- `Optional{mv(a)}` -/
  | optMove (a : Nat)
  /-- end of the variable's life; `unwinding`: because of an exception -/
  | destroy (v : Nat) (unwinding : Bool)
deriving DecidableEq, Repr

/-- A container made by a guarded loop; there is none when an exception leaves it. Memory is not of interest here. -/
def build (nothrow : Bool) (bad : Nat → Bool) (w : World) (mk : List Nat → Var) (n : Nat) (throwsAt : List Nat) : World × End :=
  match guardLoop nothrow bad (fun i => throwsAt.contains i) w.next n 0 with
  | (log, .returns) => (⟨w.vars ++ [some (mk (List.range' w.next n))], w.log ++ log, w.next + n⟩, .returns)
  | (log, e) => (⟨w.vars, w.log ++ log, w.next + n⟩, e)

def World.set (w : World) (v : Nat) (x : Var) (events : List Event) (next : Nat) : World := ⟨w.vars.set v (some x), w.log ++ events, next⟩

/-- One statement. Statements that name a variable that does not exist or is of another kind are no C++ programs and change nothing. -/
def step (nothrow : Bool) (bad : Nat → Bool) (w : World) : Op → World × End
  | .vector n => ({ w with vars := w.vars ++ [some (.vec n [])] }, .returns)
  | .vectorOf n t => build nothrow bad w (.vec n) n t
  | .array n t => build nothrow bad w .arr n t
  -- vector.hpp:210-228
  | .push v throws =>
    match w.get v with
    | some (.vec c es) =>
      if c ≤ es.length then (w, .returns)
      else if throws then (w, .throws .ctor)
      else (w.set v (.vec c (es ++ [w.next])) [.construct w.next] (w.next + 1), .returns)
    | _ => (w, .returns)
  | .pop v =>
    match w.get v with
    | some (.vec c es) =>
      let r := popBack nothrow bad es
      (w.set v (.vec c r.1) (r.2.1.map .destroy) w.next, r.2.2)
    | _ => (w, .returns)
  | .clear v =>
    match w.get v with
    | some (.vec c es) =>
      match clearLoop nothrow bad (es.length + 1) es with
      | some r => (w.set v (.vec c r.1) (r.2.1.map .destroy) w.next, End.spec nothrow r.2.2)
      | none => (w, .terminates)
    | _ => (w, .returns)
  -- vector.hpp:109-112: the position is set when all destructors have returned; array.hpp:97-101: the size stays
  | .null v =>
    match w.get v with
    | some (.vec c es) =>
      match dispose nothrow bad es with
      | (d, .returns) => (w.set v (.vec c []) (d.map .destroy) w.next, .returns)
      | (d, e) => (w.set v (.vec c es) (d.map .destroy) w.next, e)
    | some (.arr es) =>
      let r := dispose nothrow bad es
      (w.set v (.arr es) (r.1.map .destroy) w.next, r.2)
    | _ => (w, .returns)
  -- vector.hpp:81-85, 101-107; array.hpp:89-95, 103-105
  | .swap a b =>
    match w.get a, w.get b with
    | some (.vec c es), some (.vec d fs) => (⟨(w.vars.set a (some (.vec d fs))).set b (some (.vec c es)), w.log, w.next⟩, .returns)
    | some (.arr es), some (.arr fs) => (⟨(w.vars.set a (some (.arr fs))).set b (some (.arr es)), w.log, w.next⟩, .returns)
    | _, _ => (w, .returns)
  -- vector.hpp:76-79, array.hpp:73-77
  | .moveCtor a =>
    match w.get a with
    | some (.vec c es) => (⟨w.vars.set a (some (.vec 0 [])) ++ [some (.vec c es)], w.log, w.next⟩, .returns)
    | some (.arr es) => (⟨w.vars.set a (some (.arr [])) ++ [some (.arr es)], w.log, w.next⟩, .returns)
    | _ => (w, .returns)
  -- vector.hpp:271-273
  | .toArray a =>
    match w.get a with
    | some (.vec _ es) => (⟨w.vars.set a (some (.vec 0 [])) ++ [some (.arr es)], w.log, w.next⟩, .returns)
    | _ => (w, .returns)
  -- arrayView.hpp:223-231: the old object is destroyed first
  | .emplaceAt v i throws =>
    match w.get v with
    | some (.vec c es) =>
      match es[i]? with
      | none => (w, .throws .range)
      | some x =>
        match dtor nothrow bad x with
        | .returns =>
          if throws then (w.set v (.vec c es) [.destroy x] w.next, .throws .ctor)
          else (w.set v (.vec c (es.set i w.next)) [.destroy x, .construct w.next] (w.next + 1), .returns)
        | e => (w.set v (.vec c es) [.destroy x] w.next, e)
    | some (.arr es) =>
      match es[i]? with
      | none => (w, .throws .range)
      | some x =>
        match dtor nothrow bad x with
        | .returns =>
          if throws then (w.set v (.arr es) [.destroy x] w.next, .throws .ctor)
          else (w.set v (.arr (es.set i w.next)) [.destroy x, .construct w.next] (w.next + 1), .returns)
        | e => (w.set v (.arr es) [.destroy x] w.next, e)
    | _ => (w, .returns)
  | .optNone => ({ w with vars := w.vars ++ [some (.opt none)] }, .returns)
  -- optional.hpp:134-146
  | .optSome throws =>
    if throws then (w, .throws .ctor)
    else (⟨w.vars ++ [some (.opt (some w.next))], w.log ++ [.construct w.next], w.next + 1⟩, .returns)
  -- optional.hpp:185-190 with `destroy`, 307-313: the flag is cleared first
  | .optAssign v throws =>
    match w.get v with
    | some (.opt none) =>
      if throws then (w, .throws .ctor) else (w.set v (.opt (some w.next)) [.construct w.next] (w.next + 1), .returns)
    | some (.opt (some x)) =>
      match dtor nothrow bad x with
      | .returns =>
        if throws then (w.set v (.opt none) [.destroy x] w.next, .throws .ctor)
        else (w.set v (.opt (some w.next)) [.destroy x, .construct w.next] (w.next + 1), .returns)
      | e => (w.set v (.opt none) [.destroy x] w.next, e)
    | _ => (w, .returns)
  -- optional.hpp:172-176, `noexcept`
  | .optReset v =>
    match w.get v with
    | some (.opt (some x)) => (w.set v (.opt none) [.destroy x] w.next, End.spec true (dtor nothrow bad x))
    | _ => (w, .returns)
  -- optional.hpp:149-169, 179-183, `noexcept`; with two payloads `std::swap`, which makes and destroys a third object
  | .optSwap a b =>
    match w.get a, w.get b with
    | some (.opt (some x)), some (.opt (some y)) =>
      (⟨w.vars, w.log ++ [.use x, .construct w.next, .use y, .use x, .use w.next, .use y, .destroy w.next], w.next + 1⟩,
        End.spec true (dtor nothrow bad w.next))
    | some (.opt (some x)), some (.opt none) =>
      (⟨(w.vars.set a (some (.opt none))).set b (some (.opt (some w.next))), w.log ++ [.use x, .construct w.next, .destroy x], w.next + 1⟩,
        End.spec true (dtor nothrow bad x))
    | some (.opt none), some (.opt (some y)) =>
      (⟨(w.vars.set a (some (.opt (some w.next)))).set b (some (.opt none)), w.log ++ [.use y, .construct w.next, .destroy y], w.next + 1⟩,
        End.spec true (dtor nothrow bad y))
    | _, _ => (w, .returns)
  -- optional.hpp:126-132: the source keeps its payload
  | .optMove a =>
    match w.get a with
    | some (.opt (some x)) => (⟨w.vars ++ [some (.opt (some w.next))], w.log ++ [.use x, .construct w.next], w.next + 1⟩, .returns)
    | some (.opt none) => (⟨w.vars ++ [some (.opt none)], w.log, w.next⟩, .returns)
    | _ => (w, .returns)
  -- vector.hpp:67 and array.hpp:64: destructors without exception specification of classes whose members have `noexcept` ones are `noexcept`;
  -- optional.hpp:93-95: `noexcept` as the payload's
  | .destroy v unwinding =>
    match w.get v with
    | some (.vec _ es) =>
      let r := dispose nothrow bad es
      (⟨w.vars.set v none, w.log ++ r.1.map .destroy, w.next⟩, End.spec true r.2)
    | some (.arr es) =>
      let r := dispose nothrow bad es
      (⟨w.vars.set v none, w.log ++ r.1.map .destroy, w.next⟩, End.spec true r.2)
    | some (.opt (some x)) =>
      (⟨w.vars.set v none, w.log ++ [.destroy x], w.next⟩, End.spec unwinding (End.spec nothrow (dtor nothrow bad x)))
    | some (.opt none) => (⟨w.vars.set v none, w.log, w.next⟩, .returns)
    | none => (w, .returns)

/-- A program that catches every exception that leaves a statement: its state, and whether it was ended by `std::terminate`. -/
def run (nothrow : Bool) (bad : Nat → Bool) : World → List Op → World × Bool
  | w, [] => (w, false)
  | w, o :: os =>
    match step nothrow bad w o with
    | (w', .terminates) => (w', true)
    | (w', _) => run nothrow bad w' os

end Solace.DtorThrow
