import Verif.Model.Basic
/-
What the calls of `Result<V, E>` (/repo/include/solace/result.hpp) and `Optional<T>` (/repo/include/solace/optional.hpp) leave in the
object they are called on: a variable, a constant or something given away (`mv(r)`, a temporary). Which of the overloads is taken
depends on that, and whether the content is copied, moved from or handed to the function of the caller depends on the overload.

Simplifications: payloads are numbers with a number for what moving leaves; functions of the caller take one parameter of one of the
four kinds, answer a fixed kind of thing, and do not throw (Model/Callbacks). The types that handlers answer are the ones of the object
(Model/ResultTypes has others). What is returned is what a new variable made from the answer holds.
-/
namespace Solace.Reuse

/-- How the object is written in the call. -/
inductive Obj where
  | named | const | given
deriving DecidableEq, Repr

/-- The expression given to the function of the caller. -/
inductive How where
  | lvalue | constLvalue | rvalue
deriving DecidableEq, Repr

/-- A payload type: whether it can be copied, and what moving leaves. -/
structure Payload where
  copyable : Bool
  moved : Nat → Nat

/-- The parameter of a function of the caller. -/
inductive Param where
  /-- `T` -/
  | value
  /-- `T const&` -/
  | cref
  /-- `T&&`; whether the function moves from it -/
  | rref (takes : Bool)
  /-- `T&`; what the function makes of the object -/
  | lref (writes : Nat → Nat)

/-- Whether the parameter can be initialised from the expression. -/
def Param.accepts (t : Payload) : Param → How → Bool
  | .value, .rvalue => true
  | .value, _ => t.copyable
  | .cref, _ => true
  | .rref _, .rvalue => true
  | .rref _, _ => false
  | .lref _, .lvalue => true
  | .lref _, _ => false

/-- What is left of the argument. -/
def Param.left (t : Payload) (x : Nat) : Param → How → Nat
  | .value, .rvalue => t.moved x
  | .value, _ => x
  | .cref, _ => x
  | .rref takes, _ => if takes then t.moved x else x
  | .lref writes, _ => writes x

/-- `std::result_of<F(T)>` and `std::invoke_result<F, T>` are types: the function can be called with an rvalue. -/
def Param.forValue (t : Payload) (p : Param) : Bool := p.accepts t .rvalue

/-- The state of a result. -/
abbrev State := Except Nat Nat

/-- The calls on a result; `V x = r.unwrap()` and so on for the functions that return references. -/
inductive ResCall where
  /-- `then` with a function that answers a `Result<V, E>`, 414-449 -/
  | thenResult (p : Param) (f : Nat → State)
  /-- `then` with a function that answers a value, 452-461 -/
  | thenPlain (p : Param) (f : Nat → Nat)
  /-- `then` with a function that answers nothing, 464-478 -/
  | thenVoid (p : Param)
  /-- `orElse` with a function that answers a `Result<V, E>`, 482-492 -/
  | orElseResult (p : Param) (f : Nat → State)
  /-- `orElse` with a function that answers a value, 495-504 -/
  | orElsePlain (p : Param) (f : Nat → Nat)
  /-- `mapError`, 512-543 -/
  | mapError (p : Param) (f : Nat → Nat)
  /-- `operator*`, 345-346 -/
  | deref
  /-- `unwrap`, 348-370 -/
  | unwrap
  /-- `moveResult`, 373-379 -/
  | moveResult
  /-- `moveError`, 381-387 -/
  | moveError
  /-- `getError`, 389-403 -/
  | getError

/-- What a call answers. -/
inductive Ans where
  | state (s : State)
  /-- a `Result<void, E>` -/
  | void (e : Option Nat)
  | value (n : Nat)
  /-- `raiseInvalidStateError` -/
  | raised

/-- The expression `_value` or `_error` in the overload that is taken for the object. -/
def Obj.plain : Obj → How
  | .named => .lvalue
  | .const => .constLvalue
  | .given => .rvalue

/-- A copy or a move of a member into a new object. -/
def Payload.takes (t : Payload) : How → Bool
  | .rvalue => true
  | _ => t.copyable

def Payload.after (t : Payload) (x : Nat) : How → Nat
  | .rvalue => t.moved x
  | _ => x

/-- Whether the call compiles: an overload is found (the type of the answer exists, and only const functions for constants) and its
body, both branches, is right. -/
def ResCall.compiles (v e : Payload) (o : Obj) : ResCall → Bool
  | .thenResult p _ => p.forValue v && p.accepts v o.plain && e.takes o.plain
  | .thenPlain p _ => p.forValue v && o != .const && p.accepts v .rvalue
  | .thenVoid p => p.forValue v && o != .const && p.accepts v .rvalue
  | .orElseResult p _ => p.forValue e && o != .const && p.accepts e .rvalue
  | .orElsePlain p _ => p.forValue e && o != .const && p.accepts e .rvalue
  | .mapError p _ => p.forValue e && p.accepts e o.plain && v.takes o.plain
  | .deref => v.copyable
  | .unwrap => v.takes o.plain
  | .moveResult => o != .const
  | .moveError => o != .const
  | .getError => e.copyable

/-- The answer of the call, and what is left in the object. -/
def ResCall.run (v e : Payload) (o : Obj) (s : State) : ResCall → Ans × State
  | .thenResult p f =>
    match s with
    | .ok x => (.state (f x), .ok (p.left v x o.plain))
    | .error y => (.state (.error y), .error (e.after y o.plain))
  | .thenPlain p f =>
    match s with
    | .ok x => (.state (.ok (f x)), .ok (p.left v x .rvalue))
    | .error y => (.state (.error y), .error (e.after y .rvalue))
  | .thenVoid p =>
    match s with
    | .ok x => (.void none, .ok (p.left v x .rvalue))
    | .error y => (.void (some y), .error (e.after y .rvalue))
  | .orElseResult p f =>
    match s with
    | .ok x => (.state (.ok x), .ok (v.after x .rvalue))
    | .error y => (.state (f y), .error (p.left e y .rvalue))
  | .orElsePlain p f =>
    match s with
    | .ok x => (.state (.ok x), .ok (v.after x .rvalue))
    | .error y => (.state (.ok (f y)), .error (p.left e y .rvalue))
  | .mapError p f =>
    match s with
    | .ok x => (.state (.ok x), .ok (v.after x o.plain))
    | .error y => (.state (.error (f y)), .error (p.left e y o.plain))
  | .deref =>
    match s with
    | .ok x => (.value x, .ok x)
    | .error y => (.raised, .error y)
  | .unwrap =>
    match s with
    | .ok x => (.value x, .ok (v.after x o.plain))
    | .error y => (.raised, .error y)
  | .moveResult =>
    match s with
    | .ok x => (.value x, .ok (v.after x .rvalue))
    | .error y => (.raised, .error y)
  | .moveError =>
    match s with
    | .ok x => (.raised, .ok x)
    | .error y => (.value y, .error (e.after y .rvalue))
  | .getError =>
    match s with
    | .ok x => (.raised, .ok x)
    | .error y => (.value y, .error y)

/-- A sequence of calls on one object: the answers and what is left. -/
def runAll (v e : Payload) (o : Obj) : State → List ResCall → List Ans × State
  | s, [] => ([], s)
  | s, c :: cs =>
    let r := c.run v e o s
    let rest := runAll v e o r.2 cs
    (r.1 :: rest.1, rest.2)

/-- The calls on an optional. -/
inductive OptCall where
  /-- `map`, optional.hpp:236-250 -/
  | map (p : Param) (f : Nat → Nat)
  /-- `flatMap`, 253-283 -/
  | flatMap (p : Param) (f : Nat → Option Nat)
  /-- `filter`, 284-289 -/
  | filter (p : Param) (f : Nat → Bool)
  /-- `get`, 203-217 -/
  | get
  /-- `move`, 220-226 -/
  | move
  /-- `orElse`, 228-234 -/
  | orElse (d : Nat)

/-- What a call on an optional answers. -/
inductive OptAns where
  | opt (o : Option Nat)
  | value (n : Nat)
  | raised

/-- The overload of `map` that is taken: the one for non-const objects if the function can be called with `T&`, else the const one if it
can be called with an rvalue. -/
def mapHow (t : Payload) (o : Obj) (p : Param) : Option How :=
  if o != .const && p.accepts t .lvalue then some .lvalue
  else if p.accepts t .rvalue then some .constLvalue
  else none

def OptCall.compiles (t : Payload) (o : Obj) : OptCall → Bool
  | .map p _ =>
    match mapHow t o p with
    | none => false
    | some how => p.accepts t how
  | .flatMap p _ => p.accepts t .rvalue && (if o = .const then p.accepts t .constLvalue else true)
  | .filter p _ => p.accepts t .constLvalue
  | .get => t.copyable
  | .move => o != .const
  | .orElse _ => t.copyable

def OptCall.run (t : Payload) (o : Obj) (s : Option Nat) : OptCall → OptAns × Option Nat
  | .map p f =>
    match s with
    | some x => (.opt (some (f x)), some (p.left t x ((mapHow t o p).getD .constLvalue)))
    | none => (.opt none, none)
  | .flatMap p f =>
    match s with
    | some x => (.opt (f x), some (p.left t x (if o = .const then .constLvalue else .rvalue)))
    | none => (.opt none, none)
  | .filter p f =>
    match s with
    | some x => (.opt (if f x then some x else none), some (p.left t x .constLvalue))
    | none => (.opt none, none)
  | .get =>
    match s with
    | some x => (.value x, some x)
    | none => (.raised, none)
  | .move =>
    match s with
    | some x => (.value x, some (t.moved x))
    | none => (.raised, none)
  | .orElse d =>
    match s with
    | some x => (.value x, some x)
    | none => (.value d, none)

/-- A sequence of calls on one optional. -/
def OptCall.runAll (t : Payload) (o : Obj) : Option Nat → List OptCall → List OptAns × Option Nat
  | s, [] => ([], s)
  | s, c :: cs =>
    let r := c.run t o s
    let rest := runAll t o r.2 cs
    (r.1 :: rest.1, rest.2)

end Solace.Reuse
