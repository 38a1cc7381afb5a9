import Verif.Model.ResultCompare
/-
The combinators of `Result<void, E>` with what they leave in the object (/repo/include/solace/result.hpp:608-914), and chains of combinators
over results with and without a value. The content of a `Result<void, E>` is that of its `Optional<E>`.

The overload of `orElse` for a function that returns a plain value (result.hpp:855-864) returns `none` as a `Result<R, E>`, which has no such
constructor: it cannot be instantiated and is left out. Handlers are total functions; a handler that throws ends the chain and is left out.
-/
namespace Solace.Res

/-- Moving out of the error leaves `mE e`. -/
def voidMoved (mE : E → E) (r : Option E) : Option E :=
  match r with
  | none => none
  | some e => some (mE e)

/-- `then` with a function returning a result: on an rvalue 762-772, otherwise 774-784. -/
def voidThenRes (rvalue : Bool) (mE : E → E) (f : Unit → R) (err : E → R) (r : Option E) : Call Unit R (Option E) :=
  match r with
  | none => ⟨f (), [()], r⟩
  | some e => ⟨err e, [], if rvalue then voidMoved mE r else r⟩

/-- `then` with a function returning a plain value: on an rvalue 788-798, otherwise 800-810. -/
def voidThenValue (rvalue : Bool) (mE : E → E) (f : Unit → U) (r : Option E) : Call Unit (Res U E) (Option E) :=
  match r with
  | none => ⟨.ok (f ()), [()], r⟩
  | some e => ⟨.err e, [], if rvalue then voidMoved mE r else r⟩

/-- `then` with a function returning nothing: on an rvalue 813-825, otherwise 827-839. -/
def voidThenVoid (rvalue : Bool) (mE : E → E) (r : Option E) : Call Unit (Option E) (Option E) :=
  match r with
  | none => ⟨none, [()], r⟩
  | some e => ⟨some e, [], if rvalue then voidMoved mE r else r⟩

/-- `orElse` with a function returning a result, 844-853; not ref-qualified, moves from lvalues too. -/
def voidOrElseRes (mE : E → E) (f : E → Option E') (r : Option E) : Call E (Option E') (Option E) :=
  match r with
  | none => ⟨none, [], none⟩
  | some e => ⟨f e, [e], some (mE e)⟩

/-- `orElse` with a function returning nothing, 866-877. -/
def voidOrElseVoid (mE : E → E) (r : Option E) : Call E (Option E) (Option E) :=
  match r with
  | none => ⟨none, [], none⟩
  | some e => ⟨none, [e], some (mE e)⟩

/-- `mapError` with a function returning an error, 886-896; not ref-qualified. -/
def voidMapErrorMoving (mE : E → E) (f : E → E') (r : Option E) : Call E (Option E') (Option E) :=
  match r with
  | none => ⟨none, [], none⟩
  | some e => ⟨some (f e), [e], some (mE e)⟩

/-- `mapError` with a function returning a result, 898-910. -/
def voidMapErrorRes (mE : E → E) (f : E → Option E') (r : Option E) : Call E (Option E') (Option E) :=
  match r with
  | none => ⟨none, [], none⟩
  | some e => ⟨f e, [e], some (mE e)⟩

/-! Chains -/

/-- A result in a chain: with or without a value. -/
inductive Any (V E : Type) where
  | val (r : Res V E)
  | void (r : Option E)
deriving DecidableEq, Repr

/-- What is passed to a handler: nothing, a value or an error. -/
inductive Arg (V E : Type) where
  | unit
  | value (v : V)
  | error (e : E)
deriving DecidableEq, Repr

/-- A combinator with its handler. The argument of a `then` handler is `none` for `Result<void, E>`. -/
inductive Stage (V E : Type) where
  | thenRes (f : Option V → Res V E)
  | thenResVoid (f : Option V → Option E)
  | thenValue (f : Option V → V)
  | thenVoid
  | orElseRes (f : E → Res V E) (g : E → Option E)
  | orElseValue (f : E → V)
  | mapError (f : E → E)

/-- The error of a `Result<void, E>` returned by a handler, as the value of a result. -/
def ofVoid (f : V → Option E) (v : V) : Res Unit E :=
  match f v with
  | none => .ok ()
  | some e => .err e

def toVoid : Res Unit E → Option E
  | .ok _ => none
  | .err e => some e

/-- One combinator applied to a temporary (414-424, 451-477, 482-521, 753-910): the result and the calls made. For `orElse` on a
`Result<void, E>` the handler returns a `Result<void, E>` (`orElseRes`) or nothing (`orElseValue`). -/
def Stage.apply (mV : V → V) (mE : E → E) : Stage V E → Any V E → Any V E × List (Arg V E)
  | .thenRes f, .val r => let c := andThenMoving mV mE (fun v => f (some v)) r; (.val c.result, c.calls.map .value)
  | .thenRes f, .void r => let c := voidThenRes true mE (fun _ => f none) .err r; (.val c.result, c.calls.map fun _ => .unit)
  | .thenResVoid f, .val r =>
    let c := andThenMoving mV mE (ofVoid fun v => f (some v)) r; (.void (toVoid c.result), c.calls.map .value)
  | .thenResVoid f, .void r => let c := voidThenRes true mE (fun _ => f none) some r; (.void c.result, c.calls.map fun _ => .unit)
  | .thenValue f, .val r => let c := Res.thenValue mV mE (fun v => f (some v)) r; (.val c.result, c.calls.map .value)
  | .thenValue f, .void r => let c := voidThenValue true mE (fun _ => f none) r; (.val c.result, c.calls.map fun _ => .unit)
  | .thenVoid, .val r => let c := Res.thenVoid mV mE r; (.void c.result, c.calls.map .value)
  | .thenVoid, .void r => let c := voidThenVoid true mE r; (.void c.result, c.calls.map fun _ => .unit)
  | .orElseRes f _, .val r => let c := orElse mV mE f r; (.val c.result, c.calls.map .error)
  | .orElseRes _ g, .void r => let c := voidOrElseRes mE g r; (.void c.result, c.calls.map .error)
  | .orElseValue f, .val r => let c := Res.orElseValue mV mE id f r; (.val c.result, c.calls.map .error)
  | .orElseValue _, .void r => let c := voidOrElseVoid mE r; (.void c.result, c.calls.map .error)
  | .mapError f, .val r => let c := mapErrorMoving mV mE f r; (.val c.result, c.calls.map .error)
  | .mapError f, .void r => let c := voidMapErrorMoving mE f r; (.void c.result, c.calls.map .error)

/-- A chain `r.a(f).b(g)…`: the final result and the calls of all handlers in order. -/
def chain (mV : V → V) (mE : E → E) : List (Stage V E) → Any V E → Any V E × List (Arg V E)
  | [], r => (r, [])
  | s :: rest, r =>
    let step := s.apply mV mE r
    let tail := chain mV mE rest step.1
    (tail.1, step.2 ++ tail.2)

end Solace.Res
