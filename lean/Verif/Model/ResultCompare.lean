import Verif.Model.Result
/-
Comparisons of `Result` and `Optional` (/repo/include/solace/result.hpp, optional.hpp), with comparisons of the contents that
may throw.
-/
namespace Solace.Res

/-- `a && b` for a condition and an expression that is evaluated only when it holds. -/
def both (a : Bool) (b : Outcome Bool) : Outcome Bool := if a then b else .ok false

/-- `a || b`: the second is evaluated only when the first is false. -/
def either (a b : Outcome Bool) : Outcome Bool := a >>= fun x => if x then .ok true else b

/-- `operator==(Ok<V>, Result)` and `operator==(Result, Ok<V>)`, result.hpp:930-938. The result is the left operand in both. -/
def eqOk (eqV : V → V → Outcome Bool) (r : Res V E) (v : V) : Outcome Bool := both (isOk r) (unwrap r >>= fun x => eqV x v)

/-- `operator==(Err<E>, Result)` and `operator==(Result, Err<E>)`, result.hpp:940-948. -/
def eqErr (eqE : E → E → Outcome Bool) (r : Res V E) (e : E) : Outcome Bool := both (isError r) (getError r >>= fun x => eqE x e)

/-- `operator==(V, Result)`, result.hpp:963-967. -/
def eqValue (eqV : V → V → Outcome Bool) (v : V) (r : Res V E) : Outcome Bool := both (isOk r) (unwrap r >>= fun x => eqV x v)

/-- `operator!=(V, Result)`, result.hpp:969-973. -/
def neValue (neV : V → V → Outcome Bool) (v : V) (r : Res V E) : Outcome Bool :=
  either (.ok (isError r)) (unwrap r >>= fun x => neV x v)

/-- `operator==(Result, Result)`, result.hpp:951-955: `noexcept`. -/
def eq (eqV : V → V → Outcome Bool) (eqE : E → E → Outcome Bool) (a b : Res V E) : Outcome Bool :=
  (either (both (isOk a && isOk b) (unwrap a >>= fun x => unwrap b >>= fun y => eqV x y))
    (both (isError a && isError b) (getError a >>= fun x => getError b >>= fun y => eqE x y))).noexcept

/-- `operator==(Result<void, E>, Result<void, E>)`, result.hpp:957-961: `noexcept`. -/
def voidEq (eqE : E → E → Outcome Bool) (a b : Option E) : Outcome Bool :=
  (either (.ok (voidIsOk a && voidIsOk b))
    (both (!voidIsOk a && !voidIsOk b) (voidGetError a >>= fun x => voidGetError b >>= fun y => eqE x y))).noexcept

/-- `operator==` and `operator!=` of `Result<void, E>` and `none`, result.hpp:917-927. -/
def voidEqNone (a : Option E) : Bool := voidIsOk a
def voidNeNone (a : Option E) : Bool := !voidIsOk a

/-- `operator||(Optional, value)`, optional.hpp:387-391. -/
def optionalOr (a : Option T) (v : T) : T := Opt.orElse a v

/-- The constructors from `Ok(value)`, `Err(error)`, a value or an error (result.hpp:77-102, 247-304): the wrapper holds a copy
or the moved value, and so does the result. -/
inductive Source (V E : Type) where
  | okOf (v : V)
  | errOf (e : E)
  | value (v : V)
  | error (e : E)
deriving DecidableEq, Repr

def make : Source V E → Res V E
  | .okOf v => .ok v
  | .errOf e => .err e
  | .value v => .ok v
  | .error e => .err e

/-- `Result(Result<DV, E>&&)`, result.hpp:225-236: the new object, and the old one, which stays in its state with moved-from
content. -/
def moveCtor (conv : V → U) (mV : V → V) (mE : E → E) : Res V E → Res U E × Res V E
  | .ok v => (.ok (conv v), .ok (mV v))
  | .err e => (.err e, .err (mE e))

end Solace.Res
