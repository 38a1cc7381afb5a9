import Verif.Model.Optional
/-
`Result<V, E>` and `Result<void, E>` (/repo/include/solace/result.hpp) as seen by their user. Lifetimes are in
Model/OptionalLifetime.

A call of a handler is recorded: `Call A R` is the result, the arguments of the calls made, and the content of the object
afterwards. Moving from a value leaves `moved v` in its place.
-/
namespace Solace.Res

/-- `_engaged` with `_value` or `_error`. -/
inductive Res (V : Type) (E : Type) where
  | ok (v : V)
  | err (e : E)
deriving DecidableEq, Repr

structure Call (A R S : Type) where
  result : R
  calls : List A
  after : S
deriving DecidableEq, Repr

/-- result.hpp:337-343. -/
def isOk : Res V E → Bool
  | .ok _ => true
  | .err _ => false
def isError : Res V E → Bool
  | .ok _ => false
  | .err _ => true

/-- `unwrap`, `moveResult`, `operator*`, result.hpp:345-379. -/
def unwrap : Res V E → Outcome V
  | .ok v => .ok v
  | .err _ => .throws

/-- `getError`, `moveError`, result.hpp:381-403. -/
def getError : Res V E → Outcome E
  | .ok _ => .throws
  | .err e => .ok e

/-- `then` with a function returning a result, on a const object or an lvalue, result.hpp:426-448. -/
def andThen (f : V → Res U E) (r : Res V E) : Call V (Res U E) (Res V E) :=
  match r with
  | .ok v => ⟨f v, [v], r⟩
  | .err e => ⟨.err e, [], r⟩

/-- The same on an rvalue, result.hpp:414-424. -/
def andThenMoving (mV : V → V) (mE : E → E) (f : V → Res U E) (r : Res V E) : Call V (Res U E) (Res V E) :=
  match r with
  | .ok v => ⟨f v, [v], .ok (mV v)⟩
  | .err e => ⟨.err e, [], .err (mE e)⟩

/-- `then` with a function returning a plain value, result.hpp:451-461; not ref-qualified, moves from lvalues too. -/
def thenValue (mV : V → V) (mE : E → E) (f : V → U) (r : Res V E) : Call V (Res U E) (Res V E) :=
  match r with
  | .ok v => ⟨.ok (f v), [v], .ok (mV v)⟩
  | .err e => ⟨.err e, [], .err (mE e)⟩

/-- `then` with a function returning nothing, result.hpp:465-477. The result is a `Result<void, E>`: `none` or the error. -/
def thenVoid (mV : V → V) (mE : E → E) (r : Res V E) : Call V (Option E) (Res V E) :=
  match r with
  | .ok v => ⟨none, [v], .ok (mV v)⟩
  | .err e => ⟨some e, [], .err (mE e)⟩

/-- `orElse` with a function returning a result, result.hpp:482-492. -/
def orElse (mV : V → V) (mE : E → E) (f : E → Res V E') (r : Res V E) : Call E (Res V E') (Res V E) :=
  match r with
  | .ok v => ⟨.ok v, [], .ok (mV v)⟩
  | .err e => ⟨f e, [e], .err (mE e)⟩

/-- `orElse` with a function returning a plain value, result.hpp:495-504; `conv` converts a `V` to the type returned. -/
def orElseValue (mV : V → V) (mE : E → E) (conv : V → U) (f : E → U) (r : Res V E) : Call E (Res U E) (Res V E) :=
  match r with
  | .ok v => ⟨.ok (conv v), [], .ok (mV v)⟩
  | .err e => ⟨.ok (f e), [e], .err (mE e)⟩

/-- `mapError` on a const object or an lvalue, result.hpp:523-543. -/
def mapError (f : E → E') (r : Res V E) : Call E (Res V E') (Res V E) :=
  match r with
  | .ok v => ⟨.ok v, [], r⟩
  | .err e => ⟨.err (f e), [e], r⟩

/-- The same on an rvalue, result.hpp:512-521. -/
def mapErrorMoving (mV : V → V) (mE : E → E) (f : E → E') (r : Res V E) : Call E (Res V E') (Res V E) :=
  match r with
  | .ok v => ⟨.ok v, [], .ok (mV v)⟩
  | .err e => ⟨.err (f e), [e], .err (mE e)⟩

/-- What an object holds: a live value or error, or storage whose content was destroyed. -/
inductive Cell (V : Type) (E : Type) where
  | live (r : Res V E)
  | dead
deriving DecidableEq, Repr

/-- The value moved out of an object; reading a destroyed one is undefined. -/
def take (s : Opt.Store (Cell V E)) (i : Nat) : Outcome (Res V E) :=
  match s i with
  | .live r => .ok r
  | .dead => .ub

/-- Moved-from content. -/
def moveOut (mV : V → V) (mE : E → E) : Res V E → Res V E
  | .ok v => .ok (mV v)
  | .err e => .err (mE e)

/-- `swap` of the objects `i` (this) and `j` (rhs), result.hpp:308-331 with `constructValue`/`constructError` (570-580): a
temporary takes the content of `i`; the content of `i` is destroyed and rebuilt from that of `j`; the content of `j` is
destroyed and rebuilt from the temporary. -/
def swap (mV : V → V) (mE : E → E) (s : Opt.Store (Cell V E)) (i j : Nat) : Outcome (Opt.Store (Cell V E)) := do
  let tmp ← take s i
  let s1 := s.set i (.live (moveOut mV mE tmp))
  let _ ← take s1 i
  let s2 := s1.set i .dead
  let r ← take s2 j
  let s3 := (s2.set j (.live (moveOut mV mE r))).set i (.live r)
  let _ ← take s3 j
  let s4 := s3.set j .dead
  pure (s4.set j (.live tmp))

/-- `operator=(Result&&)`, result.hpp:238-240. -/
def assign (mV : V → V) (mE : E → E) (s : Opt.Store (Cell V E)) (i j : Nat) : Outcome (Opt.Store (Cell V E)) :=
  swap mV mE s i j

/-! `Result<void, E>`, result.hpp:608-914: the content is that of its `Optional<E>`. -/

def voidIsOk (r : Option E) : Bool := r.isNone
/-- `getError`, `moveError`, 724-734. -/
def voidGetError (r : Option E) : Outcome E := Opt.get r
/-- `then`, 753-840, with a function returning a result. -/
def voidThen (f : Unit → Res U E) (r : Option E) : Call Unit (Res U E) Unit :=
  match r with
  | none => ⟨f (), [()], ()⟩
  | some e => ⟨.err e, [], ()⟩
/-- `orElse` with a function returning a `Result<void, E>`, 845-855. -/
def voidOrElse (f : E → Option E') (r : Option E) : Call E (Option E') Unit :=
  match r with
  | none => ⟨none, [], ()⟩
  | some e => ⟨f e, [e], ()⟩
/-- `mapError`, 883-895. -/
def voidMapError (f : E → E') (r : Option E) : Call E (Option E') Unit :=
  match r with
  | none => ⟨none, [], ()⟩
  | some e => ⟨some (f e), [e], ()⟩

end Solace.Res
