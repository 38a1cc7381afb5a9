import Verif.Model.PayloadThrow
/-
What is expected of exceptions of payloads: which payload a call makes and how, and for which calls an exception of the payload
leaves the call for every type of payload.
-/
namespace Solace.PayloadThrow

/-- The payload the call makes, and the constructor it makes it with. -/
def made : Call → Which × How
  | .optValue h | .optFrom h | .optMoved h => (.value, h)
  | .optInPlace n => (.value, .convert n)
  | .optAssignValue => (.value, .move)
  | .resTag w h | .resWrapped w h | .resWrapper w h => (w, h)
  | .resInPlace w n => (w, .convert n)
  | .resRef w | .resMoved w | .wrapMove w => (w, .move)
  | .resConverted .value n => (.value, .convert n)
  | .resConverted .error _ => (.error, .move)
  | .voidErrCopy | .voidTagCopy => (.error, .copy)
  | .voidErrMove | .voidMoved | .voidTagMove => (.error, .move)
  | .voidInPlace n => (.error, .convert n)
  | .wrapCopy w => (w, .copy)

/-- The constructor the call uses is declared `noexcept`. -/
def Nothrow (tv te : Traits) (c : Call) : Prop :=
  match (made c).1 with
  | .value => tv.declared (made c).2 = true
  | .error => te.declared (made c).2 = true

/-- The call ends like the constructor of its payload: it returns when that returns, and an exception leaves it unless that
constructor is declared `noexcept`. -/
def Passes (tv te : Traits) (c : Call) : Prop :=
  outcome tv te c false = .ok () ∧
  (¬Nothrow tv te c → outcome tv te c true = .throws) ∧
  (Nothrow tv te c → outcome tv te c true = .terminate)

/-- The calls that pass the exceptions of every payload: those that move a payload of their own type (except the conversion of a
result of another type), the copies of an optional of the same type, of `ValueWrapper`, and construction in place in a
`Result` with a value. Constructors that are `noexcept` themselves do not throw. -/
def Transparent : Call → Prop
  | .optValue h | .optMoved h | .resTag _ h | .resWrapped _ h | .resWrapper _ h => h = .move ∨ h = .convert true
  | .optFrom h => h = .copy ∨ h = .convert true
  | .optInPlace n | .voidInPlace n => n = true
  | .resConverted .value n => n = true
  | .resConverted .error _ => False
  | .voidErrCopy | .voidTagCopy => False
  | _ => True

/-- What the `noexcept` specifications on the way to the constructor of the payload promise. -/
def Promises (tv te : Traits) : Call → Prop
  | .optValue _ | .optInPlace _ | .optMoved _ | .optAssignValue => tv.move = true
  | .optFrom _ => tv.copy = true
  | .resTag .value _ | .resWrapped .value _ | .resWrapper .value _ | .resRef .value | .wrapMove .value => tv.move = true
  | .resTag .error _ | .resWrapped .error _ | .resWrapper .error _ | .resRef .error | .wrapMove .error => te.move = true
  | .resInPlace _ _ => False
  | .resMoved _ => tv.move = true ∧ te.move = true
  | .resConverted _ _ => True
  | .voidErrCopy | .voidErrMove | .voidMoved | .voidTagMove | .voidInPlace _ => te.move = true
  | .voidTagCopy => te.move = true ∨ te.copy = true
  | .wrapCopy .value => tv.copy = true
  | .wrapCopy .error => te.copy = true

/-- The operation of a program that cannot end it: its constructor does not throw, or it is not declared `noexcept` and the call
is transparent. -/
def Harmless (tv te : Traits) : Op → Prop
  | .make c throws | .from c _ throws => throws = true → Transparent c ∧ ¬Nothrow tv te c
  | .assignValue _ throws => throws = true → tv.move = false
  | .swap _ _ moves => ∀ m ∈ moves, m.2 = false
  | _ => True

end Solace.PayloadThrow
