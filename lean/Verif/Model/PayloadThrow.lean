import Verif.Model.OptionalLifetime
import Verif.Model.Basic
/-
Exceptions of the constructors of payloads in `Optional` and `Result` (/repo/include/solace/optional.hpp, result.hpp) and in
`exchange` (/repo/include/solace/utils.hpp): which of them leave the call and which end the program because the call, or a call
it makes, is declared `noexcept`.

A type of payload is known by whether its copy and its move constructor are declared `noexcept`. Payloads are made by copying or
moving an object of the type, or from something else by a constructor that is `noexcept` or not. A payload that is a reference is
not modelled (it is stored as `std::reference_wrapper`, which does not throw). Destructors do not throw.
-/
namespace Solace.PayloadThrow

/-- `std::is_nothrow_copy_constructible` and `std::is_nothrow_move_constructible` of the payload. -/
structure Traits where
  copy : Bool
  move : Bool
deriving DecidableEq, Repr

/-- The constructor of the payload that runs. -/
inductive How where
  | copy
  | move
  /-- any other constructor, declared `noexcept` or not -/
  | convert (nothrow : Bool)
deriving DecidableEq, Repr

/-- Whether that constructor is declared `noexcept`; `std::is_nothrow_constructible<StoredValue_type, Args...>`. -/
def Traits.declared (t : Traits) : How → Bool
  | .copy => t.copy
  | .move => t.move
  | .convert n => n

/-- The constructor itself: an exception in one declared `noexcept` ends the program there. -/
def construct (t : Traits) (h : How) (throws : Bool) : Outcome Unit :=
  if throws then (if t.declared h then .terminate else .throws) else .ok ()

/-- The body of a function declared `noexcept(b)`. -/
def spec (b : Bool) (o : Outcome Unit) : Outcome Unit := if b then o.noexcept else o

/-- `Optional::construct`, optional.hpp:298-305; `ctor` is utils.hpp's placement new. -/
def optConstruct (t : Traits) (h : How) (throws : Bool) : Outcome Unit := spec (t.declared h) (construct t h throws)

/-- `Optional(CanBeT&&)`, optional.hpp:134-137. -/
def optValue (t : Traits) (h : How) (throws : Bool) : Outcome Unit := spec t.move (optConstruct t h throws)

/-- `Optional(InPlace, ARGS&&...)`, optional.hpp:142-146. -/
def optInPlace (t : Traits) (nothrow throws : Bool) : Outcome Unit := spec t.move (construct t (.convert nothrow) throws)

/-- `Optional(Optional<D>&)` and `Optional(Optional<D> const&)`, optional.hpp:110-124, of an optional that is not empty. -/
def optFrom (t : Traits) (h : How) (throws : Bool) : Outcome Unit := spec t.copy (optConstruct t h throws)

/-- `Optional(Optional<D>&&)`, optional.hpp:126-132, of an optional that is not empty. -/
def optMoved (t : Traits) (h : How) (throws : Bool) : Outcome Unit := spec t.move (optConstruct t h throws)

/-- `operator=(T&&)`, optional.hpp:185-190: after the old payload is destroyed. -/
def optAssignValue (t : Traits) (throws : Bool) : Outcome Unit := spec t.move (optConstruct t .move throws)

/-- Value or error. -/
inductive Which where
  | value
  | error
deriving DecidableEq, Repr

def pick (tv te : Traits) : Which → Traits
  | .value => tv
  | .error => te

/-- `Result(OkTag, CanBeV&&)` and `Result(ErrTag, CanBeE&&)`, result.hpp:276-285, with 555-569. -/
def resTag (t : Traits) (h : How) (throws : Bool) : Outcome Unit := spec t.move (construct t h throws)

/-- `Result(OkTag, InPlace, Args&&...)` and `Result(ErrTag, InPlace, Args&&...)`, result.hpp:288-296. -/
def resInPlace (t : Traits) (nothrow throws : Bool) : Outcome Unit := construct t (.convert nothrow) throws

/-- `Result(Ok<DV>&&)` and `Result(Err<DE>&&)`, result.hpp:247-264. -/
def resWrapped (t : Traits) (h : How) (throws : Bool) : Outcome Unit := spec t.move (resTag t h throws)

/-- `Result(ValueWrapper<VW, Tag>&&)`, result.hpp:270-273. -/
def resWrapper (t : Traits) (h : How) (throws : Bool) : Outcome Unit := resTag t h throws

/-- `Result(V&&)` and `Result(E&&)`, result.hpp:298-304. -/
def resRef (t : Traits) (throws : Bool) : Outcome Unit := spec t.move (construct t .move throws)

/-- `Result(Result&&)`, result.hpp:225-228. -/
def resMoved (tv te : Traits) (w : Which) (throws : Bool) : Outcome Unit :=
  spec (tv.move && te.move) (construct (pick tv te w) .move throws)

/-- `Result(Result<DV, E>&&)`, result.hpp:230-236: the value is converted, the error moved. -/
def resConverted (tv te : Traits) (w : Which) (nothrow throws : Bool) : Outcome Unit :=
  spec true (construct (pick tv te w) (if w = .value then .convert nothrow else .move) throws)

/-- `Result<void, E>(Err<E> const&)`, result.hpp:650-652: made from an lvalue by `Optional(CanBeT&&)`. -/
def voidErrCopy (t : Traits) (throws : Bool) : Outcome Unit := spec t.move (optValue t .copy throws)

/-- `Result<void, E>(Err<E>&&)` and `Result<void, E>(E&&)`, result.hpp:658-669. -/
def voidErrMove (t : Traits) (throws : Bool) : Outcome Unit := spec t.move (optValue t .move throws)

/-- `Result<void, E>(Result&&)`, result.hpp:676-678, of an error. -/
def voidMoved (t : Traits) (throws : Bool) : Outcome Unit := spec t.move (optMoved t .move throws)

/-- `Result<void, E>(ErrTag, E const&)`, result.hpp:689-691. -/
def voidTagCopy (t : Traits) (throws : Bool) : Outcome Unit := spec t.copy (optValue t .copy throws)

/-- `Result<void, E>(ErrTag, E&&)`, result.hpp:693-695. -/
def voidTagMove (t : Traits) (throws : Bool) : Outcome Unit := spec t.move (optValue t .move throws)

/-- `Result<void, E>(ErrTag, InPlace, Args&&...)`, result.hpp:697-700. -/
def voidInPlace (t : Traits) (nothrow throws : Bool) : Outcome Unit := optInPlace t nothrow throws

/-- `ValueWrapper(value_type const&)` and `ValueWrapper(value_type&&)`, result.hpp:45-51. -/
def wrapCopy (t : Traits) (throws : Bool) : Outcome Unit := spec t.copy (construct t .copy throws)

def wrapMove (t : Traits) (throws : Bool) : Outcome Unit := spec t.move (construct t .move throws)

/-- The calls that make one payload. -/
inductive Call where
  | optValue (h : How)
  | optInPlace (nothrow : Bool)
  | optFrom (h : How)
  | optMoved (h : How)
  | optAssignValue
  | resTag (w : Which) (h : How)
  | resInPlace (w : Which) (nothrow : Bool)
  | resWrapped (w : Which) (h : How)
  | resWrapper (w : Which) (h : How)
  | resRef (w : Which)
  | resMoved (w : Which)
  | resConverted (w : Which) (nothrow : Bool)
  | voidErrCopy
  | voidErrMove
  | voidMoved
  | voidTagCopy
  | voidTagMove
  | voidInPlace (nothrow : Bool)
  | wrapCopy (w : Which)
  | wrapMove (w : Which)
deriving DecidableEq, Repr

/-- How the call ends; `throws`: the constructor of the payload throws. The payload of an `Optional` is of the type of values. -/
def outcome (tv te : Traits) (c : Call) (throws : Bool) : Outcome Unit :=
  match c with
  | .optValue h => optValue tv h throws
  | .optInPlace n => optInPlace tv n throws
  | .optFrom h => optFrom tv h throws
  | .optMoved h => optMoved tv h throws
  | .optAssignValue => optAssignValue tv throws
  | .resTag w h => resTag (pick tv te w) h throws
  | .resInPlace w n => resInPlace (pick tv te w) n throws
  | .resWrapped w h => resWrapped (pick tv te w) h throws
  | .resWrapper w h => resWrapper (pick tv te w) h throws
  | .resRef w => resRef (pick tv te w) throws
  | .resMoved w => resMoved tv te w throws
  | .resConverted w n => resConverted tv te w n throws
  | .voidErrCopy => voidErrCopy te throws
  | .voidErrMove => voidErrMove te throws
  | .voidMoved => voidMoved te throws
  | .voidTagCopy => voidTagCopy te throws
  | .voidTagMove => voidTagMove te throws
  | .voidInPlace n => voidInPlace te n throws
  | .wrapCopy w => wrapCopy (pick tv te w) throws
  | .wrapMove w => wrapMove (pick tv te w) throws

/-- One constructor or assignment after the other, until one throws: whether each is declared `noexcept` and whether it
throws. -/
def steps : List (Bool × Bool) → Outcome Unit
  | [] => .ok ()
  | (n, throws) :: rest => if throws then (if n then .terminate else .throws) else steps rest

/-- `swap` of `Optional`, `Result` and `Result<void, E>` (optional.hpp:149-169, result.hpp:308-331, 704-708): all are declared
`noexcept`; the arguments are the moves and assignments they make. -/
def swap (moves : List (Bool × Bool)) : Outcome Unit := spec true (steps moves)

/-- `operator=(Optional&&)`, optional.hpp:179-183; that of `Result`, result.hpp:238-240 and 710-714, is declared `noexcept`. -/
def optMoveAssign (t : Traits) (moves : List (Bool × Bool)) : Outcome Unit := spec t.move (swap moves)

def resMoveAssign (moves : List (Bool × Bool)) : Outcome Unit := spec true (swap moves)

/-- `exchange(obj, newValue)`, utils.hpp:84-92: how it ends, and what `obj` holds; `husk` is what a move leaves of a value.
`assignNothrow`: `std::is_nothrow_assignable_v<T, U>`. The old value is returned without another move. -/
def exchange {α : Type} (t : Traits) (assignNothrow : Bool) (husk : α → α) (obj new : α) (throwsMove throwsAssign : Bool) :
    Outcome α × α :=
  match spec (t.move && assignNothrow) (construct t .move throwsMove) with
  | .ok () =>
    match spec (t.move && assignNothrow) (if throwsAssign then (if assignNothrow then .terminate else .throws) else .ok ()) with
    | .ok () => (.ok obj, new)
    | .throws => (.throws, husk obj)
    | .terminate => (.terminate, husk obj)
    | .ub => (.ub, husk obj)
  | .throws => (.throws, obj)
  | .terminate => (.terminate, obj)
  | .ub => (.ub, obj)

/-- Operations of programs: those of `Payload.Op`, with the call that makes the payload. -/
inductive Op where
  | newNone
  /-- a new object made by the call from a value -/
  | make (c : Call) (throws : Bool)
  /-- a new object made by the call from variable `a` -/
  | from (c : Call) (a : Nat) (throws : Bool)
  | assignNone (a : Nat)
  | assignValue (a : Nat) (throws : Bool)
  /-- `swap` and move assignment with the moves they make -/
  | swap (a b : Nat) (moves : List (Bool × Bool))
  | access (a : Nat)
  | destroy (a : Nat)
deriving DecidableEq, Repr

/-- The kind of object the call makes: `none` an `Optional` (also inside a `Result<void, E>`), otherwise a `Result`. -/
def kind : Call → Option Which
  | .resTag w _ | .resInPlace w _ | .resWrapped w _ | .resWrapper w _ | .resRef w | .resMoved w | .resConverted w _
  | .wrapCopy w | .wrapMove w => some w
  | _ => none

/-- What the operation does to payloads, as in C57. -/
def effect : Op → Payload.Op
  | .newNone => .newNone
  | .make c throws =>
    match kind c with
    | none => .newSome throws
    | some w => .newResult (w = .value) throws
  | .from _ a throws => .from a throws
  | .assignNone a => .assignNone a
  | .assignValue a throws => .assignValue a throws
  | .swap a b _ => .swap a b
  | .access a => .access a
  | .destroy a => .destroy a

/-- How the operation ends in this world. A call that makes no payload (from an empty `Optional`) does not throw. -/
def result (tv te : Traits) (w : Payload.World) : Op → Outcome Unit
  | .make c throws => outcome tv te c throws
  | .from c a throws => if ((w.get a).bind Payload.payload).isSome then outcome tv te c throws else .ok ()
  | .assignValue _ throws => optAssignValue tv throws
  | .swap _ _ moves => swap moves
  | _ => .ok ()

/-- A program: exceptions are caught after each operation; the program is over when an operation ends it. The world at the end
and whether the program was ended (the world is then the one before the operation). -/
def run (tv te : Traits) : Payload.World → List Op → Payload.World × Bool
  | w, [] => (w, false)
  | w, op :: ops =>
    match result tv te w op with
    | .terminate | .ub => (w, true)
    | _ => run tv te (Payload.step w (effect op)) ops

end Solace.PayloadThrow
