import Verif.Spec.Lifetime
/-
What `Optional` and `Result` objects do to their payloads (/repo/include/solace/optional.hpp, result.hpp): programs over any
number of variables, with a log of the constructions, destructions and uses of payload objects.

A payload object has a serial number; `std::swap` of two payloads moves values between objects that stay where they are.
Operations on variables that do not exist (any more) or have the wrong type cannot be written; here they do nothing.
`swap` is `noexcept`: a payload whose move throws there ends the program, which is not modelled.
-/
namespace Solace.Payload
open Lifetime

inductive Obj where
  /-- `Optional`: the payload, if engaged -/
  | opt (payload : Option Nat)
  /-- `Result`: in the ok state or not; value and error share the storage -/
  | res (ok : Bool) (payload : Nat)
deriving DecidableEq, Repr

structure World where
  vars : List (Option Obj)
  log : List Event
  next : Nat
deriving DecidableEq, Repr

def World.init : World := ⟨[], [], 0⟩

inductive Op where
  | newNone
  /-- `Optional<T>{value}`, `Optional<T>{in_place, ...}`; the constructor of the payload may throw -/
  | newSome (throws : Bool)
  /-- `Result{okTag / errTag, value}` -/
  | newResult (ok : Bool) (throws : Bool)
  /-- copy or move construction from variable `a` -/
  | from (a : Nat) (throws : Bool)
  /-- `a = none` -/
  | assignNone (a : Nat)
  /-- `a = mv(value)`, the value being an object of its own -/
  | assignValue (a : Nat) (throws : Bool)
  /-- `a = mv(*b)`: the value is the payload of another `Optional`, or of the same -/
  | assignPayload (a b : Nat) (throws : Bool)
  /-- `a.swap(b)`, `a = mv(b)` -/
  | swap (a b : Nat)
  /-- `*a`, `get`, `map`, `then` and so on: the payload is passed on, if there is one -/
  | access (a : Nat)
  /-- end of the variable's life -/
  | destroy (a : Nat)
deriving DecidableEq, Repr

def World.get (w : World) (a : Nat) : Option Obj := (w.vars[a]?).join

def payload : Obj → Option Nat
  | .opt p => p
  | .res _ p => some p

/-- `destroy()`, optional.hpp:307-313, result.hpp:547-553. -/
def destroyEvents : Option Nat → List Event
  | none => []
  | some p => [.destroy p]

def useEvents : Option Nat → List Event
  | none => []
  | some p => [.use p]

/-- A new variable with a payload made from some value. -/
def create (w : World) (obj : Nat → Obj) (throws : Bool) : World :=
  if throws then w
  else ⟨w.vars ++ [some (obj w.next)], w.log ++ [.construct w.next], w.next + 1⟩

/-- A new variable made from variable `a`: optional.hpp:110-132, result.hpp:225-236. -/
def copyFrom (w : World) (a : Nat) (throws : Bool) : World :=
  match w.get a with
  | none => w
  | some (.opt none) => ⟨w.vars ++ [some (.opt none)], w.log, w.next⟩
  | some (.opt (some p)) => create ⟨w.vars, w.log ++ [.use p], w.next⟩ (fun n => .opt (some n)) throws
  | some (.res ok p) => create ⟨w.vars, w.log ++ [.use p], w.next⟩ (fun n => .res ok n) throws

/-- `operator=(T&&)`, optional.hpp:185-190: the old payload is destroyed, then the new one constructed. -/
def assign (w : World) (a : Nat) (old source : Option Nat) (throws : Bool) : World :=
  if throws then ⟨w.vars.set a (some (.opt none)), w.log ++ destroyEvents old ++ useEvents source, w.next⟩
  else ⟨w.vars.set a (some (.opt (some w.next))),
    w.log ++ destroyEvents old ++ useEvents source ++ [.construct w.next], w.next + 1⟩

/-- `Optional::swap`, optional.hpp:149-169. -/
def swapOpt (w : World) (a b : Nat) : Option Nat → Option Nat → World
  | some p, some q =>
    -- std::swap(rhs._payload, _payload)
    ⟨w.vars, w.log ++ [.use q, .construct w.next, .use p, .use q, .use w.next, .use p, .destroy w.next], w.next + 1⟩
  | some p, none =>
    ⟨(w.vars.set b (some (.opt (some w.next)))).set a (some (.opt none)), w.log ++ [.use p, .construct w.next, .destroy p],
      w.next + 1⟩
  | none, some q =>
    ⟨(w.vars.set a (some (.opt (some w.next)))).set b (some (.opt none)), w.log ++ [.use q, .construct w.next, .destroy q],
      w.next + 1⟩
  | none, none => w

/-- The payload a variable's `destroy()` would destroy. -/
def payloadAt (vars : List (Option Obj)) (b : Nat) : Option Nat := ((vars[b]?).join).bind payload

/-- `Result::swap`, result.hpp:308-331 with 570-580: move into a temporary; destroy this and construct from the other;
destroy the other and construct from the temporary; destroy the temporary. -/
def swapRes (w : World) (a b : Nat) (ok : Bool) (p : Nat) (ok' : Bool) (q : Nat) : World :=
  let tmp := w.next
  let vars1 := w.vars.set a (some (.res ok' (tmp + 1)))
  ⟨vars1.set b (some (.res ok (tmp + 2))),
    w.log ++ [.use p, .construct tmp, .destroy p, .use q, .construct (tmp + 1)] ++ destroyEvents (payloadAt vars1 b) ++
      [.use tmp, .construct (tmp + 2), .destroy tmp],
    tmp + 3⟩

def step (w : World) : Op → World
  | .newNone => ⟨w.vars ++ [some (.opt none)], w.log, w.next⟩
  | .newSome throws => create w (fun n => .opt (some n)) throws
  | .newResult ok throws => create w (fun n => .res ok n) throws
  | .from a throws => copyFrom w a throws
  | .assignNone a =>
    match w.get a with
    | some (.opt p) => ⟨w.vars.set a (some (.opt none)), w.log ++ destroyEvents p, w.next⟩
    | _ => w
  | .assignValue a throws =>
    match w.get a with
    | some (.opt p) => assign w a p none throws
    | _ => w
  | .assignPayload a b throws =>
    match w.get a, w.get b with
    | some (.opt p), some (.opt (some q)) => assign w a p (some q) throws
    | _, _ => w
  | .swap a b =>
    match w.get a, w.get b with
    | some (.opt p), some (.opt q) => swapOpt w a b p q
    | some (.res ok p), some (.res ok' q) => swapRes w a b ok p ok' q
    | _, _ => w
  | .access a =>
    match w.get a with
    | some o => ⟨w.vars, w.log ++ useEvents (payload o), w.next⟩
    | none => w
  | .destroy a =>
    match w.get a with
    | some o => ⟨w.vars.set a none, w.log ++ destroyEvents (payload o), w.next⟩
    | none => w

def run (ops : List Op) : World := ops.foldl step World.init

/-- The end of the program: the remaining variables are destroyed. -/
def closing (w : World) : List Event := w.log ++ w.vars.flatMap fun v => destroyEvents (v.bind payload)

/-- The log of a whole program. -/
def program (ops : List Op) : List Event := closing (run ops)

end Solace.Payload
