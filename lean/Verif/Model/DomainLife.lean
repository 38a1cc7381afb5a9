import Verif.Model.ErrorDomain
/-
The registry of error domains (/repo/src/errorDomain.cpp) in programs whose domain objects begin and end: the registry keeps addresses
and nothing takes one out of it.

A domain object (/repo/include/solace/errorDomain.hpp:35-52) is modelled by its value `V`, from which its name and messages come, at an
address. An object that is made at an address where another was before is what a pointer to the old one then leads to. Using an address at
which no object lives is undefined.
-/
namespace Solace.DomainLife
open ErrorDomains
variable {V : Type}

/-- The registry and the objects at the addresses. -/
structure World (V : Type) where
  map : Dict (BitVec 64) Nat
  obj : Nat → Option V

/-- The world when `main` begins, with the map constructed and no domain registered. -/
def World.initial : World V := ⟨registry, fun _ => none⟩

inductive Op (V : Type) where
  /-- An object is made at a free address, errorDomain.hpp:39. -/
  | make (a : Nat) (v : V)
  /-- An object ends, errorDomain.hpp:37. -/
  | drop (a : Nat)
  /-- An object is moved to a free address, errorDomain.hpp:41; what is moved from lives on, changed to `left`. -/
  | move (a b : Nat) (left : V)
  /-- `registerErrorDomain(id, *a)`, errorDomain.cpp:48-53. -/
  | register (id : BitVec 64) (a : Nat)
deriving DecidableEq, Repr

def World.set (w : World V) (a : Nat) (v : Option V) : World V := { w with obj := fun b => if b = a then v else w.obj b }

/-- One operation; what a program cannot do (two objects at one address, ending or naming an object that is not there) is undefined. -/
def step (w : World V) : Op V → Outcome (World V)
  | .make a v => match w.obj a with | none => .ok (w.set a (some v)) | some _ => .ub
  | .drop a => match w.obj a with | some _ => .ok (w.set a none) | none => .ub
  | .move a b left =>
    match w.obj a, w.obj b with
    | some v, none => .ok ((w.set b (some v)).set a (some left))
    | _, _ => .ub
  | .register id a =>
    match w.obj a with
    | none => .ub
    | some _ =>
      match ErrorDomains.register w.map id a with
      | (m, .ok _) => .ok { w with map := m }
      | (_, .throws) => .throws
      | (_, .terminate) => .terminate
      | (_, .ub) => .ub

def run : World V → List (Op V) → Outcome (World V)
  | w, [] => .ok w
  | w, op :: ops => step w op >>= fun w' => run w' ops

/-- `findErrorDomain`, errorDomain.cpp:56-65: the reference made of the pointer found (line 63) must have an object. -/
def lookup (w : World V) (id : BitVec 64) : Outcome (Option V) :=
  ErrorDomains.find w.map id >>= fun r =>
    match r with
    | none => .ok none
    | some a =>
      match w.obj a with
      | some v => .ok (some v)
      | none => .ub

/-- `Error::toString`, error.cpp:27-43. -/
def toString (alloc : Nat → Except Err MutView) (message : V → BitVec 32 → List Byte) (w : World V) (e : ErrorValue) : Outcome (List Byte) :=
  lookup w e.domain >>= fun r =>
    match r with
    | some v => .ok (message v e.code)
    | none =>
      match Str.makeConcat alloc [(Atom.toBuffer e.domain).takeWhile (· ≠ 0#8), [0x3A#8, 0x20#8], e.tag] with
      | .ok s => .ok s.view
      | .error _ => .ok []

end Solace.DomainLife
