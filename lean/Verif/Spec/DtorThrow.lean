import Verif.Model.DtorThrow
/- What programs over containers of objects with throwing destructors have to do with them. -/
namespace Solace.DtorThrow
open Lifetime

/-- The objects that a variable is going to destroy. -/
def Var.owned : Var → List Nat
  | .vec _ es => es
  | .arr es => es
  | .opt x => x.toList

def ownedBy : Option Var → List Nat
  | none => []
  | some v => v.owned

def owned (vars : List (Option Var)) : List Nat := vars.flatMap ownedBy

/-- What happened is legal - every destructor call was for an object that was alive - and the variables own exactly the objects that are alive,
each once. -/
def Sound (w : World) : Prop :=
  ∃ s, replay ⟨[], []⟩ w.log = some s ∧ (∀ id ∈ s.seen, id < w.next) ∧ s.alive.Nodup ∧ ∀ id, (owned w.vars).count id = s.alive.count id

/-- The two calls that leave a destroyed object in a container: `= nullptr` of a vector in which a destructor throws, or of an array that has elements
at all; `emplace` over an element whose destructor throws, or whose successor's constructor throws. -/
def Hazard (nothrow : Bool) (bad : Nat → Bool) (w : World) : Op → Prop
  | .null v =>
    (∃ c es, w.get v = some (.vec c es) ∧ nothrow = false ∧ ∃ x ∈ es, bad x = true) ∨
    (∃ es, w.get v = some (.arr es) ∧ es ≠ [] ∧ (nothrow = false ∨ ∀ x ∈ es, bad x = false))
  | .emplaceAt v i throws =>
    ∃ es x, ((∃ c, w.get v = some (.vec c es)) ∨ w.get v = some (.arr es)) ∧ es[i]? = some x ∧
      ((bad x = true ∧ nothrow = false) ∨ (bad x = false ∧ throws = true))
  | _ => False

/-- The statements that destroy objects through functions that let exceptions out: these four, and the end of an optional. -/
def LetsOut (w : World) (x : Nat) : Op → Prop
  | .pop v => ∃ c es, w.get v = some (.vec c (es ++ [x]))
  | .clear v => ∃ c es fs, w.get v = some (.vec c (es ++ x :: fs))
  | .null v => ∃ y, w.get v = some y ∧ x ∈ y.owned ∧ ∀ o, y ≠ .opt o
  | .emplaceAt v i _ => ∃ es, ((∃ c, w.get v = some (.vec c es)) ∨ w.get v = some (.arr es)) ∧ es[i]? = some x
  | .optAssign v _ => w.get v = some (.opt (some x))
  | .destroy v unwinding => w.get v = some (.opt (some x)) ∧ unwinding = false
  | _ => False

end Solace.DtorThrow
