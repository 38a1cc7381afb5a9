import Verif.Model.OptionalAlias
/-
What a program does to an object, without reference to the state.
-/
namespace Solace.OptAlias
variable {T : Type}

/-- The step changes the optional or ends it. -/
def TouchesOpt (i : Nat) : Step T → Prop
  | .assign k _ => k = i
  | .swap k l => k = i ∨ l = i
  | .destroy k => k = i
  | _ => False

/-- The step changes the value or ends it. -/
def TouchesVal (j : Nat) : Step T → Prop
  | .assignValue k _ => k = j
  | .destroyValue k => k = j
  | _ => False

/-- The predicate holds for the element. -/
def Passes (p : T → Bool) (o : Option T) : Prop := ∃ v, o = some v ∧ p v = true

/-- The optional is there with these contents. -/
def Holds (s : State T) (i : Nat) (o : Option T) : Prop := s.opts[i]? = some (some o)
/-- The optional was there and is gone. -/
def Gone (s : State T) (i : Nat) : Prop := s.opts[i]? = some none
/-- The value is there. -/
def HoldsVal (s : State T) (j : Nat) (v : T) : Prop := s.vals[j]? = some (some v)
def GoneVal (s : State T) (j : Nat) : Prop := s.vals[j]? = some none

end Solace.OptAlias
