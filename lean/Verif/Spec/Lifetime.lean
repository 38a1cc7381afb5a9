/-
Object lifetimes, as the C++ object model has them: an object is constructed once, is alive until it is destroyed, and may
be destroyed, or used, only while it is alive. Every construction makes a new object, told apart by a serial number.
-/
namespace Solace.Lifetime

inductive Event where
  | construct (id : Nat)
  | destroy (id : Nat)
  /-- the object is read, moved from or assigned to -/
  | use (id : Nat)
  /-- a destructor call on memory in which no object was ever constructed -/
  | destroyRaw
deriving DecidableEq, Repr

/-- Numbers used so far, and the objects that are alive. -/
structure State where
  seen : List Nat
  alive : List Nat
deriving DecidableEq, Repr

/-- One event; `none` when the event is not allowed. -/
def step (s : State) : Event → Option State
  | .construct id => if id ∈ s.seen then none else some ⟨id :: s.seen, id :: s.alive⟩
  | .destroy id => if id ∈ s.alive then some ⟨s.seen, s.alive.erase id⟩ else none
  | .use id => if id ∈ s.alive then some s else none
  | .destroyRaw => none

/-- A whole log; `none` when some event in it is not allowed. -/
def replay : State → List Event → Option State
  | s, [] => some s
  | s, e :: es =>
    match step s e with
    | none => none
    | some s' => replay s' es

/-- The objects alive after a log, `none` if the log is not a legal one. -/
def aliveAfter (log : List Event) : Option (List Nat) := (replay ⟨[], []⟩ log).map (·.alive)

/-- Every object is destroyed exactly once, and used only while it is alive. -/
def Clean (log : List Event) : Prop := aliveAfter log = some []

instance (log : List Event) : Decidable (Clean log) := inferInstanceAs (Decidable (_ = _))

example : Clean [.construct 0, .construct 1, .destroy 0, .destroy 1] := by decide
example : ¬ Clean [.construct 0, .construct 1, .destroy 0] := by decide
example : ¬ Clean [.construct 0, .destroy 0, .destroy 0] := by decide
example : ¬ Clean [.construct 0, .destroy 0, .use 0] := by decide
example : ¬ Clean [.destroy 0, .construct 0] := by decide

end Solace.Lifetime
