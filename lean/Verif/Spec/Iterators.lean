import Verif.Model.Iterators
/-
What programs with iterator variables are meant to see, told without any class of iterators: a variable holds a position in the
sequence of the items of the container.
-/
namespace Solace.Iterators.Spec
variable {X : Type}

/-- The position a variable holds: `none` when it is not declared, `some none` when it was moved from and may hold anything. -/
abbrev Places := Nat → Option (Option Nat)

def Places.set (p : Places) (x : Nat) (i : Option Nat) : Places := fun v => if v = x then some i else p v

/-- The position of a variable that has one. -/
def Places.pos (p : Places) (x : Nat) : Option Nat := (p x).join

/-- A statement, on positions in `xs`; `none` when the statement is not allowed. `eq`, `mv` and `tmp` tell whether the class has
`==`, an assignment from rvalues, and one from what `begin()` and `end()` return. -/
def step (xs : List X) (eq mv tmp : Bool) (p : Places) : Op → Option (Places × Obs X)
  | .newBegin x => some (p.set x (some 0), .nothing)
  | .newEnd x => some (p.set x (some xs.length), .nothing)
  | .setBegin x => if tmp = true ∧ (p x).isSome then some (p.set x (some 0), .nothing) else none
  | .setEnd x => if tmp = true ∧ (p x).isSome then some (p.set x (some xs.length), .nothing) else none
  | .copy x y => (p.pos y).map fun i => (p.set x (some i), .nothing)
  | .move x y => if x = y then none else (p.pos y).map fun i => ((p.set y none).set x (some i), .nothing)
  | .assign x y => if (p x).isSome then (p.pos y).map fun i => (p.set x (some i), .nothing) else none
  | .moveAssign x y =>
    if mv = true ∧ (p x).isSome ∧ x ≠ y then (p.pos y).map fun i => ((p.set y none).set x (some i), .nothing) else none
  | .next x => (p.pos x).bind fun i => if i < xs.length then some (p.set x (some (i + 1)), .nothing) else none
  | .deref x => (p.pos x).bind fun i => (xs[i]?).map fun v => (p, .item v)
  | .eq x y => if eq = true then (p.pos x).bind fun i => (p.pos y).map fun j => (p, .answer (decide (i = j))) else none
  | .ne x y => (p.pos x).bind fun i => (p.pos y).map fun j => (p, .answer (decide (i ≠ j)))

/-- What an allowed program sees. -/
def run (xs : List X) (eq mv tmp : Bool) : Places → List Op → Option (List (Obs X))
  | _, [] => some []
  | p, op :: ops => (step xs eq mv tmp p op).bind fun r => (run xs eq mv tmp r.1 ops).map fun os => r.2 :: os

/-- No variable is declared. -/
def start : Places := fun _ => none

/-- A class of iterators behaves like positions in `xs`: every allowed program, of any length and with any number of variables, sees
what it would see with positions. -/
def LikePositions {S : Type} (k : Kind S X) (xs : List X) : Prop :=
  ∀ ops os, run xs k.eq.isSome k.moveAssign.isSome k.setTo.isSome start ops = some os → Iterators.run k (fun _ => none) ops = .ok os

end Solace.Iterators.Spec
