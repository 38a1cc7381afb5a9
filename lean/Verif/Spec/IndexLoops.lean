import Verif.Model.IndexLoops
/- What a loop by index asks of its body. -/
namespace Solace.Nested

/-- The variables a statement names. -/
def Op.names : Op → List Nat
  | .string _ => []
  | .fresh _ => []
  | .vector _ _ => []
  | .vectorOf _ is => is
  | .array _ _ _ => []
  | .arrayOf _ is => is
  | .dictionary _ _ _ => []
  | .dictionaryOf i j => [i, j]
  | .push i j => [i, j]
  | .pop i => [i]
  | .clear i => [i]
  | .toArray i => [i]
  | .put i j k => [i, j, k]
  | .take i _ => [i]
  | .store i _ j => [i, j]
  | .fetch i _ => [i]
  | .change i _ j => [i, j]
  | .moveCtor i => [i]
  | .assign i j => [i, j]
  | .swap i j => [i, j]
  | .null i => [i]
  | .destroy i => [i]

/-- The statement has nothing to do with variable `i`, or adds an element to it. -/
def Adds (i : Nat) (o : Op) : Prop := i ∉ o.names ∨ ∃ j, o = .push i j

/-- The statement has nothing to do with variable `i`, or adds, removes or exchanges elements of it: the container stays the same one. -/
def Keeps (i : Nat) (o : Op) : Prop :=
  i ∉ o.names ∨ (∃ j, o = .push i j) ∨ o = .pop i ∨ o = .clear i ∨ (∃ k, o = .take i k) ∨ ∃ k j, o = .store i k j

/-- Statements that are defined in every state (C132): not the ones that make containers of given elements, whose sizes may wrap; not `find` in
dictionaries, whose vectors may differ in length; not the assignment of `nullptr`. -/
def Tame : Op → Prop
  | .vectorOf _ _ => False
  | .arrayOf _ _ => False
  | .fetch _ _ => False
  | .change _ _ _ => False
  | .null _ => False
  | _ => True

end Solace.Nested
