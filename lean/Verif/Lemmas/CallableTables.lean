import Verif.Lemmas.Callable
/-
The tables behind C139: every case of callbacks with one or two parameters.
-/
namespace Solace.Callable

open Spec

instance (const : Bool) (p : Param) (r : Ret) (q : Qual) (lvalue : Bool) : Decidable (Rejected1 const p r q lvalue) := by
  unfold Rejected1; infer_instance

instance (k : Kind) (const : Bool) (i p : Param) (r : Ret) (q : Qual) (lvalue : Bool) : Decidable (Rejected2 k const i p r q lvalue) := by
  unfold Rejected2; infer_instance

/-- The ways a callback is qualified and given that matter. -/
def waysAll : List (Qual × Bool) := [(.none, true), (.rvalue, false)]

theorem view_one_table : ∀ k ∈ kindsAll, ∀ c ∈ boolsAll, ∀ const ∈ boolsAll, ∀ p ∈ paramsAll 1, ∀ w ∈ waysAll,
    (viewForEach (only k) c const ⟨.fixed [p], .void, w.1⟩ w.2 = .elements (!(c || const)) ↔
      TakesNamed k elem (c || const) p ∧ Usable w.1 w.2) ∧
    (viewForEach (only k) c const ⟨.fixed [p], .void, w.1⟩ w.2 ∈ [Compiled.elements (!(c || const)), .noMatch, .bodyError]) := by
  decide +kernel

theorem array_one_table : ∀ k ∈ kindsAll, ∀ const ∈ boolsAll, ∀ p ∈ paramsAll 1, ∀ w ∈ waysAll,
    (arrayForEach (only k) const ⟨.fixed [p], .void, w.1⟩ w.2 = .elements (!const) ↔ TakesNamed k elem const p ∧ Usable w.1 w.2) ∧
    (arrayForEach (only k) const ⟨.fixed [p], .void, w.1⟩ w.2 = .noMatch ↔ Rejected1 const p .void w.1 w.2) ∧
    (arrayForEach (only k) const ⟨.fixed [p], .void, w.1⟩ w.2 ∈ [Compiled.elements (!const), .noMatch, .bodyError]) := by
  decide +kernel

theorem array_two_table : ∀ k ∈ kindsAll, ∀ const ∈ boolsAll, ∀ i ∈ paramsAll 1, ∀ p ∈ paramsAll 1, ∀ w ∈ waysAll,
    (arrayForEach (only k) const ⟨.fixed [i, p], .void, w.1⟩ w.2 = .copies ↔
      TakesIndex i ∧ TakesNamed k elem const p ∧ Copyable k ∧ Usable w.1 w.2) ∧
    (arrayForEach (only k) const ⟨.fixed [i, p], .void, w.1⟩ w.2 = .noMatch ↔ Rejected2 k const i p .void w.1 w.2) ∧
    (arrayForEach (only k) const ⟨.fixed [i, p], .void, w.1⟩ w.2 ∈ [Compiled.copies, .noMatch, .bodyError]) := by
  decide +kernel

theorem view_two_table : ∀ k ∈ kindsAll, ∀ c ∈ boolsAll, ∀ const ∈ boolsAll, ∀ i ∈ paramsAll 1, ∀ p ∈ paramsAll 1, ∀ w ∈ waysAll,
    (viewForEach (only k) c const ⟨.fixed [i, p], .void, w.1⟩ w.2 = .copies ↔
      TakesIndex i ∧ TakesNamed k elem (c || const) p ∧ Copyable k ∧ Usable w.1 w.2) ∧
    (viewForEach (only k) c const ⟨.fixed [i, p], .void, w.1⟩ w.2 ∈ [Compiled.copies, .noMatch, .bodyError]) := by
  decide +kernel

/-! The other containers. -/

/-- The types of the text containers: `String` can only be moved, `StringView` and `Env::Var` are copied. -/
def textKinds (n : Nat) : Kind :=
  if n = string then .cls false true else if n = stringView then .cls true true else if n = var then .cls true true else .scalar

theorem string_table : ∀ p ∈ paramsAll 1, ∀ q ∈ qualsAll, ∀ lvalue ∈ boolsAll,
    (stringForEach textKinds ⟨.fixed [p], .void, q⟩ lvalue = .elements false ↔ TakesNamed .scalar elem true p ∧ Usable q lvalue) ∧
    (stringForEach textKinds ⟨.fixed [p], .void, q⟩ lvalue ∈ [Compiled.elements false, .noMatch, .bodyError]) := by
  decide +kernel

theorem path_table : ∀ const ∈ boolsAll, ∀ rvalue ∈ boolsAll, ∀ p ∈ paramsAll 4, ∀ q ∈ qualsAll, ∀ lvalue ∈ boolsAll,
    (pathForEach textKinds const rvalue ⟨.fixed [p], .void, q⟩ lvalue = .elements true ↔
      rvalue = true ∧ const = false ∧ TakesExpiring (.cls false true) string false p ∧ Usable q lvalue) ∧
    (pathForEach textKinds const rvalue ⟨.fixed [p], .void, q⟩ lvalue = .copies ↔
      ¬ (rvalue = true ∧ const = false ∧ TakesExpiring (.cls false true) string false p) ∧
        TakesExpiring (.cls true true) stringView false p ∧ Usable q lvalue) ∧
    (pathForEach textKinds const rvalue ⟨.fixed [p], .void, q⟩ lvalue ∈ [Compiled.elements true, .copies, .noMatch, .bodyError]) := by
  decide +kernel

theorem env_one_table : ∀ p ∈ paramsAll 4, ∀ q ∈ qualsAll, ∀ lvalue ∈ boolsAll,
    (envForEach textKinds ⟨.fixed [p], .void, q⟩ lvalue = .copies ↔ TakesNamed (.cls true true) var true p ∧ Usable q lvalue) ∧
    (envForEach textKinds ⟨.fixed [p], .void, q⟩ lvalue ∈ [Compiled.copies, .noMatch, .bodyError]) := by
  decide +kernel

theorem env_two_table : ∀ a ∈ paramsAll 4, ∀ b ∈ paramsAll 4, ∀ q ∈ qualsAll, ∀ lvalue ∈ boolsAll,
    (envForEach textKinds ⟨.fixed [a, b], .void, q⟩ lvalue = .copies ↔
      Usable q lvalue ∧ ((TakesPair a b ∧ ¬ TakesNumbered a b) ∨ (TakesNumbered a b ∧ ¬ TakesPair a b ∧ b.form ≠ .ref))) ∧
    (envForEach textKinds ⟨.fixed [a, b], .void, q⟩ lvalue = .ambiguous ↔
      ObjectOk q lvalue ∧ TakesPair a b ∧ TakesNumbered a b) := by
  decide +kernel

end Solace.Callable
