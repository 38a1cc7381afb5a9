import Verif.Model.ResultCompare
/-
C89: results are equal exactly when they are both values or both errors, and these are equal.
-/
namespace Solace.Res

/-- When two results should be equal, given when values and errors are. -/
inductive Same (sV : V → V → Prop) (sE : E → E → Prop) : Res V E → Res V E → Prop where
  | ok {x y : V} : sV x y → Same sV sE (.ok x) (.ok y)
  | err {x y : E} : sE x y → Same sV sE (.err x) (.err y)

/-- The comparison `f` decides `s`. -/
def Decides {A : Type} (f : A → A → Outcome Bool) (s : A → A → Prop) : Prop :=
  ∀ x y, (f x y = .ok true ∧ s x y) ∨ (f x y = .ok false ∧ ¬ s x y)

/-- **C89** (full): comparison of two results, for comparisons of values and errors that do not throw. -/
theorem C89_results (eqV : V → V → Outcome Bool) (eqE : E → E → Outcome Bool) (sV : V → V → Prop) (sE : E → E → Prop)
    (hV : Decides eqV sV) (hE : Decides eqE sE) : Decides (eq eqV eqE) (Same sV sE) := by
  intro a b
  cases a with
  | ok x =>
    cases b with
    | ok y =>
      rcases hV x y with ⟨h, hs⟩ | ⟨h, hs⟩
      · left
        exact ⟨by simp [eq, either, both, isOk, isError, unwrap, h, Outcome.noexcept], .ok hs⟩
      · right
        refine ⟨by simp [eq, either, both, isOk, isError, unwrap, h, Outcome.noexcept], ?_⟩
        rintro (hc | _)
        exact hs hc
    | err y =>
      right
      exact ⟨by simp [eq, either, both, isOk, isError, Outcome.noexcept], by rintro (_ | _)⟩
  | err x =>
    cases b with
    | ok y =>
      right
      exact ⟨by simp [eq, either, both, isOk, isError, Outcome.noexcept], by rintro (_ | _)⟩
    | err y =>
      rcases hE x y with ⟨h, hs⟩ | ⟨h, hs⟩
      · left
        exact ⟨by simp [eq, either, both, isOk, isError, getError, h, Outcome.noexcept], .err hs⟩
      · right
        refine ⟨by simp [eq, either, both, isOk, isError, getError, h, Outcome.noexcept], ?_⟩
        rintro (_ | hc)
        exact hs hc

/-- **C89** (full): equality of results is an equivalence relation when those of values and errors are. -/
theorem C89_equivalence (sV : V → V → Prop) (sE : E → E → Prop) (hV : Equivalence sV) (hE : Equivalence sE) :
    Equivalence (Same sV sE) := by
  refine ⟨fun a => ?_, fun h => ?_, fun h g => ?_⟩
  · cases a with
    | ok v => exact .ok (hV.refl v)
    | err e => exact .err (hE.refl e)
  · cases h with
    | ok h => exact .ok (hV.symm h)
    | err h => exact .err (hE.symm h)
  · cases h with
    | ok h => cases g with | ok g => exact .ok (hV.trans h g)
    | err h => cases g with | err g => exact .err (hE.trans h g)

/-- **C89** (full): comparison of a result with a value or an error, also one wrapped in `Ok` or `Err`, is comparison with
the result made from it; `!=` is the negation. -/
theorem C89_values (eqV neV : V → V → Outcome Bool) (eqE : E → E → Outcome Bool) (sV : V → V → Prop) (sE : E → E → Prop)
    (hV : Decides eqV sV) (hN : Decides neV fun x y => ¬ sV x y) (hE : Decides eqE sE) (r : Res V E) (v : V) (e : E) :
    (eqOk eqV r v = eq eqV eqE r (make (.okOf v))) ∧
    (eqErr eqE r e = eq eqV eqE r (make (.errOf e))) ∧
    (eqValue eqV v r = eq eqV eqE r (make (.value v))) ∧
    (neValue neV v r = .ok true ↔ eqValue eqV v r = .ok false) ∧
    (neValue neV v r = .ok false ↔ eqValue eqV v r = .ok true) := by
  cases r with
  | ok x =>
    have h1 := hV x v
    have h2 := hN x v
    refine ⟨?_, ?_, ?_, ?_, ?_⟩
    · rcases h1 with ⟨h, _⟩ | ⟨h, _⟩ <;>
        simp [eqOk, eq, make, either, both, isOk, isError, unwrap, h, Outcome.noexcept]
    · simp [eqErr, eq, make, either, both, isOk, isError, Outcome.noexcept]
    · rcases h1 with ⟨h, _⟩ | ⟨h, _⟩ <;>
        simp [eqValue, eq, make, either, both, isOk, isError, unwrap, h, Outcome.noexcept]
    · rcases h1 with ⟨h, hs⟩ | ⟨h, hs⟩ <;> rcases h2 with ⟨g, gs⟩ | ⟨g, gs⟩ <;>
        simp [eqValue, neValue, either, both, isOk, isError, unwrap, h, g]
      · exact gs hs
      · exact gs hs
    · rcases h1 with ⟨h, hs⟩ | ⟨h, hs⟩ <;> rcases h2 with ⟨g, gs⟩ | ⟨g, gs⟩ <;>
        simp [eqValue, neValue, either, both, isOk, isError, unwrap, h, g]
      · exact gs hs
      · exact gs hs
  | err x =>
    have h1 := hE x e
    refine ⟨?_, ?_, ?_, ?_, ?_⟩
    · simp [eqOk, eq, make, either, both, isOk, isError, Outcome.noexcept]
    · rcases h1 with ⟨h, _⟩ | ⟨h, _⟩ <;>
        simp [eqErr, eq, make, either, both, isOk, isError, getError, h, Outcome.noexcept]
    · simp [eqValue, eq, make, either, both, isOk, isError, Outcome.noexcept]
    · simp [eqValue, neValue, either, both, isOk, isError]
    · simp [eqValue, neValue, either, both, isOk, isError]

/-- **C89** (full), `Result<void, E>`: two are equal exactly when both are fine or both are errors that are equal; being equal
to `none` is being fine. -/
theorem C89_void (eqE : E → E → Outcome Bool) (sE : E → E → Prop) (hE : Decides eqE sE) (a b : Option E) :
    (voidEq eqE a b = .ok true ↔ (a = none ∧ b = none) ∨ ∃ x y, a = some x ∧ b = some y ∧ sE x y) ∧
    (voidEq eqE a b = .ok true ∨ voidEq eqE a b = .ok false) ∧
    (voidEqNone a = true ↔ a = none) ∧ (voidNeNone a = true ↔ a ≠ none) := by
  cases a with
  | none =>
    cases b <;> simp [voidEq, either, both, voidIsOk, voidEqNone, voidNeNone, Outcome.noexcept]
  | some x =>
    cases b with
    | none => simp [voidEq, either, both, voidIsOk, voidEqNone, voidNeNone, Outcome.noexcept]
    | some y =>
      rcases hE x y with ⟨h, hs⟩ | ⟨h, hs⟩ <;>
        simp [voidEq, either, both, voidIsOk, voidEqNone, voidNeNone, voidGetError, Opt.get, h, hs, Outcome.noexcept]

/-- **C89**: comparison of two results ends the program when the comparison of two values throws; compared with a value only,
the exception reaches the caller. -/
theorem C89_throwing (eqV : V → V → Outcome Bool) (eqE : E → E → Outcome Bool) (x y : V) (h : eqV x y = .throws) :
    eq eqV eqE (.ok x : Res V E) (.ok y) = .terminate ∧ eqValue eqV y (.ok x : Res V E) = .throws := by
  refine ⟨?_, ?_⟩
  · simp [eq, either, both, isOk, unwrap, h, Outcome.noexcept, bind, Outcome.bind]
  · simp [eqValue, both, isOk, unwrap, h]

/-- **C89** (full): moving a result keeps its state and content; the source stays in its state. -/
theorem C89_move (conv : V → U) (mV : V → V) (mE : E → E) (r : Res V E) :
    (∀ v, r = .ok v → (moveCtor conv mV mE r).1 = .ok (conv v)) ∧
    (∀ e, r = .err e → (moveCtor conv mV mE r).1 = .err e) ∧
    isOk (moveCtor conv mV mE r).2 = isOk r ∧ isOk (moveCtor conv mV mE r).1 = isOk r := by
  cases r <;> simp [moveCtor, isOk]

/-- **C89** (full): `optional || value` is the content if there is any. -/
theorem C89_or (a : Option T) (v : T) : optionalOr a v = a.getD v := by
  cases a <;> rfl

example : Decides (fun x y : Nat => .ok (x == y)) (fun x y => x = y) := by
  intro x y
  by_cases h : x = y <;> simp [h]
example : Decides (fun x y : Nat => .ok (x != y)) (fun x y => ¬ x = y) := by
  intro x y
  by_cases h : x = y <;> simp [h]

end Solace.Res
