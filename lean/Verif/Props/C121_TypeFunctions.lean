import Verif.Model.TypeFunctions
/-
C121: the type functions against those of the standard library.
-/
namespace Solace.Ty

/-! Specification: the type functions of the C++ standard, [meta.trans]. -/

def Core.removeCv : Core → Core
  | .base i _ _ => .base i false false
  | .ptr t _ _ => .ptr t false false
  | .func i => .func i
  | .arr t b => .arr t.removeCv b

def removeReference : Ty → Core
  | .plain t => t
  | .lref t => t
  | .rref t => t

/-- `std::decay`: an array becomes a pointer to its elements, a function a pointer to it, anything else loses its
qualifiers. -/
def stdDecay (t : Ty) : Core :=
  match removeReference t with
  | .arr e _ => .ptr e false false
  | .func i => .ptr (.func i) false false
  | u => u.removeCv

/-- `std::remove_const`. -/
def Core.unconst : Core → Core
  | .base i _ v => .base i false v
  | .ptr t _ v => .ptr t false v
  | .func i => .func i
  | .arr t b => .arr t.unconst b

def isArray : Core → Bool
  | .arr _ _ => true
  | _ => false

def isFunction : Core → Bool
  | .func _ => true
  | _ => false

/-! Which specialisation is chosen. -/

theorem setConst_self (t : Core) (h : t.isConst = k) : t.setConst k = t := by
  induction t with
  | base i c v => simp only [Core.isConst] at h; rw [Core.setConst, h]
  | ptr t c v _ => simp only [Core.isConst] at h; rw [Core.setConst, h]
  | func i => rfl
  | arr t b ih => rw [Core.setConst, ih h]

theorem setConst_twice (t : Core) (k l : Bool) : (t.setConst k).setConst l = t.setConst l := by
  induction t with
  | base i c v => rfl
  | ptr t c v _ => rfl
  | func i => rfl
  | arr t b ih => rw [Core.setConst, Core.setConst, ih, Core.setConst]

theorem select_lref (t : Core) : select (.lref t) = some .lref := by
  simp [select, Pat.all, Pat.matches, Pat.bind, Pat.above, Pat.sample]

theorem select_rref (t : Core) : select (.rref t) = some .rref := by
  simp [select, Pat.all, Pat.matches, Pat.bind, Pat.above, Pat.sample]

theorem select_func (i : Nat) : select (.plain (.func i)) = some .any := by
  simp [select, Pat.all, Pat.matches, Pat.bind, Pat.above, Pat.sample, Core.isConst, Core.isVolatile]

theorem select_base (i : Nat) (c v : Bool) :
    select (.plain (.base i c v)) =
      if c && v then none else if c then some .const else if v then some .volatile else some .any := by
  cases c <;> cases v <;> simp [select, Pat.all, Pat.matches, Pat.bind, Pat.above, Pat.sample, Core.isConst, Core.isVolatile]

theorem select_ptr (t : Core) (c v : Bool) :
    select (.plain (.ptr t c v)) =
      if c && v then none else if c then some .const else if v then some .volatile else some .any := by
  cases c <;> cases v <;> simp [select, Pat.all, Pat.matches, Pat.bind, Pat.above, Pat.sample, Core.isConst, Core.isVolatile]

theorem select_arr (t : Core) (b : Option Nat) :
    select (.plain (.arr t b)) =
      if t.isVolatile then none
      else match b with
        | none => if t.isConst then some .constArr else some .arr
        | some _ => if t.isConst then some .constArrN else some .arrN := by
  cases b <;> cases hc : t.isConst <;> cases hv : t.isVolatile <;>
    simp [select, Pat.all, Pat.matches, Pat.bind, Pat.above, Pat.sample, Core.isConst, Core.isVolatile, hc, hv]

/-- The types for which the choice is ambiguous: const and volatile at once, and arrays of volatile elements. -/
def ambiguous (t : Core) : Bool := t.isVolatile && (t.isConst || isArray t)

theorem decay_plain (t : Core) (fuel : Nat) :
    decayIn (fuel + 2) (.plain t) = some
      (if ambiguous t then .illFormed else if isFunction t then .type (.plain t) else .type (.plain (stdDecay (.plain t)))) := by
  cases t with
  | base i c v =>
    cases c <;> cases v <;>
      simp [decayIn, select_base, Pat.bind, Pat.next, ambiguous, Core.isConst, Core.isVolatile, isArray, isFunction, stdDecay,
        removeReference, Core.removeCv, Core.setConst, Core.setVolatile]
  | ptr t c v =>
    cases c <;> cases v <;>
      simp [decayIn, select_ptr, Pat.bind, Pat.next, ambiguous, Core.isConst, Core.isVolatile, isArray, isFunction, stdDecay,
        removeReference, Core.removeCv, Core.setConst, Core.setVolatile]
  | func i => simp [decayIn, select_func, ambiguous, Core.isVolatile, isFunction]
  | arr t b =>
    cases hv : t.isVolatile <;> cases hc : t.isConst <;> cases b <;>
      simp [decayIn, select_arr, select_ptr, hv, hc, Pat.bind, Pat.next, ambiguous, Core.isVolatile, isArray, isFunction,
        stdDecay, removeReference, setConst_twice, setConst_self]

/-- **C121** (full): what `Decay` gives for every type, after at most three instantiations: nothing (the specialisations are
ambiguous) for types that are const and volatile at once and for arrays of volatile elements, the function type itself for a
function, and the type `std::decay` gives for all others. -/
theorem C121_decay_exact (t : Ty) (fuel : Nat) (hf : 3 ≤ fuel) :
    decayIn fuel t = some
      (if ambiguous (removeReference t) then .illFormed
       else if isFunction (removeReference t) then .type (.plain (removeReference t))
       else .type (.plain (stdDecay t))) := by
  obtain ⟨f, rfl⟩ : ∃ f, fuel = f + 3 := ⟨fuel - 3, by omega⟩
  cases t with
  | plain t => exact decay_plain t (f + 1)
  | lref t =>
    have := decay_plain t f
    rw [decayIn, select_lref]
    exact this
  | rref t =>
    have := decay_plain t f
    rw [decayIn, select_rref]
    exact this

example : 3 ≤ 3 := by decide

/-- **C121**: the full claim, that `Decay` is `std::decay`, is false: for a function type, and for a const volatile type. -/
theorem C121_decay_false :
    decayIn 3 (.lref (.func 0)) ≠ some (.type (.plain (stdDecay (.lref (.func 0))))) ∧
    decayIn 3 (.plain (.base 0 true true)) ≠ some (.type (.plain (stdDecay (.plain (.base 0 true true))))) ∧
    decayIn 3 (.plain (.arr (.base 0 false true) (some 4))) ≠
      some (.type (.plain (stdDecay (.plain (.arr (.base 0 false true) (some 4)))))) := by decide

/-- **C121** (partial: functions, const volatile types and volatile arrays are excluded, see `C121_decay_false`): `Decay` is
`std::decay`. The exclusion is exact. -/
theorem C121_decay_partial (t : Ty) (fuel : Nat) (hf : 3 ≤ fuel) :
    decayIn fuel t = some (.type (.plain (stdDecay t))) ↔
      ambiguous (removeReference t) = false ∧ isFunction (removeReference t) = false := by
  rw [C121_decay_exact t fuel hf]
  cases ha : ambiguous (removeReference t)
  · cases hfn : isFunction (removeReference t)
    · simp
    · simp only [Bool.false_eq_true, if_false, if_true, Option.some.injEq, Found.type.injEq, Ty.plain.injEq, reduceCtorEq,
        and_false, iff_false]
      intro h
      rw [stdDecay] at h
      cases hr : removeReference t with
      | func i => rw [hr] at h; cases h
      | base _ _ _ => rw [hr] at hfn; cases hfn
      | ptr _ _ _ => rw [hr] at hfn; cases hfn
      | arr _ _ => rw [hr] at hfn; cases hfn
  · simp

/-- **C121** (full): `Decay` of a decayed type is that type. -/
theorem C121_decay_idempotent (t u : Ty) (fuel : Nat) (hf : 3 ≤ fuel) (h : decayIn fuel t = some (.type u)) :
    decayIn fuel u = some (.type u) := by
  rw [C121_decay_exact t fuel hf] at h
  by_cases ha : ambiguous (removeReference t) = true
  · rw [if_pos ha] at h; cases h
  · rw [if_neg ha] at h
    by_cases hfn : isFunction (removeReference t) = true
    · rw [if_pos hfn] at h
      cases h
      rw [C121_decay_exact _ fuel hf]
      show some (if ambiguous (removeReference t) = true then _ else if isFunction (removeReference t) = true then _ else _) = _
      rw [if_neg ha, if_pos hfn]
      rfl
    · rw [if_neg hfn] at h
      cases h
      rw [C121_decay_exact _ fuel hf]
      unfold stdDecay
      cases hr : removeReference t with
      | func i => rw [hr] at hfn; exact absurd rfl hfn
      | base _ _ _ => rfl
      | ptr _ _ _ => rfl
      | arr _ _ => rfl

example : decayIn 3 (.lref (.arr (.base 1 true false) (some 2))) = some (.type (.plain (.ptr (.base 1 true false) false false))) := by
  decide

/-- **C121** (full): `RemoveConst` is `std::remove_const`. -/
theorem C121_remove_const (t : Core) :
    removeConst (.plain t) = .plain t.unconst ∧ removeConst (.lref t) = .lref t ∧ removeConst (.rref t) = .rref t := by
  refine ⟨?_, rfl, rfl⟩
  have h : t.unconst = t.setConst false := by
    induction t with
    | base i c v => rfl
    | ptr t c v _ => rfl
    | func i => rfl
    | arr t b ih => rw [Core.unconst, ih, Core.setConst]
  rw [h, removeConst]
  cases hc : t.isConst
  · rw [setConst_self t hc]; rfl
  · rfl

theorem decay_deduced (lvalue : Bool) (x : Core) (fuel : Nat) (hf : 3 ≤ fuel) :
    decayIn fuel (deduced lvalue x) = some
      (if ambiguous x then .illFormed else if isFunction x then .type (.plain x) else .type (.plain (stdDecay (.plain x)))) := by
  rw [C121_decay_exact _ fuel hf]
  cases lvalue <;> rfl

/-- **C121** (full): what `mv` gives for an argument of every type: for an array without volatile elements a reference to a
pointer that is gone when `mv` returns; the argument as an rvalue of its type (as `std::move` does) when it is neither const
nor volatile; otherwise the call does not compile. -/
theorem C121_mv_exact (lvalue : Bool) (x : Core) (fuel : Nat) (hf : 3 ≤ fuel) :
    mv fuel lvalue x = some
      (match x with
        | .arr e _ => if e.isVolatile then .illFormed else .temporary (.ptr e false false)
        | _ => if x.isConst || x.isVolatile then .illFormed else .same (.rref x)) := by
  rw [mv, decay_deduced lvalue x fuel hf]
  cases x with
  | func i =>
    simp [ambiguous, Core.isConst, Core.isVolatile, isFunction, isArray, castRref, Core.setConst, Core.setVolatile]
  | base i c v =>
    cases c <;> cases v <;>
      simp [ambiguous, Core.isConst, Core.isVolatile, isFunction, isArray, stdDecay, removeReference, castRref,
          Core.removeCv, Core.setConst, Core.setVolatile]
  | ptr t c v =>
    cases c <;> cases v <;>
      simp [ambiguous, Core.isConst, Core.isVolatile, isFunction, isArray, stdDecay, removeReference, castRref,
          Core.removeCv, Core.setConst, Core.setVolatile]
  | arr e b =>
    simp only [ambiguous, Core.isVolatile, isArray, Bool.or_true, Bool.and_true, isFunction]
    cases hv : e.isVolatile
    · simp only [Bool.false_eq_true, if_false, stdDecay, removeReference, castRref]
      rw [if_neg (by simp [Core.setConst, Core.setVolatile])]
      simp
    · simp

/-- **C121** (full): `mv` does what `std::move` does exactly for arguments that are neither const nor volatile nor arrays. -/
theorem C121_mv_is_move (lvalue : Bool) (x : Core) (fuel : Nat) (hf : 3 ≤ fuel) :
    mv fuel lvalue x = some (.same (.rref x)) ↔ x.isConst = false ∧ x.isVolatile = false ∧ isArray x = false := by
  rw [C121_mv_exact lvalue x fuel hf]
  cases x with
  | func i => simp [Core.isConst, Core.isVolatile, isArray]
  | base i c v => cases c <;> cases v <;> simp [Core.isConst, Core.isVolatile, isArray]
  | ptr t c v => cases c <;> cases v <;> simp [Core.isConst, Core.isVolatile, isArray]
  | arr e b => cases hv : e.isVolatile <;> simp [isArray, hv]

/-- **C121** (full): `RefOrRValue<T>` is `T&&`. -/
theorem C121_ref_or_rvalue (t : Ty) : refOrRValue t = t.addRref := by cases t <;> rfl

/-- **C121** (full): forwarding is perfect: for an argument of any type and either category, `fwd<T>` applied to the parameter
of a forwarding reference gives an lvalue of the argument's type for an lvalue and an rvalue of it for an rvalue. -/
theorem C121_forward (lvalue : Bool) (x : Core) :
    fwd (deduced lvalue x) true x = .same (if lvalue then .lref x else .rref x) := by
  cases lvalue <;> simp [fwd, deduced, Ty.addLref, Ty.addRref]

/-- **C121** (full): `fwd` applied to an rvalue compiles only for types that are const and not volatile (`std::forward` has an
overload for rvalues), and then gives an rvalue unless `T` is an lvalue reference. -/
theorem C121_forward_rvalue (t : Ty) (x : Core) :
    fwd t false x = .illFormed ∨
      (removeReference t = x ∧ x.isConst = true ∧ x.isVolatile = false ∧ fwd t false x = .same t.addRref) := by
  have hl : t.addLref = .lref (removeReference t) := by cases t <;> rfl
  rw [fwd, hl]
  simp only
  by_cases h : removeReference t = x
  · subst h
    cases hc : (removeReference t).isConst <;> cases hv : (removeReference t).isVolatile <;> simp
  · rw [if_neg h]; exact .inl rfl

example : fwd (.plain (.base 0 true false)) false (.base 0 true false) = .same (.rref (.base 0 true false)) := by decide

end Solace.Ty
