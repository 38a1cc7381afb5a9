import Verif.Lemmas.OptionalConvert
/-! C142: optionals are made and assigned with the content of their argument. -/
namespace Solace.OptConv

/-- The rule for the payloads with the values it gives. -/
def outcome (rule : Option ((Nat → Nat) × (Nat → Nat))) (d : Nat) (v : Val) : Option (Val × Val) :=
  rule.map fun r => (spread d r.1 v, spread 0 r.2 v)

theorem outcome_some (rule d v) : outcome rule d (.some v) = (outcome rule d v).map fun r => (.some r.1, .some r.2) := by
  cases rule <;> rfl

/-- Elementwise construction all the way down, for one way of handing on the argument. -/
theorem make_down (lib : Lib) (k j : Nat) (c : Bool) (cat : Cat) (hc : cat ≠ .prvalue)
    (step : ∀ n m, m ≤ n → (c = true → n ≠ m ∨ j ≠ k) →
      plan lib (.opt (nest n k)) ⟨.opt (nest m j), c, cat⟩ = (plan lib (nest n k) ⟨nest m j, c, cat⟩).map .each) :
    ∀ n m, m ≤ n → (c = true → m = 0 ∨ n ≠ m ∨ j ≠ k) →
      ((plan lib (nest n k) ⟨nest m j, c, cat⟩).isSome = (leafRule lib j k (!c && cat = .xvalue)).isSome) ∧
      ∀ v, HasTy (nest m j) v →
        make lib (nest n k) ⟨nest m j, c, cat⟩ v = outcome (leafRule lib j k (!c && cat = .xvalue)) (n - m) v
  | n, 0, _, _ => by
    refine ⟨plan_isSome lib n k j c cat hc, fun v hv => ?_⟩
    cases v with
    | leaf x => exact make_value lib j k c cat hc x n
    | none => cases hv
    | some x => cases hv
  | 0, m + 1, h, _ => by omega
  | n + 1, m + 1, h, hs => by
    have h' : m ≤ n := by omega
    have hs' : c = true → n ≠ m ∨ j ≠ k := fun e => by
      rcases hs e with h | h | h
      · omega
      · exact .inl (by omega)
      · exact .inr h
    obtain ⟨i1, i2⟩ := make_down lib k j c cat hc step n m h' fun e => .inr (hs' e)
    have st := step n m h' hs'
    refine ⟨?_, fun v hv => ?_⟩
    · rw [nest, nest, st, Option.isSome_map, i1]
    · rw [nest, nest, make_each lib _ (nest m j) _ _ st v hv, Nat.add_sub_add_right]
      cases v with
      | leaf x => cases hv
      | none =>
        dsimp only
        rw [outcome]
        cases hp : plan lib (nest n k) ⟨nest m j, c, cat⟩ <;> cases hr : leafRule lib j k (!c && cat = .xvalue) <;>
          simp [hp, hr] at i1 <;> rfl
      | some x =>
        dsimp only
        rw [i2 x hv, outcome_some]

/-- **C142**: making an optional from something that is not const and not nested deeper compiles exactly if the payload types allow it.
Each payload of the argument is then in the result, in as many more optionals as the result is nested deeper; what is empty is empty in
the result. An lvalue keeps its content, an xvalue its shape: only payloads of the same type are moved from. -/
theorem C142_make (lib : Lib) (n m k j : Nat) (h : m ≤ n) (move : Bool) (v : Val) (hv : HasTy (nest m j) v) :
    make lib (nest n k) ⟨nest m j, false, if move then .xvalue else .lvalue⟩ v =
      (leafRule lib j k move).map fun r => (spread (n - m) r.1 v, spread 0 r.2 v) := by
  cases move with
  | true =>
    exact (make_down lib k j false .xvalue (by simp) (fun n m _ _ => plan_xvalue lib _ _) n m h (by simp)).2 v hv
  | false =>
    exact (make_down lib k j false .lvalue (by simp) (fun n m _ _ => plan_lvalue lib _ _) n m h (by simp)).2 v hv

/-- **C142, negation**: a const lvalue is taken in the same way, except that an optional cannot be copied from a const one of its own
type: its copy constructor is deleted. -/
theorem C142_make_const (lib : Lib) (n m k j : Nat) (h : m ≤ n) (v : Val) (hv : HasTy (nest m j) v) :
    make lib (nest n k) ⟨nest m j, true, .lvalue⟩ v =
      if 0 < m ∧ n = m ∧ j = k then none else (leafRule lib j k false).map fun r => (spread (n - m) r.1 v, spread 0 r.2 v) := by
  by_cases hs : 0 < m ∧ n = m ∧ j = k
  · rw [if_pos hs]
    obtain ⟨h0, rfl, rfl⟩ := hs
    match n, h0 with
    | n + 1, _ => rw [nest, make, plan_const, if_pos rfl]; rfl
  · rw [if_neg hs]
    refine (make_down lib k j true .lvalue (by simp) (fun n m hm hne => ?_) n m h (fun _ => ?_)).2 v hv
    · rw [plan_const, if_neg]
      intro e
      obtain ⟨a, b⟩ := (nest_inj _ _ _ _).mp e
      rcases hne rfl with q | q
      · exact q a.symm
      · exact q b
    · by_cases m0 : m = 0
      · exact .inl m0
      · by_cases e : n = m
        · exact .inr (.inr fun ej => hs ⟨by omega, e, ej⟩)
        · exact .inr (.inl e)

theorem engaged_bool (lib : Lib) (t : Ty) (c : Bool) (cat : Cat) (k : Nat) (v : Val) (hv : HasTy (.opt t) v) :
    make lib (.base k) ⟨.opt t, c, cat⟩ v = if k = 0 then some (.leaf (engaged v), v) else none := by
  rw [make, plan]
  dsimp only
  by_cases h : k = 0
  · rw [if_pos h, if_pos h]
    cases v with
    | leaf x => cases hv
    | none => rfl
    | some x => rfl
  · rw [if_neg h, if_neg h]
    rfl

theorem plan_bool (lib : Lib) (t : Ty) (c : Bool) (cat : Cat) (k : Nat) :
    (plan lib (.base k) ⟨.opt t, c, cat⟩).isSome = decide (k = 0) := by
  rw [plan]
  dsimp only
  by_cases h : k = 0
  · rw [if_pos h]; simp [h]
  · rw [if_neg h]; simp [h]

theorem ask_down (lib : Lib) (k j : Nat) (c : Bool) (cat : Cat)
    (step : ∀ n m, n < m →
      plan lib (.opt (nest n k)) ⟨.opt (nest m j), c, cat⟩ = (plan lib (nest n k) ⟨nest m j, c, cat⟩).map .each) :
    ∀ n m, n < m →
      ((plan lib (nest n k) ⟨nest m j, c, cat⟩).isSome = decide (k = 0)) ∧
      ∀ v, HasTy (nest m j) v → make lib (nest n k) ⟨nest m j, c, cat⟩ v = if k = 0 then some (ask n v, v) else none
  | 0, m + 1, _ => ⟨plan_bool lib _ c cat k, fun v hv => engaged_bool lib (nest m j) c cat k v hv⟩
  | 0, 0, h => by omega
  | n + 1, 0, h => by omega
  | n + 1, m + 1, h => by
    obtain ⟨i1, i2⟩ := ask_down lib k j c cat step n m (by omega)
    have st := step n m (by omega)
    refine ⟨by rw [nest, nest, st, Option.isSome_map, i1], fun v hv => ?_⟩
    rw [nest, nest, make_each lib _ (nest m j) _ _ st v hv]
    cases v with
    | leaf x => cases hv
    | none =>
      dsimp only
      cases hp : plan lib (nest n k) ⟨nest m j, c, cat⟩ <;> rw [hp] at i1 <;> by_cases hk : k = 0 <;> simp [hk] at i1 <;> simp [hk, ask]
    | some x =>
      dsimp only
      rw [i2 x hv]
      by_cases hk : k = 0 <;> simp [hk, ask]

/-- **C142, negation**: an optional nested less deep than its argument can be made only with payload `bool`, and then it does not hold
a payload of the argument but whether the argument has content at that depth: `Optional<bool>` of an `Optional<Optional<bool>>` that
holds `false` is `true`. -/
theorem C142_deeper (lib : Lib) (n m k j : Nat) (h : n < m) (e : Expr)
    (he : e = ⟨nest m j, false, .lvalue⟩ ∨ e = ⟨nest m j, true, .lvalue⟩ ∨ e = ⟨nest m j, false, .xvalue⟩) (v : Val) (hv : HasTy (nest m j) v) :
    make lib (nest n k) e v = if k = 0 then some (ask n v, v) else none := by
  rcases he with rfl | rfl | rfl
  · exact (ask_down lib k j false .lvalue (fun n m _ => plan_lvalue lib _ _) n m h).2 v hv
  · refine (ask_down lib k j true .lvalue (fun n m hm => ?_) n m h).2 v hv
    rw [plan_const, if_neg]
    intro e
    have := ((nest_inj _ _ _ _).mp e).1
    omega
  · exact (ask_down lib k j false .xvalue (fun n m _ => plan_xvalue lib _ _) n m h).2 v hv

/-- **C142, negation**: from a const xvalue (`std::move` of a const optional) an optional cannot be made at all, unless its payload type
is `bool`: then it holds, at whatever depth, whether the argument has content. -/
theorem C142_const_rvalue (lib : Lib) (n m k j : Nat) (v : Val) (hv : HasTy (nest (m + 1) j) v) :
    make lib (nest n k) ⟨nest (m + 1) j, true, .xvalue⟩ v = if k = 0 then some (wraps n (.leaf (engaged v)), v) else none := by
  induction n with
  | zero => exact engaged_bool lib (nest m j) true .xvalue k v hv
  | succ n ih =>
    have := make_wrap lib (nest n k) _ _ (plan_const_xvalue lib (nest n k) (nest m j)) v
    rw [← nest, ← nest] at this
    rw [this, ih]
    by_cases hk : k = 0 <;> simp [hk, wraps]

/-- A const xvalue of a payload type is copied or converted. -/
theorem C142_const_value (lib : Lib) (n k j x : Nat) :
    make lib (nest n k) ⟨.base j, true, .xvalue⟩ (.leaf x) =
      (leafRule lib j k false).map fun r => (wraps n (.leaf (r.1 x)), .leaf (r.2 x)) :=
  make_value lib j k true .xvalue (by simp) x n

/-- **C142**: a prvalue (the result of a function) of the type itself, const or not, is the new object; one of another type is taken
like an xvalue. -/
theorem C142_prvalue (lib : Lib) (n m k j : Nat) (c : Bool) (v : Val) :
    make lib (nest n k) ⟨nest m j, c, .prvalue⟩ v =
      if n = m ∧ k = j then some (v, v) else make lib (nest n k) ⟨nest m j, c, .xvalue⟩ v := by
  by_cases h : n = m ∧ k = j
  · rw [if_pos h]
    obtain ⟨rfl, rfl⟩ := h
    cases n with
    | zero => simp [nest, make, plan, Plan.run]
    | succ n => rw [nest, make, plan, if_pos ⟨rfl, rfl⟩]; rfl
  · rw [if_neg h, make, make]
    congr 1
    cases n with
    | zero =>
      cases m with
      | zero =>
        have : ¬j = k := fun e => h ⟨rfl, e.symm⟩
        rw [nest, nest, plan, plan]
        dsimp only
        rw [if_neg this, if_neg this]
      | succ m => rfl
    | succ n =>
      cases m with
      | zero => rw [nest, nest, plan_base, plan_base]; rfl
      | succ m =>
        have ne : ¬(Ty.opt (nest m j) = Ty.opt (nest n k)) := fun e => by
          obtain ⟨a, b⟩ := (nest_inj (m + 1) (n + 1) j k).mp e
          exact h ⟨a.symm, b.symm⟩
        rw [nest, nest]
        cases c with
        | false => rw [plan_xvalue, plan, if_neg (fun q => ne q.2), choose_rvalue _ _ _ (by simp)]
        | true => rw [plan_const_xvalue, plan, if_neg (fun q => ne q.2), choose_const_rvalue _ _ _ (by simp)]; rfl

/-- **C142**: `in_place` makes an engaged optional from every argument its payload can be made from; so an empty optional is kept as
the content of an engaged one, which no other constructor does. -/
theorem C142_in_place (lib : Lib) (n m k j : Nat) (h : m ≤ n) (move : Bool) (v : Val) (hv : HasTy (nest m j) v) :
    makeInPlace lib (nest n k) ⟨nest m j, false, if move then .xvalue else .lvalue⟩ v =
      (leafRule lib j k move).map fun r => (.some (spread (n - m) r.1 v), spread 0 r.2 v) := by
  have := C142_make lib n m k j h move v hv
  rw [makeInPlace]
  have e : (if (Expr.isL ⟨nest m j, false, if move then .xvalue else .lvalue⟩) = true then Cat.lvalue else .xvalue) =
      if move then .xvalue else .lvalue := by cases move <;> rfl
  dsimp only
  rw [e, this, Option.map_map]
  rfl

/-- **C142, negation**: an optional of an optional that is empty is empty, although its argument is a value of its payload type. -/
theorem C142_flattens (lib : Lib) (n k : Nat) (hk : lib.copyable k = true) :
    make lib (nest (n + 2) k) ⟨nest (n + 1) k, false, .lvalue⟩ .none = some (.none, .none) ∧
    makeInPlace lib (nest (n + 1) k) ⟨nest (n + 1) k, false, .lvalue⟩ .none = some (.some .none, .none) := by
  have hr : leafRule lib k k false = some (id, id) := by simp [leafRule, hk]
  constructor
  · have := C142_make lib (n + 2) (n + 1) k k (by omega) false .none trivial
    rw [hr] at this
    exact this
  · have := C142_in_place lib (n + 1) (n + 1) k k (by omega) false .none trivial
    rw [hr] at this
    exact this

/-- Payload types for the examples: `bool`, `int`, a type that can only be moved, a class made from `int`. -/
def sample : Lib where
  copyable k := k != 2
  moved n := n
  conv j k := if j = 1 ∧ k = 3 then .user (· + 100) else if j = 0 ∧ k = 1 then .standard id else .no
  scalar k := k < 2
  defaulted k := k == 3

example : HasTy (nest 2 1) (.some (.some (.leaf 7))) ∧ HasTy (nest 2 1) (.some .none) := ⟨trivial, trivial⟩
example : make sample (nest 3 3) ⟨nest 1 1, true, .lvalue⟩ (.some (.leaf 7)) =
    some (.some (.some (.some (.leaf 107))), .some (.leaf 7)) := by decide
example : make sample (nest 1 1) ⟨nest 1 1, true, .lvalue⟩ (.some (.leaf 7)) = none ∧
    make sample (nest 1 2) ⟨nest 1 2, false, .lvalue⟩ (.some (.leaf 7)) = none ∧
    make sample (nest 1 0) ⟨nest 1 0, true, .xvalue⟩ (.some (.leaf 0)) = some (.some (.leaf 1), .some (.leaf 0)) ∧
    make sample (nest 1 0) ⟨nest 2 0, false, .lvalue⟩ (.some (.some (.leaf 0))) = some (.some (.leaf 1), .some (.some (.leaf 0))) := by decide

end Solace.OptConv
