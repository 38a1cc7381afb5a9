import Verif.Spec.OptionalConvert
/-! Lemmas for C142. -/
namespace Solace.OptConv

theorem choose_base (t : Ty) (k : Nat) (c : Bool) (cat : Cat) : choose (.opt t) ⟨.base k, c, cat⟩ = some .anything := by
  cases c <;> cases cat <;> rfl

theorem choose_lvalue (t d : Ty) : choose (.opt t) ⟨.opt d, false, .lvalue⟩ = some .fromLvalue := by
  by_cases h : (Ty.opt d) = Ty.opt t <;>
    simp [choose, Ctor.all, Ctor.viable, Ctor.better, Ctor.rref, Ctor.cref, Ctor.level, Expr.isL, Ty.isOpt, h]

theorem choose_const (t d : Ty) :
    choose (.opt t) ⟨.opt d, true, .lvalue⟩ = some (if d = t then .deletedCopy else .fromConst) := by
  by_cases h : d = t <;>
    simp [choose, Ctor.all, Ctor.viable, Ctor.better, Ctor.rref, Ctor.cref, Ctor.level, Expr.isL, Ty.isOpt, h]

theorem choose_rvalue (t d : Ty) (cat : Cat) (hc : cat ≠ .lvalue) : choose (.opt t) ⟨.opt d, false, cat⟩ = some .fromRvalue := by
  by_cases h : d = t <;> cases cat <;>
    simp_all [choose, Ctor.all, Ctor.viable, Ctor.better, Ctor.rref, Ctor.cref, Ctor.level, Expr.isL, Ty.isOpt]

theorem choose_const_rvalue (t d : Ty) (cat : Cat) (hc : cat ≠ .lvalue) : choose (.opt t) ⟨.opt d, true, cat⟩ = some .anything := by
  by_cases h : d = t <;> cases cat <;>
    simp_all [choose, Ctor.all, Ctor.viable, Ctor.better, Ctor.rref, Ctor.cref, Ctor.level, Expr.isL, Ty.isOpt]

theorem nest_inj : ∀ (n m k j : Nat), nest n k = nest m j ↔ n = m ∧ k = j
  | 0, 0, k, j => by simp [nest]
  | 0, m + 1, k, j => by simp [nest]
  | n + 1, 0, k, j => by simp [nest]
  | n + 1, m + 1, k, j => by simp [nest, nest_inj n m k j]

theorem exists_nest : ∀ t : Ty, ∃ n k, t = nest n k
  | .base k => ⟨0, k, rfl⟩
  | .opt t => by obtain ⟨n, k, h⟩ := exists_nest t; exact ⟨n + 1, k, by rw [nest, h]⟩

/-- Making an optional from another one, if the elementwise constructor is taken. -/
theorem make_each (lib : Lib) (t d : Ty) (e e' : Expr) (h : plan lib (.opt t) e = (plan lib t e').map .each) (v : Val) (hv : HasTy (.opt d) v) :
    make lib (.opt t) e v = match v with
      | .some x => (make lib t e' x).map fun r => (.some r.1, .some r.2)
      | _ => (plan lib t e').map fun _ => (.none, .none) := by
  rw [make, h]
  cases hp : plan lib t e' with
  | none => cases v <;> simp [make, hp]
  | some p =>
    cases v with
    | leaf n => cases hv
    | none => simp [Plan.run]
    | some x => simp [Plan.run, make, hp]

theorem make_wrap (lib : Lib) (t : Ty) (e e' : Expr) (h : plan lib (.opt t) e = (plan lib t e').map .wrap) (v : Val) :
    make lib (.opt t) e v = (make lib t e' v).map fun r => (.some r.1, r.2) := by
  rw [make, h]
  cases hp : plan lib t e' <;> simp [make, hp, Plan.run]

theorem plan_base (lib : Lib) (t : Ty) (k : Nat) (c : Bool) (cat : Cat) :
    plan lib (.opt t) ⟨.base k, c, cat⟩ = (plan lib t ⟨.base k, c, if cat = .lvalue then .lvalue else .xvalue⟩).map .wrap := by
  rw [plan, if_neg (by simp), choose_base]
  cases cat <;> rfl

theorem plan_lvalue (lib : Lib) (t d : Ty) :
    plan lib (.opt t) ⟨.opt d, false, .lvalue⟩ = (plan lib t ⟨d, false, .lvalue⟩).map .each := by
  rw [plan, if_neg (by simp), choose_lvalue]

theorem plan_const (lib : Lib) (t d : Ty) :
    plan lib (.opt t) ⟨.opt d, true, .lvalue⟩ = if d = t then none else (plan lib t ⟨d, true, .lvalue⟩).map .each := by
  rw [plan, if_neg (by simp), choose_const]
  by_cases h : d = t
  · rw [if_pos h, if_pos h]
  · rw [if_neg h, if_neg h]

theorem plan_xvalue (lib : Lib) (t d : Ty) :
    plan lib (.opt t) ⟨.opt d, false, .xvalue⟩ = (plan lib t ⟨d, false, .xvalue⟩).map .each := by
  rw [plan, if_neg (by simp), choose_rvalue _ _ _ (by simp)]

theorem plan_const_xvalue (lib : Lib) (t d : Ty) :
    plan lib (.opt t) ⟨.opt d, true, .xvalue⟩ = (plan lib t ⟨.opt d, true, .xvalue⟩).map .wrap := by
  rw [plan, if_neg (by simp), choose_const_rvalue _ _ _ (by simp)]
  rfl

/-- Payloads: as the rule says. -/
theorem make_leaf (lib : Lib) (j k : Nat) (c : Bool) (cat : Cat) (hc : cat ≠ .prvalue) (x : Nat) :
    make lib (.base k) ⟨.base j, c, cat⟩ (.leaf x) =
      (leafRule lib j k (!c && cat = .xvalue)).map fun r => (.leaf (r.1 x), .leaf (r.2 x)) := by
  rw [make, plan, leafRule]
  dsimp only
  by_cases h : j = k
  · subst h
    rw [if_pos rfl, if_pos rfl, if_neg hc]
    cases c <;> cases cat <;> cases hk : lib.copyable j <;> simp_all [Plan.run]
  · rw [if_neg h, if_neg h]
    cases lib.conv j k <;> simp [Plan.run]

theorem wraps_succ (n : Nat) (v : Val) : Val.some (wraps n v) = wraps (n + 1) v := rfl

theorem make_value (lib : Lib) (j k : Nat) (c : Bool) (cat : Cat) (hc : cat ≠ .prvalue) (x : Nat) : ∀ n,
    make lib (nest n k) ⟨.base j, c, cat⟩ (.leaf x) =
      (leafRule lib j k (!c && cat = .xvalue)).map fun r => (wraps n (.leaf (r.1 x)), .leaf (r.2 x))
  | 0 => make_leaf lib j k c cat hc x
  | n + 1 => by
    have e : (if cat = .lvalue then Cat.lvalue else .xvalue) = cat := by cases cat <;> simp_all
    have h := plan_base lib (nest n k) j c cat
    rw [e] at h
    rw [nest, make_wrap lib (nest n k) _ _ h, make_value lib j k c cat hc x n, Option.map_map]
    rfl

/-- Whether a plan exists does not depend on the value. -/
theorem plan_isSome (lib : Lib) (n k j : Nat) (c : Bool) (cat : Cat) (hc : cat ≠ .prvalue) :
    (plan lib (nest n k) ⟨.base j, c, cat⟩).isSome = (leafRule lib j k (!c && cat = .xvalue)).isSome := by
  induction n with
  | zero =>
    rw [nest, plan, leafRule]
    dsimp only
    by_cases h : j = k
    · subst h
      rw [if_pos rfl, if_pos rfl, if_neg hc]
      cases c <;> cases cat <;> cases hk : lib.copyable j <;> simp_all
    · rw [if_neg h, if_neg h]
      cases lib.conv j k <;> simp
  | succ n ih =>
    have e : (if cat = .lvalue then Cat.lvalue else .xvalue) = cat := by cases cat <;> simp_all
    rw [nest, plan_base, e, Option.isSome_map, ih]

end Solace.OptConv
