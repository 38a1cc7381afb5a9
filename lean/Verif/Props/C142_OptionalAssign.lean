import Verif.Props.C142_OptionalConvert
/-! C142, assignment. -/
namespace Solace.OptConv

/-- Whether an expression may be moved from. -/
def Movable (e : Expr) : Prop := e.const = false ∧ e.cat ≠ .lvalue

instance (e : Expr) : Decidable (Movable e) := inferInstanceAs (Decidable (_ ∧ _))

theorem opt_ne (t : Ty) : Ty.opt t ≠ t := by
  intro h
  have : ∀ t : Ty, sizeOf (Ty.opt t) ≠ sizeOf t := by intro t; simp
  exact this t (by rw [h])

theorem movable_iff (e : Expr) : (!e.const && !e.isL) = decide (Movable e) := by
  rcases e with ⟨ty, c, cat⟩
  cases c <;> cases cat <;> rfl

theorem choose_same (lib : Lib) (t : Ty) (e : Expr) (h : e.ty = .opt t) :
    chooseAssign lib t (.expr e) = if Movable e then some .move else some .deletedCopy := by
  have n1 : ¬e.ty = t := by rw [h]; exact opt_ne t
  have n2 : ¬(Ty.opt t) = t := opt_ne t
  by_cases m : Movable e
  · rw [if_pos m]
    cases t with
    | base k => simp [chooseAssign, Assign.all, Assign.seq, Assign.better, h, n2, movable_iff, m]
    | opt t => simp [chooseAssign, Assign.all, Assign.seq, Assign.better, h, n2, movable_iff, m]
  · rw [if_neg m]
    cases t with
    | base k => simp [chooseAssign, Assign.all, Assign.seq, Assign.better, h, n2, movable_iff, m]
    | opt t => simp [chooseAssign, Assign.all, Assign.seq, Assign.better, h, n2, movable_iff, m]

theorem choose_payload (lib : Lib) (t : Ty) (e : Expr) (h : e.ty = t) :
    chooseAssign lib t (.expr e) = if Movable e then some .value else some .move := by
  have n1 : ¬t = .opt t := (opt_ne t).symm
  by_cases m : Movable e
  · rw [if_pos m]
    simp [chooseAssign, Assign.all, Assign.seq, Assign.better, h, n1, movable_iff, m]
  · rw [if_neg m]
    simp [chooseAssign, Assign.all, Assign.seq, Assign.better, h, n1, movable_iff, m]

theorem spread_id : ∀ v : Val, spread 0 id v = v
  | .leaf n => rfl
  | .none => rfl
  | .some v => by rw [spread, spread_id v]

/-- `x = none` empties every optional and touches nothing else. -/
theorem C142_assign_none (lib : Lib) (t : Ty) (old v : Val) : assign lib t old .none v = some (.none, v) := by
  cases t <;> simp [assign, chooseAssign, Assign.all, Assign.seq, Assign.better, Ty.isOpt]

/-- **C142, negation**: an optional of the same type can be assigned exactly if it may be moved from; the two are then swapped. There is
no assignment from an lvalue. -/
theorem C142_assign_same (lib : Lib) (t : Ty) (old v : Val) (e : Expr) (h : e.ty = .opt t) :
    assign lib t old (.expr e) v = if Movable e then some (v, old) else none := by
  rw [assign.eq_def, choose_same lib t e h]
  by_cases m : Movable e
  · rw [if_pos m, if_pos m]
    dsimp only
    rw [if_pos h]
  · rw [if_neg m, if_neg m]

/-- **C142**: a value of the payload type (also if that is an optional) that may be moved from becomes the content; moving leaves its
shape. -/
theorem C142_assign_move (lib : Lib) (n k : Nat) (old v : Val) (hv : HasTy (nest n k) v) (e : Expr) (h : e.ty = nest n k) (m : Movable e) :
    assign lib (nest n k) old (.expr e) v = some (.some v, spread 0 lib.moved v) := by
  rw [assign.eq_def, choose_payload lib _ e h, if_pos m]
  dsimp only
  have := C142_make lib n n k k (Nat.le_refl n) true v hv
  rw [if_pos h]
  rw [if_pos rfl] at this
  rw [this, leafRule, if_pos rfl, if_pos rfl, Nat.sub_self]
  simp [spread_id]

/-- **C142**: a value of the payload type that may not be moved from is assigned by making an optional from it. -/
theorem C142_assign_copy (lib : Lib) (t : Ty) (old v : Val) (e : Expr) (h : e.ty = t) (m : ¬Movable e) :
    assign lib t old (.expr e) v = make lib (.opt t) e v := by
  rw [assign.eq_def, choose_payload lib t e h, if_neg m]
  dsimp only
  rw [if_neg (by rw [h]; exact (opt_ne t).symm)]

/-- For payload types: the content is a copy, and the argument is as before; types that cannot be copied do not compile. -/
theorem C142_assign_copy_value (lib : Lib) (k x : Nat) (old : Val) (e : Expr) (h : e.ty = .base k) (m : ¬Movable e) :
    assign lib (.base k) old (.expr e) (.leaf x) = if lib.copyable k then some (.some (.leaf x), .leaf x) else none := by
  rw [C142_assign_copy lib _ old _ e h m]
  rcases e with ⟨ty, c, cat⟩
  dsimp only at h
  subst h
  have pl := plan_base lib (.base k) k c cat
  rw [make_wrap lib (.base k) _ _ pl]
  have hm : (!c && decide ((if cat = .lvalue then Cat.lvalue else .xvalue) = .xvalue)) = false := by
    cases c <;> cases cat <;> simp_all [Movable]
  rw [make_leaf lib k k c _ (by split <;> simp) x, hm, leafRule, if_pos rfl]
  cases lib.copyable k <;> rfl

/-- **C142, negation**: assigning a copy and assigning by moving give different results for an optional of optionals when the value is
empty: the copy is empty, the moved one holds an empty optional. -/
theorem C142_assign_differs (lib : Lib) (n k : Nat) (hk : lib.copyable k = true) (old : Val) :
    (assign lib (nest (n + 1) k) old (.expr ⟨nest (n + 1) k, false, .lvalue⟩) .none).map (·.1) = some .none ∧
    (assign lib (nest (n + 1) k) old (.expr ⟨nest (n + 1) k, false, .xvalue⟩) .none).map (·.1) = some (.some .none) := by
  constructor
  · rw [C142_assign_copy lib (nest (n + 1) k) old .none ⟨nest (n + 1) k, false, .lvalue⟩ rfl (by simp [Movable]), ← nest,
      (C142_flattens lib n k hk).1]
    rfl
  · rw [C142_assign_move lib (n + 1) k old .none trivial ⟨nest (n + 1) k, false, .xvalue⟩ rfl ⟨rfl, by simp⟩]
    rfl

/-- **C142**: values of another payload type are assigned exactly if a standard conversion leads to the payload type. A conversion by
constructor or conversion function is ambiguous, as it leads to the payload and to the optional. -/
theorem C142_assign_convert (lib : Lib) (j k x : Nat) (hjk : j ≠ k) (old : Val) (e : Expr) (h : e.ty = .base j) :
    assign lib (.base k) old (.expr e) (.leaf x) =
      match lib.conv j k with
      | .standard f => some (.some (.leaf (f x)), .leaf x)
      | _ => none := by
  rcases e with ⟨ty, c, cat⟩
  dsimp only at h
  subst h
  have hne : ¬(Ty.base j = Ty.base k) := fun q => hjk (Ty.base.inj q)
  cases hc : lib.conv j k with
  | no =>
    have : chooseAssign lib (.base k) (.expr ⟨.base j, c, cat⟩) = some .move := by
      simp [chooseAssign, Assign.all, Assign.seq, Assign.better, hjk, hc]
    rw [assign.eq_def, this]
    dsimp only
    rw [if_neg (by simp)]
    have pl := plan_base lib (.base k) j c cat
    rw [make_wrap lib (.base k) _ _ pl, make_leaf lib j k c _ (by split <;> simp) x, leafRule, if_neg hjk, hc]
    rfl
  | standard f =>
    have : chooseAssign lib (.base k) (.expr ⟨.base j, c, cat⟩) = some .value := by
      simp [chooseAssign, Assign.all, Assign.seq, Assign.better, hjk, hc]
    rw [assign.eq_def, this]
    dsimp only
    rw [if_neg hne, make, plan]
    dsimp only
    rw [if_neg hjk, hc]
    rfl
  | user f =>
    have : chooseAssign lib (.base k) (.expr ⟨.base j, c, cat⟩) = none := by
      simp [chooseAssign, Assign.all, Assign.seq, Assign.better, hjk, hc]
    rw [assign.eq_def, this]

/-- **C142**: an optional of another type is assigned to an optional of a payload type by making a new one from it. -/
theorem C142_assign_optional (lib : Lib) (k : Nat) (d : Ty) (old v : Val) (e : Expr) (h : e.ty = .opt d) (hd : d ≠ .base k) :
    assign lib (.base k) old (.expr e) v = make lib (nest 1 k) e v := by
  rcases e with ⟨ty, c, cat⟩
  dsimp only at h
  subst h
  have : chooseAssign lib (.base k) (.expr ⟨.opt d, c, cat⟩) = some .move := by
    simp [chooseAssign, Assign.all, Assign.seq, Assign.better, hd]
  rw [assign.eq_def, this]
  dsimp only
  rw [if_neg (by simp [hd])]
  rfl

/-- **C142, negation**: to an optional of optionals only `none`, an optional of the same type and a value of the payload type can be
assigned; everything else is ambiguous, though an optional can be made from it. -/
theorem C142_assign_ambiguous (lib : Lib) (t : Ty) (old v : Val) (e : Expr) (h1 : e.ty ≠ .opt t) (h2 : e.ty ≠ .opt (.opt t)) :
    assign lib (.opt t) old (.expr e) v = none := by
  have : chooseAssign lib (.opt t) (.expr e) = none := by
    simp [chooseAssign, Assign.all, Assign.seq, Assign.better, h1, h2]
  rw [assign.eq_def, this]

/-- **C142, negation**: `x = {}` empties an optional only if its payload type is a class without default constructor. With a scalar it
becomes 0, with other classes and optionals it does not compile. -/
theorem C142_assign_braces (lib : Lib) (t : Ty) (old v : Val) :
    assign lib t old .braces v =
      match t with
      | .opt _ => none
      | .base k => if lib.scalar k then some (.some (.leaf 0), v) else if lib.defaulted k then none else some (.none, v) := by
  cases t with
  | opt t =>
    have : chooseAssign lib (.opt t) .braces = none := by simp [chooseAssign, Assign.all, Assign.seq, Assign.better]
    rw [assign.eq_def, this]
  | base k =>
    dsimp only
    cases hs : lib.scalar k with
    | true =>
      have : chooseAssign lib (.base k) .braces = some .value := by simp [chooseAssign, Assign.all, Assign.seq, Assign.better, hs]
      rw [assign.eq_def, this]
      rfl
    | false =>
      cases hd : lib.defaulted k with
      | true =>
        have : chooseAssign lib (.base k) .braces = none := by simp [chooseAssign, Assign.all, Assign.seq, Assign.better, hs, hd]
        rw [assign.eq_def, this]
        rfl
      | false =>
        have : chooseAssign lib (.base k) .braces = some .move := by simp [chooseAssign, Assign.all, Assign.seq, Assign.better, hs, hd]
        rw [assign.eq_def, this]
        rfl

example : Movable ⟨nest 1 1, false, .prvalue⟩ ∧ ¬Movable ⟨nest 1 1, true, .xvalue⟩ := by decide
example : assign sample (nest 0 1) .none (.expr ⟨nest 0 0, true, .lvalue⟩) (.leaf 1) = some (.some (.leaf 1), .leaf 1) ∧
    assign sample (nest 0 3) .none (.expr ⟨nest 0 1, false, .lvalue⟩) (.leaf 1) = none ∧
    assign sample (nest 0 3) .none (.expr ⟨nest 1 1, false, .lvalue⟩) (.some (.leaf 1)) = some (.some (.leaf 101), .some (.leaf 1)) ∧
    assign sample (nest 1 1) .none (.expr ⟨nest 0 1, false, .lvalue⟩) (.leaf 1) = none := by decide
example : assign sample (.base 1) (.some (.leaf 5)) .braces .none = some (.some (.leaf 0), .none) := by decide

end Solace.OptConv
