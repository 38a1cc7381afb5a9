import Verif.Spec.Callable
/-
Lemmas for C139: the outcome of a call depends on finitely many cases.
-/
namespace Solace.Callable

open Spec

theorem binds_named (kinds : Nat → Kind) (p : Param) (ty : Nat) (const : Bool) :
    binds kinds p ⟨ty, const, .lvalue⟩ = true ↔ TakesNamed (kinds ty) ty const p := by
  rcases p with ⟨_ | t, form⟩ <;> cases form <;> cases const <;> cases hk : kinds ty <;>
    simp [binds, TakesNamed, Typed, initialises, hk, Copyable]

theorem binds_expiring (kinds : Nat → Kind) (p : Param) (ty : Nat) (const : Bool) :
    binds kinds p ⟨ty, const, .xvalue⟩ = true ↔ TakesExpiring (kinds ty) ty const p := by
  rcases p with ⟨_ | t, form⟩ <;> cases form <;> cases const <;> cases hk : kinds ty <;>
    simp [binds, TakesExpiring, Typed, initialises, hk, Copyable, Movable]

theorem calls_fixed (kinds : Nat → Kind) (ps : List Param) (r : Ret) (q : Qual) (lvalue : Bool) (args : List Arg) :
    calls kinds ⟨.fixed ps, r, q⟩ lvalue args = true ↔ ObjectOk q lvalue ∧ bindsAll kinds ps args = true := by
  cases q <;> cases lvalue <;> simp [calls, ObjectOk]

theorem isCallable_iff (kinds : Nat → Kind) (f : Fn) (lvalue : Bool) (args : List Arg) :
    isCallable kinds f lvalue args = true ↔ calls kinds f lvalue args = true ∧ ¬ RefResult f.ret := by
  rcases f with ⟨ps, r, q⟩
  cases r <;> simp [isCallable, RefResult]

/-! The kinds of other types do not matter. -/

theorem initialises_congr (k k' : Kind) (a : Arg) (h : k = k') : initialises k a = initialises k' a := by rw [h]

theorem binds_congr (kinds kinds' : Nat → Kind) (p : Param) (a : Arg) (h : kinds a.ty = kinds' a.ty) :
    binds kinds p a = binds kinds' p a := by
  rcases p with ⟨_ | t, form⟩ <;> cases form <;> simp [binds, h]

theorem bindsAll_congr (kinds kinds' : Nat → Kind) (ps : List Param) (args : List Arg) (h : ∀ a ∈ args, kinds a.ty = kinds' a.ty) :
    bindsAll kinds ps args = bindsAll kinds' ps args := by
  induction args generalizing ps with
  | nil => cases ps <;> rfl
  | cons a as ih =>
    cases ps with
    | nil => rfl
    | cons p ps =>
      rw [bindsAll, bindsAll, ih ps fun b hb => h b (List.mem_cons_of_mem _ hb), binds_congr _ _ _ _ (h a List.mem_cons_self)]

theorem calls_congr (kinds kinds' : Nat → Kind) (f : Fn) (lvalue : Bool) (args : List Arg)
    (h : ∀ a ∈ args, kinds a.ty = kinds' a.ty) : calls kinds f lvalue args = calls kinds' f lvalue args := by
  rcases f with ⟨ps | form, r, q⟩
  · simp only [calls, bindsAll_congr kinds kinds' ps args h]
  · simp only [calls]
    congr 1
    induction args with
    | nil => rfl
    | cons a as ih =>
      rw [List.all_cons, List.all_cons, ih fun b hb => h b (List.mem_cons_of_mem _ hb), binds_congr _ _ _ _ (h a List.mem_cons_self)]

theorem isCallable_congr (kinds kinds' : Nat → Kind) (f : Fn) (lvalue : Bool) (args args' : List Arg) (ha : args = args')
    (h : ∀ a ∈ args, kinds a.ty = kinds' a.ty) : isCallable kinds f lvalue args = isCallable kinds' f lvalue args' := by
  subst ha
  rw [isCallable, isCallable, calls_congr kinds kinds' f lvalue args h]

theorem inst_congr (kinds kinds' : Nat → Kind) (ty : Nat) (c : Bool) (m : Mode) (h : kinds ty = kinds' ty) :
    inst kinds ty c m = inst kinds' ty c m := by
  cases m <;> simp [inst, h]

@[simp] theorem inst_ty (kinds : Nat → Kind) (ty : Nat) (c : Bool) (m : Mode) : (inst kinds ty c m).ty = ty := by
  cases m <;> rfl

theorem view_congr (kinds kinds' : Nat → Kind) (h0 : kinds index = kinds' index) (h1 : kinds elem = kinds' elem) (c const : Bool)
    (f : Fn) (lvalue : Bool) : viewForEach kinds c const f lvalue = viewForEach kinds' c const f lvalue := by
  have one : ∀ c m, isCallable kinds f lvalue [inst kinds elem c m] = isCallable kinds' f lvalue [inst kinds' elem c m] := by
    intro c m
    exact isCallable_congr _ _ _ _ _ _ (by rw [inst_congr kinds kinds' _ _ _ h1]) (by simp [h1])
  have two : ∀ c m, isCallable kinds f lvalue [inst kinds index false .plain, inst kinds elem c m] =
      isCallable kinds' f lvalue [inst kinds' index false .plain, inst kinds' elem c m] := by
    intro c m
    exact isCallable_congr _ _ _ _ _ _ (by rw [inst_congr kinds kinds' _ _ _ h1, inst_congr kinds kinds' _ _ _ h0]) (by simp [h0, h1])
  have one' : ∀ c, calls kinds f true [⟨elem, c, .lvalue⟩] = calls kinds' f true [⟨elem, c, .lvalue⟩] :=
    fun c => calls_congr _ _ _ _ _ (by simp [h1])
  have two' : calls kinds f true [⟨index, false, .lvalue⟩, ⟨elem, false, .lvalue⟩] =
      calls kinds' f true [⟨index, false, .lvalue⟩, ⟨elem, false, .lvalue⟩] := calls_congr _ _ _ _ _ (by simp [h0, h1])
  simp only [viewForEach, one, two, one', two', h1]

theorem array_congr (kinds kinds' : Nat → Kind) (h0 : kinds index = kinds' index) (h1 : kinds elem = kinds' elem) (const : Bool)
    (f : Fn) (lvalue : Bool) : arrayForEach kinds const f lvalue = arrayForEach kinds' const f lvalue := by
  have one : ∀ c m, isCallable kinds f lvalue [inst kinds elem c m] = isCallable kinds' f lvalue [inst kinds' elem c m] := by
    intro c m
    exact isCallable_congr _ _ _ _ _ _ (by rw [inst_congr kinds kinds' _ _ _ h1]) (by simp [h1])
  have two : ∀ c m, isCallable kinds f lvalue [inst kinds index false .plain, inst kinds elem c m] =
      isCallable kinds' f lvalue [inst kinds' index false .plain, inst kinds' elem c m] := by
    intro c m
    exact isCallable_congr _ _ _ _ _ _ (by rw [inst_congr kinds kinds' _ _ _ h1, inst_congr kinds kinds' _ _ _ h0]) (by simp [h0, h1])
  simp only [arrayForEach, one, two, view_congr kinds kinds' h0 h1]

/-- All types are scalars but the elements. -/
def only (k : Kind) (n : Nat) : Kind := if n = elem then k else .scalar

/-! All values of the finite types. -/

def kindsAll : List Kind := [.scalar, .cls true true, .cls true false, .cls false true, .cls false false]
def formsAll : List Form := [.value, .cref, .ref, .rref]
def retsAll : List Ret := [.void, .value, .lref, .rref]
def qualsAll : List Qual := [.none, .lvalue, .rvalue]
def boolsAll : List Bool := [true, false]

theorem mem_kinds (k : Kind) : k ∈ kindsAll := by rcases k with _ | ⟨_ | _, _ | _⟩ <;> decide
theorem mem_forms (k : Form) : k ∈ formsAll := by cases k <;> decide
theorem mem_rets (k : Ret) : k ∈ retsAll := by cases k <;> decide
theorem mem_quals (k : Qual) : k ∈ qualsAll := by cases k <;> decide
theorem mem_bools (k : Bool) : k ∈ boolsAll := by cases k <;> decide

instance (k : Kind) : Decidable (Copyable k) := by cases k <;> unfold Copyable <;> infer_instance
instance (k : Kind) : Decidable (Movable k) := by cases k <;> unfold Movable <;> infer_instance
instance (p : Param) (ty : Nat) : Decidable (Typed p ty) := by unfold Typed; infer_instance
instance (k : Kind) (ty : Nat) (c : Bool) (p : Param) : Decidable (TakesNamed k ty c p) := by
  rcases p with ⟨t, form⟩; cases form <;> unfold TakesNamed <;> infer_instance
instance (k : Kind) (ty : Nat) (c : Bool) (p : Param) : Decidable (TakesExpiring k ty c p) := by
  rcases p with ⟨t, form⟩; cases form <;> cases c <;> unfold TakesExpiring <;> infer_instance
instance (p : Param) : Decidable (TakesIndex p) := by
  rcases p with ⟨t, form⟩; cases form <;> unfold TakesIndex <;> infer_instance
instance (q : Qual) (l : Bool) : Decidable (Usable q l) := by unfold Usable; infer_instance
instance (q : Qual) (l : Bool) : Decidable (ObjectOk q l) := by unfold ObjectOk; infer_instance
instance (a b : Param) : Decidable (TakesPair a b) := by unfold TakesPair; infer_instance
instance (a b : Param) : Decidable (TakesNumbered a b) := by unfold TakesNumbered; infer_instance
instance (r : Ret) : Decidable (RefResult r) := by unfold RefResult; infer_instance

/-! Results that are references. -/

theorem isCallable_ref (kinds : Nat → Kind) (f : Fn) (lvalue : Bool) (args : List Arg) (h : RefResult f.ret) :
    isCallable kinds f lvalue args = false := by
  rcases f with ⟨ps, r, q⟩
  rcases h with h | h <;> simp only at h <;> subst h <;> simp [isCallable]

theorem isCallable_void (kinds : Nat → Kind) (ps : Params) (r : Ret) (q : Qual) (lvalue : Bool) (args : List Arg) (h : ¬ RefResult r) :
    isCallable kinds ⟨ps, r, q⟩ lvalue args = isCallable kinds ⟨ps, .void, q⟩ lvalue args := by
  cases r
  · rfl
  · rfl
  · exact absurd (Or.inl rfl) h
  · exact absurd (Or.inr rfl) h

theorem calls_void (kinds : Nat → Kind) (ps : Params) (r : Ret) (q : Qual) (lvalue : Bool) (args : List Arg) :
    calls kinds ⟨ps, r, q⟩ lvalue args = calls kinds ⟨ps, .void, q⟩ lvalue args := rfl

/-! Types other than those of the arguments are all alike. -/

/-- The type, with all types above `n` taken for one. -/
def norm (n : Nat) (p : Param) : Param := ⟨p.ty.map fun t => min t (n + 1), p.form⟩

theorem norm_eq (n t ty : Nat) (h : ty ≤ n) : (min t (n + 1) == ty) = (t == ty) := by
  rw [Bool.eq_iff_iff]
  simp only [beq_iff_eq]
  omega

theorem binds_norm (kinds : Nat → Kind) (n : Nat) (p : Param) (a : Arg) (h : a.ty ≤ n) : binds kinds (norm n p) a = binds kinds p a := by
  rcases p with ⟨_ | t, form⟩ <;> cases form <;> simp only [norm, binds, Option.map, norm_eq n _ _ h]

theorem bindsAll_norm (kinds : Nat → Kind) (n : Nat) (ps : List Param) (args : List Arg) (h : ∀ a ∈ args, a.ty ≤ n) :
    bindsAll kinds (ps.map (norm n)) args = bindsAll kinds ps args := by
  induction args generalizing ps with
  | nil => cases ps <;> rfl
  | cons a as ih =>
    cases ps with
    | nil => rfl
    | cons p ps =>
      rw [List.map_cons, bindsAll, bindsAll, ih ps fun b hb => h b (List.mem_cons_of_mem _ hb), binds_norm _ _ _ _ (h a List.mem_cons_self)]

theorem calls_norm (kinds : Nat → Kind) (n : Nat) (ps : List Param) (r : Ret) (q : Qual) (lvalue : Bool) (args : List Arg)
    (h : ∀ a ∈ args, a.ty ≤ n) :
    calls kinds ⟨.fixed ps, r, q⟩ lvalue args = calls kinds ⟨.fixed (ps.map (norm n)), r, q⟩ lvalue args := by
  simp only [calls, bindsAll_norm kinds n ps args h]

theorem isCallable_norm (kinds : Nat → Kind) (n : Nat) (ps : List Param) (r : Ret) (q : Qual) (lvalue : Bool) (args : List Arg)
    (h : ∀ a ∈ args, a.ty ≤ n) :
    isCallable kinds ⟨.fixed ps, r, q⟩ lvalue args = isCallable kinds ⟨.fixed (ps.map (norm n)), r, q⟩ lvalue args := by
  simp only [isCallable, calls_norm kinds n ps r q lvalue args h]

theorem typed_norm (n ty : Nat) (p : Param) (h : ty ≤ n) : Typed (norm n p) ty ↔ Typed p ty := by
  rcases p with ⟨_ | t, form⟩
  · simp [Typed, norm]
  · simp only [Typed, norm, Option.map, Option.some.injEq, reduceCtorEq, false_or]
    omega

theorem norm_none (n : Nat) (p : Param) : (norm n p).ty = none ↔ p.ty = none := by
  rcases p with ⟨_ | t, form⟩ <;> simp [norm]

theorem named_norm (k : Kind) (n ty : Nat) (c : Bool) (p : Param) (h : ty ≤ n) :
    TakesNamed k ty c (norm n p) ↔ TakesNamed k ty c p := by
  rw [TakesNamed, TakesNamed, typed_norm n ty p h, norm_none]
  rfl

theorem index_norm (n : Nat) (p : Param) : TakesIndex (norm n p) ↔ TakesIndex p := by
  rw [TakesIndex, TakesIndex, typed_norm n index p (Nat.zero_le _), norm_none]
  rfl

theorem expiring_norm (k : Kind) (n ty : Nat) (c : Bool) (p : Param) (h : ty ≤ n) :
    TakesExpiring k ty c (norm n p) ↔ TakesExpiring k ty c p := by
  rw [TakesExpiring, TakesExpiring, typed_norm n ty p h, norm_none]
  rfl

/-- Parameters with types up to `n`. -/
def paramsAll (n : Nat) : List Param :=
  (none :: (List.range (n + 2)).map some).flatMap fun t => formsAll.map fun form => ⟨t, form⟩

theorem mem_params (n : Nat) (p : Param) : norm n p ∈ paramsAll n := by
  rcases p with ⟨t, form⟩
  simp only [paramsAll, norm, List.mem_flatMap, List.mem_map]
  refine ⟨t.map fun t => min t (n + 1), ?_, form, mem_forms form, rfl⟩
  cases t with
  | none => exact List.mem_cons_self
  | some t => exact List.mem_cons_of_mem _ (List.mem_map.2 ⟨_, List.mem_range.2 (show min t (n + 1) < n + 2 by omega), rfl⟩)

/-! The calls. -/

theorem resolve_disabled (const rvalue : Bool) (os : List Overload) (h : ∀ o ∈ os, o.enabled = false) :
    resolve const rvalue os = .noMatch := by
  have : (os.filter fun o => o.enabled && (o.constMember || !const) && (!o.rvalueMember || rvalue)) = [] := by
    rw [List.filter_eq_nil_iff]
    intro o ho
    simp [h o ho]
  rw [resolve, this]
  rfl

theorem view_ref (kinds : Nat → Kind) (c const : Bool) (f : Fn) (lvalue : Bool) (h : RefResult f.ret) :
    viewForEach kinds c const f lvalue = .noMatch := by
  refine resolve_disabled _ _ _ ?_
  simp [isCallable_ref _ _ _ _ h]

theorem array_ref (kinds : Nat → Kind) (const : Bool) (f : Fn) (lvalue : Bool) (h : RefResult f.ret) :
    arrayForEach kinds const f lvalue = .noMatch := by
  refine resolve_disabled _ _ _ ?_
  simp [isCallable_ref _ _ _ _ h]

theorem string_ref (kinds : Nat → Kind) (f : Fn) (lvalue : Bool) (h : RefResult f.ret) :
    stringForEach kinds f lvalue = .noMatch := by
  refine resolve_disabled _ _ _ ?_
  simp [isCallable_ref _ _ _ _ h]

theorem path_ref (kinds : Nat → Kind) (const rvalue : Bool) (f : Fn) (lvalue : Bool) (h : RefResult f.ret) :
    pathForEach kinds const rvalue f lvalue = .noMatch := by
  refine resolve_disabled _ _ _ ?_
  simp [isCallable_ref _ _ _ _ h]

theorem env_ref (kinds : Nat → Kind) (f : Fn) (lvalue : Bool) (h : RefResult f.ret) :
    envForEach kinds f lvalue = .noMatch := by
  refine resolve_disabled _ _ _ ?_
  simp [isCallable_ref _ _ _ _ h]

theorem view_void (kinds : Nat → Kind) (c const : Bool) (ps : Params) (r : Ret) (q : Qual) (lvalue : Bool) (h : ¬ RefResult r) :
    viewForEach kinds c const ⟨ps, r, q⟩ lvalue = viewForEach kinds c const ⟨ps, .void, q⟩ lvalue := by
  simp only [viewForEach, isCallable_void _ _ _ _ _ _ h, calls_void _ ps r]

theorem array_void (kinds : Nat → Kind) (const : Bool) (ps : Params) (r : Ret) (q : Qual) (lvalue : Bool) (h : ¬ RefResult r) :
    arrayForEach kinds const ⟨ps, r, q⟩ lvalue = arrayForEach kinds const ⟨ps, .void, q⟩ lvalue := by
  simp only [arrayForEach, isCallable_void _ _ _ _ _ _ h, view_void _ _ _ _ _ _ _ h]

theorem string_void (kinds : Nat → Kind) (ps : Params) (r : Ret) (q : Qual) (lvalue : Bool) (h : ¬ RefResult r) :
    stringForEach kinds ⟨ps, r, q⟩ lvalue = stringForEach kinds ⟨ps, .void, q⟩ lvalue := by
  simp only [stringForEach, isCallable_void _ _ _ _ _ _ h, calls_void _ ps r]

theorem path_void (kinds : Nat → Kind) (const rvalue : Bool) (ps : Params) (r : Ret) (q : Qual) (lvalue : Bool) (h : ¬ RefResult r) :
    pathForEach kinds const rvalue ⟨ps, r, q⟩ lvalue = pathForEach kinds const rvalue ⟨ps, .void, q⟩ lvalue := by
  simp only [pathForEach, isCallable_void _ _ _ _ _ _ h, calls_void _ ps r]

theorem env_void (kinds : Nat → Kind) (ps : Params) (r : Ret) (q : Qual) (lvalue : Bool) (h : ¬ RefResult r) :
    envForEach kinds ⟨ps, r, q⟩ lvalue = envForEach kinds ⟨ps, .void, q⟩ lvalue := by
  simp only [envForEach, isCallable_void _ _ _ _ _ _ h, calls_void _ ps r]

theorem view_norm (kinds : Nat → Kind) (c const : Bool) (ps : List Param) (r : Ret) (q : Qual) (lvalue : Bool) :
    viewForEach kinds c const ⟨.fixed ps, r, q⟩ lvalue = viewForEach kinds c const ⟨.fixed (ps.map (norm 1)), r, q⟩ lvalue := by
  simp only [viewForEach]
  repeat rw [isCallable_norm kinds 1 ps _ _ _ _ (by simp [index, elem])]
  repeat rw [calls_norm kinds 1 ps _ _ _ _ (by simp [index, elem])]

theorem array_norm (kinds : Nat → Kind) (const : Bool) (ps : List Param) (r : Ret) (q : Qual) (lvalue : Bool) :
    arrayForEach kinds const ⟨.fixed ps, r, q⟩ lvalue = arrayForEach kinds const ⟨.fixed (ps.map (norm 1)), r, q⟩ lvalue := by
  simp only [arrayForEach, view_norm kinds _ _ ps]
  repeat rw [isCallable_norm kinds 1 ps _ _ _ _ (by simp [index, elem])]

/-! The qualifier of the operator. -/

theorem calls_not (kinds : Nat → Kind) (f : Fn) (lvalue : Bool) (args : List Arg) (h : ¬ ObjectOk f.qual lvalue) :
    calls kinds f lvalue args = false := by
  rcases f with ⟨ps, r, q⟩
  cases q <;> cases lvalue <;> simp [ObjectOk] at h <;> simp [calls]

theorem isCallable_not (kinds : Nat → Kind) (f : Fn) (lvalue : Bool) (args : List Arg) (h : ¬ ObjectOk f.qual lvalue) :
    isCallable kinds f lvalue args = false := by
  simp [isCallable, calls_not kinds f lvalue args h]

theorem view_not (kinds : Nat → Kind) (c const : Bool) (f : Fn) (lvalue : Bool) (h : ¬ ObjectOk f.qual lvalue) :
    viewForEach kinds c const f lvalue = .noMatch := by
  refine resolve_disabled _ _ _ ?_
  simp [isCallable_not _ _ _ _ h]

theorem array_not (kinds : Nat → Kind) (const : Bool) (f : Fn) (lvalue : Bool) (h : ¬ ObjectOk f.qual lvalue) :
    arrayForEach kinds const f lvalue = .noMatch := by
  refine resolve_disabled _ _ _ ?_
  simp [isCallable_not _ _ _ _ h]

theorem env_not (kinds : Nat → Kind) (f : Fn) (lvalue : Bool) (h : ¬ ObjectOk f.qual lvalue) :
    envForEach kinds f lvalue = .noMatch := by
  refine resolve_disabled _ _ _ ?_
  simp [isCallable_not _ _ _ _ h]

theorem calls_usable (kinds : Nat → Kind) (ps : Params) (r : Ret) (q : Qual) (lvalue : Bool) (args : List Arg) (h : Usable q lvalue) :
    calls kinds ⟨ps, r, q⟩ lvalue args = calls kinds ⟨ps, r, .none⟩ true args := by
  rcases h with h | ⟨h, h'⟩
  · subst h; rfl
  · subst h h'; rfl

theorem usable_named (q : Qual) (lvalue : Bool) (h : Usable q lvalue) : Usable q true := by
  rcases h with h | ⟨h, _⟩
  · exact Or.inl h
  · exact Or.inr ⟨h, rfl⟩

theorem isCallable_usable (kinds : Nat → Kind) (ps : Params) (r : Ret) (q : Qual) (lvalue : Bool) (args : List Arg) (h : Usable q lvalue) :
    isCallable kinds ⟨ps, r, q⟩ lvalue args = isCallable kinds ⟨ps, r, .none⟩ true args := by
  simp only [isCallable, calls_usable _ _ _ _ _ _ h]

theorem view_usable (kinds : Nat → Kind) (c const : Bool) (ps : Params) (r : Ret) (q : Qual) (lvalue : Bool) (h : Usable q lvalue) :
    viewForEach kinds c const ⟨ps, r, q⟩ lvalue = viewForEach kinds c const ⟨ps, r, .none⟩ true := by
  simp only [viewForEach, isCallable_usable _ _ _ _ _ _ h, calls_usable _ _ _ _ _ _ (usable_named _ _ h)]

theorem array_usable (kinds : Nat → Kind) (const : Bool) (ps : Params) (r : Ret) (q : Qual) (lvalue : Bool) (h : Usable q lvalue) :
    arrayForEach kinds const ⟨ps, r, q⟩ lvalue = arrayForEach kinds const ⟨ps, r, .none⟩ true := by
  simp only [arrayForEach, isCallable_usable _ _ _ _ _ _ h, view_usable _ _ _ _ _ _ _ h]

theorem env_usable (kinds : Nat → Kind) (ps : Params) (r : Ret) (q : Qual) (lvalue : Bool) (h : Usable q lvalue) :
    envForEach kinds ⟨ps, r, q⟩ lvalue = envForEach kinds ⟨ps, r, .none⟩ true := by
  simp only [envForEach, isCallable_usable _ _ _ _ _ _ h, calls_usable _ _ _ _ _ _ (usable_named _ _ h)]

/-- The three ways: usable, not to be called as given, callable as given but not by its name. -/
theorem qual_cases (q : Qual) (lvalue : Bool) : Usable q lvalue ∨ ¬ ObjectOk q lvalue ∨ (q = .rvalue ∧ lvalue = false) := by
  cases q <;> cases lvalue <;> simp [Usable, ObjectOk]

/-! Text containers. -/

theorem string_congr (kinds kinds' : Nat → Kind) (h1 : kinds elem = kinds' elem) (f : Fn) (lvalue : Bool) :
    stringForEach kinds f lvalue = stringForEach kinds' f lvalue := by
  have one : ∀ c m, isCallable kinds f lvalue [inst kinds elem c m] = isCallable kinds' f lvalue [inst kinds' elem c m] := by
    intro c m
    exact isCallable_congr _ _ _ _ _ _ (by rw [inst_congr kinds kinds' _ _ _ h1]) (by simp [h1])
  simp only [stringForEach, one, calls_congr kinds kinds' f true [⟨elem, true, .lvalue⟩] (by simp [h1])]

theorem path_congr (kinds kinds' : Nat → Kind) (h2 : kinds string = kinds' string) (h3 : kinds stringView = kinds' stringView)
    (const rvalue : Bool) (f : Fn) (lvalue : Bool) : pathForEach kinds const rvalue f lvalue = pathForEach kinds' const rvalue f lvalue := by
  simp only [pathForEach, calls_congr kinds kinds' f true [⟨string, false, .xvalue⟩] (by simp [h2]),
    calls_congr kinds kinds' f true [⟨stringView, false, .prvalue⟩] (by simp [h3]),
    isCallable_congr kinds kinds' f lvalue _ _ (congrArg (fun a => [a]) (inst_congr kinds kinds' stringView false .plain h3)) (by simp [h3]),
    isCallable_congr kinds kinds' f lvalue _ _ (congrArg (fun a => [a]) (inst_congr kinds kinds' string false .rref h2)) (by simp [h2])]

theorem env_congr (kinds kinds' : Nat → Kind) (h0 : kinds index = kinds' index) (h3 : kinds stringView = kinds' stringView)
    (h4 : kinds var = kinds' var) (f : Fn) (lvalue : Bool) : envForEach kinds f lvalue = envForEach kinds' f lvalue := by
  have e3 := inst_congr kinds kinds' stringView true .plain h3
  have e4 := inst_congr kinds kinds' var true .plain h4
  have e0 := inst_congr kinds kinds' index false .plain h0
  simp only [envForEach, calls_congr kinds kinds' f true [⟨var, false, .lvalue⟩] (by simp [h4]),
    calls_congr kinds kinds' f true [⟨stringView, false, .lvalue⟩, ⟨stringView, false, .lvalue⟩] (by simp [h3]),
    calls_congr kinds kinds' f true [⟨index, false, .prvalue⟩, ⟨var, false, .prvalue⟩] (by simp [h0, h4]),
    isCallable_congr kinds kinds' f lvalue [inst kinds var true .plain] _ (by rw [e4]) (by simp [h4]),
    isCallable_congr kinds kinds' f lvalue [inst kinds stringView true .plain, inst kinds stringView true .plain] _ (by rw [e3]) (by simp [h3]),
    isCallable_congr kinds kinds' f lvalue [inst kinds index false .plain, inst kinds var true .plain] _ (by rw [e0, e4]) (by simp [h0, h4])]

theorem string_norm (kinds : Nat → Kind) (ps : List Param) (r : Ret) (q : Qual) (lvalue : Bool) :
    stringForEach kinds ⟨.fixed ps, r, q⟩ lvalue = stringForEach kinds ⟨.fixed (ps.map (norm 1)), r, q⟩ lvalue := by
  simp only [stringForEach]
  repeat rw [isCallable_norm kinds 1 ps _ _ _ _ (by simp [elem])]
  repeat rw [calls_norm kinds 1 ps _ _ _ _ (by simp [elem])]

theorem path_norm (kinds : Nat → Kind) (const rvalue : Bool) (ps : List Param) (r : Ret) (q : Qual) (lvalue : Bool) :
    pathForEach kinds const rvalue ⟨.fixed ps, r, q⟩ lvalue = pathForEach kinds const rvalue ⟨.fixed (ps.map (norm 4)), r, q⟩ lvalue := by
  simp only [pathForEach]
  repeat rw [isCallable_norm kinds 4 ps _ _ _ _ (by simp [string, stringView])]
  repeat rw [calls_norm kinds 4 ps _ _ _ _ (by simp [string, stringView])]

theorem env_norm (kinds : Nat → Kind) (ps : List Param) (r : Ret) (q : Qual) (lvalue : Bool) :
    envForEach kinds ⟨.fixed ps, r, q⟩ lvalue = envForEach kinds ⟨.fixed (ps.map (norm 4)), r, q⟩ lvalue := by
  simp only [envForEach]
  repeat rw [isCallable_norm kinds 4 ps _ _ _ _ (by simp [var, index, stringView])]
  repeat rw [calls_norm kinds 4 ps _ _ _ _ (by simp [var, index, stringView])]

theorem pair_norm (a b : Param) : TakesPair (norm 4 a) (norm 4 b) ↔ TakesPair a b := by
  rw [TakesPair, TakesPair, named_norm _ _ _ _ _ (by decide), named_norm _ _ _ _ _ (by decide)]

theorem numbered_norm (a b : Param) : TakesNumbered (norm 4 a) (norm 4 b) ↔ TakesNumbered a b := by
  rw [TakesNumbered, TakesNumbered, expiring_norm _ _ _ _ _ (by decide), named_norm _ _ _ _ _ (by decide)]

end Solace.Callable
