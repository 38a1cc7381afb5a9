import Verif.Model.Result
/-
C55: Optional is a list of at most one element. C56: Result is a sum type.
-/
namespace Solace.Opt

/-- **C55** (full): `get` returns the stored value and raises exactly when there is none; `operator*` terminates then. -/
theorem C55_get (o : Option T) :
    (∀ x, get o = .ok x ↔ o.toList = [x]) ∧ (get o = .throws ↔ o.toList = []) ∧ (deref o = .terminate ↔ o.toList = []) := by
  cases o <;> simp [get, deref]

/-- **C55** (full): `map`, `flatMap`, `filter`, `orElse` are those of the list with at most one element - `map` for functions
whose result is not itself an `Optional`. -/
theorem C55_list (o : Option T) (f : T → U) (g : T → Option U) (p : T → Bool) (t : T) (moved : T → T) :
    (map ofValue f o).toList = o.toList.map f ∧
    (flatMap g o).toList = o.toList.flatMap (fun x => (g x).toList) ∧
    (flatMapMoving moved g o).1.toList = o.toList.flatMap (fun x => (g x).toList) ∧
    (filter p o).toList = o.toList.filter p ∧
    orElse o t = (o.toList ++ [t]).head (by simp) := by
  cases o with
  | none => simp [map, flatMap, flatMapMoving, filter, orElse]
  | some x =>
    refine ⟨by simp [map, ofValue], by simp [flatMap], by simp [flatMapMoving], ?_, by simp [orElse]⟩
    by_cases h : p x <;> simp [filter, h]

/-- **C55** (full): the functor laws, for functions whose results are not `Optional`s. -/
theorem C55_functor (o : Option T) (f : T → U) (g : U → W) :
    map ofValue id o = o ∧ map ofValue g (map ofValue f o) = map ofValue (g ∘ f) o := by
  cases o <;> exact ⟨rfl, rfl⟩

/-- **C55** (full): the monad laws for every overload of `flatMap`. -/
theorem C55_monad (o : Option T) (x : T) (f : T → Option U) (g : U → Option W) (moved : T → T) :
    flatMap f (ofValue x) = f x ∧ flatMap ofValue o = o ∧ flatMap g (flatMap f o) = flatMap (fun y => flatMap g (f y)) o ∧
    (flatMapMoving moved f o).1 = flatMap f o := by
  cases o <;> exact ⟨rfl, rfl, rfl, rfl⟩

/-- **C55, negation** of the functor law in general: when `f` returns an `Optional`, an empty result makes `map` empty
instead of holding it, so `map(g . f)` and `map(f).map(g)` differ for `g = isNone`. -/
theorem C55_map_flattens :
    ∃ (f : Nat → Option Nat) (g : Option Nat → Bool) (o : Option Nat),
      map ofValue (g ∘ f) o = some true ∧ map ofValue g (map ofOptional f o) = none :=
  ⟨fun _ => none, Option.isNone, some 1, rfl, rfl⟩

/-- **C55**: `flatMap` on a non-const lvalue leaves a moved-from payload behind; the object stays engaged. -/
theorem C55_flatMap_consumes (moved : T → T) (f : T → Option U) (o : Option T) :
    (flatMapMoving moved f o).2 = o.map moved := by
  cases o <;> rfl

/-- **C55** (full): equality is equality of contents, for an element equality that is one (reflexive on the element, when an
object is compared with itself); `!=` is its negation when that of the elements is. -/
theorem C55_equality (eqT neT : T → T → Bool) (same : Bool) (a b : Option T) (he : ∀ x y, eqT x y = true ↔ x = y)
    (hn : ∀ x y, neT x y = !eqT x y) (hs : same = true → a = b) (v : T) :
    (eq eqT same a b = true ↔ a = b) ∧ ne neT same a b = !eq eqT same a b ∧
    (eqValue eqT a v = true ↔ a = some v) ∧ neValue neT a v = !eqValue eqT a v := by
  refine ⟨?_, ?_, ?_, ?_⟩
  · cases same with
    | true => simp [eq, hs rfl]
    | false => cases a <;> cases b <;> simp [eq, he]
  · cases same with
    | true => rfl
    | false => cases a <;> cases b <;> simp [eq, ne, hn]
  · cases a <;> simp [eqValue, he]
  · cases a <;> simp [eqValue, neValue, hn]

/-- **C55**: an object is equal to itself even if its content is not (a NaN). -/
theorem C55_equality_identity (eqT : T → T → Bool) (a : Option T) : eq eqT true a a = true := rfl

theorem set_same (s : Store A) (i : Nat) (a : A) : s.set i a i = a := by simp [Store.set]
theorem set_other (s : Store A) {i j : Nat} (a : A) (h : j ≠ i) : s.set i a j = s j := by simp [Store.set, h]

/-- **C55** (full): `swap` and move assignment exchange the contents of two objects, also of an object with itself, and
touch no other object. -/
theorem C55_swap (moved : T → T) (s : Store (Option T)) (i j : Nat) :
    swap moved s i j i = s j ∧ swap moved s i j j = s i ∧ (∀ k, k ≠ i → k ≠ j → swap moved s i j k = s k) ∧
    assign moved s i j = swap moved s i j := by
  refine ⟨?_, ?_, ?_, rfl⟩ <;> by_cases hij : i = j
  · subst hij
    rw [swap]
    cases h : s i <;> simp [stdSwap, h, Store.set]
  · rw [swap]
    cases h : s i <;> cases h' : s j <;> simp [stdSwap, h, h', Store.set, hij]
  · subst hij
    rw [swap]
    cases h : s i <;> simp [stdSwap, h, Store.set]
  · have hji : j ≠ i := fun e => hij e.symm
    rw [swap]
    cases h : s i <;> cases h' : s j <;> simp [stdSwap, h, h', Store.set, hij, hji]
  · subst hij
    intro k hk _
    rw [swap]
    cases h : s i <;> simp [stdSwap, h, Store.set, hk]
  · intro k hk hk'
    rw [swap]
    cases h : s i <;> cases h' : s j <;> simp [stdSwap, h, h', Store.set, hk, hk', hij]

example : map ofValue (· + 1) (some 2) = some 3 ∧ flatMap (fun x => if x = 2 then some 7 else none) (some 2) = some 7 ∧
    filter (· == 3) (some 2) = none ∧ get (none : Option Nat) = .throws := by decide
example : swap (fun _ => 0) (fun i => if i = 0 then some 5 else none) 0 1 1 = some 5 := by decide

end Solace.Opt

namespace Solace.Res
open Opt (Store)

/-- **C56** (full): exactly one of `isOk` and `isError`; the accessors raise exactly in the other state. -/
theorem C56_states (r : Res V E) :
    (isOk r = !isError r) ∧ (∀ v, unwrap r = .ok v ↔ r = .ok v) ∧ (unwrap r = .throws ↔ isError r = true) ∧
    (∀ e, getError r = .ok e ↔ r = .err e) ∧ (getError r = .throws ↔ isOk r = true) := by
  cases r <;> simp [isOk, isError, unwrap, getError]

/-- The plain sum: what the combinators should give. -/
def bindSum (f : V → Res U E) : Res V E → Res U E
  | .ok v => f v
  | .err e => .err e

/-- **C56** (full): `then` gives the bind of the sum, for every overload, and calls the handler exactly once with the value
if there is one, and not at all otherwise. -/
theorem C56_then (mV : V → V) (mE : E → E) (f : V → Res U E) (g : V → U) (r : Res V E) :
    (andThen f r).result = bindSum f r ∧ (andThenMoving mV mE f r).result = bindSum f r ∧
    (thenValue mV mE g r).result = bindSum (fun v => .ok (g v)) r ∧
    ((thenVoid mV mE r).result = none ↔ isOk r = true) ∧ (∀ e, (thenVoid mV mE r).result = some e ↔ r = .err e) ∧
    (∀ cs ∈ [(andThen f r).calls, (andThenMoving mV mE f r).calls, (thenValue mV mE g r).calls, (thenVoid mV mE r).calls],
      (∀ v, r = .ok v → cs = [v]) ∧ (∀ e, r = .err e → cs = [])) := by
  cases r <;> simp [andThen, andThenMoving, thenValue, thenVoid, bindSum, isOk]

/-- **C56** (full): the monad laws of `then`. -/
theorem C56_monad (v : V) (f : V → Res U E) (g : U → Res W E) (r : Res V E) :
    (andThen f (.ok v)).result = f v ∧ (andThen (fun x => .ok x) r).result = r ∧
    (andThen g (andThen f r).result).result = (andThen (fun x => (andThen g (f x)).result) r).result := by
  cases r <;> exact ⟨rfl, rfl, rfl⟩

/-- **C56** (full): the functor laws of `then` with plain functions. -/
theorem C56_functor (mV : V → V) (mE : E → E) (mU : U → U) (f : V → U) (g : U → W) (r : Res V E) :
    (thenValue mV mE id r).result = r ∧
    (thenValue mU mE g (thenValue mV mE f r).result).result = (thenValue mV mE (g ∘ f) r).result := by
  cases r <;> exact ⟨rfl, rfl⟩

/-- **C56** (full): `orElse` handles the error and only the error. -/
theorem C56_orElse (mV : V → V) (mE : E → E) (f : E → Res V E') (conv : V → U) (g : E → U) (r : Res V E) :
    (∀ v, r = .ok v → (orElse mV mE f r).result = .ok v ∧ (orElse mV mE f r).calls = [] ∧
      (orElseValue mV mE conv g r).result = .ok (conv v) ∧ (orElseValue mV mE conv g r).calls = []) ∧
    (∀ e, r = .err e → (orElse mV mE f r).result = f e ∧ (orElse mV mE f r).calls = [e] ∧
      (orElseValue mV mE conv g r).result = .ok (g e) ∧ (orElseValue mV mE conv g r).calls = [e]) := by
  cases r <;> simp [orElse, orElseValue]

/-- **C56** (full): the monad laws of `orElse`, with errors in the role of values. -/
theorem C56_orElse_monad (mV : V → V) (mE : E → E) (mE' : E' → E') (e : E) (f : E → Res V E') (g : E' → Res V E'') (r : Res V E) :
    (orElse mV mE f (.err e)).result = f e ∧ (orElse mV mE (fun x => .err x) r).result = r ∧
    (orElse mV mE' g (orElse mV mE f r).result).result = (orElse mV mE (fun x => (orElse mV mE' g (f x)).result) r).result := by
  cases r <;> exact ⟨rfl, rfl, rfl⟩

/-- **C56** (full): `mapError` is the functor on the error side; the handler is called exactly for errors. -/
theorem C56_mapError (mV : V → V) (mE : E → E) (f : E → E') (g : E' → E'') (r : Res V E) :
    (mapError id r).result = r ∧ (mapError g (mapError f r).result).result = (mapError (g ∘ f) r).result ∧
    (mapErrorMoving mV mE f r).result = (mapError f r).result ∧
    (∀ v, r = .ok v → (mapError f r).result = .ok v ∧ (mapError f r).calls = [] ∧ (mapErrorMoving mV mE f r).calls = []) ∧
    (∀ e, r = .err e → (mapError f r).result = .err (f e) ∧ (mapError f r).calls = [e] ∧ (mapErrorMoving mV mE f r).calls = [e]) := by
  cases r <;> simp [mapError, mapErrorMoving]

/-- **C56** (full): on a const object or an lvalue, `then` with a result-returning function and `mapError` leave the object
as it was. -/
theorem C56_unchanged (f : V → Res U E) (g : E → E') (r : Res V E) :
    (andThen f r).after = r ∧ (mapError g r).after = r := by
  cases r <;> exact ⟨rfl, rfl⟩

/-- **C56**: `then` with a plain function, and `orElse`, leave a moved-from object behind, also when called on an lvalue. -/
theorem C56_consumes (mV : V → V) (mE : E → E) (f : V → U) (g : E → Res V E') (r : Res V E) :
    (thenValue mV mE f r).after = moveOut mV mE r ∧ (orElse mV mE g r).after = moveOut mV mE r := by
  cases r <;> exact ⟨rfl, rfl⟩

/-- **C56** (full): `Result<void, E>` obeys the same laws. -/
theorem C56_void (f : Unit → Res U E) (g : E → Option E') (h : E → E') (r : Option E) :
    (voidIsOk r = true → (voidThen f r).result = f () ∧ (voidThen f r).calls = [()] ∧ (voidOrElse g r).result = none ∧
      (voidOrElse g r).calls = [] ∧ (voidMapError h r).result = none ∧ (voidMapError h r).calls = [] ∧ voidGetError r = .throws) ∧
    (∀ e, r = some e → (voidThen f r).result = .err e ∧ (voidThen f r).calls = [] ∧ (voidOrElse g r).result = g e ∧
      (voidOrElse g r).calls = [e] ∧ (voidMapError h r).result = some (h e) ∧ (voidMapError h r).calls = [e] ∧
      voidGetError r = .ok e) := by
  cases r <;> simp [voidIsOk, voidThen, voidOrElse, voidMapError, voidGetError, Opt.get]

/-- **C56** (partial: two different objects): `swap` and move assignment exchange the contents and touch no other object.
Missing: an object with itself, where the property fails (`C56_self_swap`). -/
theorem C56_swap_partial (mV : V → V) (mE : E → E) (s : Store (Cell V E)) (i j : Nat) (a b : Res V E) (hij : i ≠ j)
    (hi : s i = .live a) (hj : s j = .live b) :
    ∃ s', swap mV mE s i j = .ok s' ∧ assign mV mE s i j = .ok s' ∧ s' i = .live b ∧ s' j = .live a ∧
      ∀ k, k ≠ i → k ≠ j → s' k = s k := by
  have hji : j ≠ i := fun e => hij e.symm
  have key : ∃ s', swap mV mE s i j = .ok s' ∧ s' i = .live b ∧ s' j = .live a ∧ ∀ k, k ≠ i → k ≠ j → s' k = s k := by
    simp only [swap, take, hi, Outcome.bind_ok, Store.set, if_true, if_neg hji, hj, Outcome.pure_def]
    refine ⟨_, rfl, ?_, ?_, ?_⟩
    · simp [Store.set, hij]
    · simp [Store.set]
    · intro k h1 h2; simp [Store.set, h1, h2]
  obtain ⟨s', h1, h2⟩ := key
  exact ⟨s', h1, h1, h2⟩

/-- **C56, negation**: swapping or move-assigning a `Result` with itself constructs its content from the content it has just
destroyed. -/
theorem C56_self_swap (mV : V → V) (mE : E → E) (s : Store (Cell V E)) (i : Nat) (a : Res V E) (hi : s i = .live a) :
    swap mV mE s i i = .ub ∧ assign mV mE s i i = .ub := by
  have : swap mV mE s i i = .ub := by
    simp [swap, take, hi, Store.set]
  exact ⟨this, this⟩

example : (andThen (fun x => if x = 1 then .ok 2 else .err 9) (.ok 1 : Res Nat Nat)).result = .ok 2 ∧
    (mapError (· + 1) (.err 4 : Res Nat Nat)).result = .err 5 := by decide
example : ∃ s', swap id id (fun i => if i = 0 then Cell.live (.ok 1) else .live (.err 2) : Store (Cell Nat Nat)) 0 1 = .ok s' ∧
    s' 0 = .live (.err 2) ∧ s' 1 = .live (.ok 1) := by
  obtain ⟨s', h1, _, h2, h3, _⟩ := C56_swap_partial id id (fun i => if i = 0 then Cell.live (.ok 1) else .live (.err 2) : Store (Cell Nat Nat))
    0 1 _ _ (by decide) rfl rfl
  exact ⟨s', h1, h2, h3⟩

end Solace.Res
