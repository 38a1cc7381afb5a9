import Verif.Lemmas.CallableTables
/-
C139: `forEach` can be called with the callbacks that can be given the elements.
-/
namespace Solace.Callable

open Spec

/-- **C139** (full): for references `isCallable` is `std::is_invocable` without the callbacks that return references. -/
theorem C139_invocable (kinds : Nat → Kind) (ty : Nat) (const : Bool) (m : Mode) (hm : m ≠ .plain) (p : Param) (r : Ret) (q : Qual)
    (lvalue : Bool) :
    isCallable kinds ⟨.fixed [p], r, q⟩ lvalue [inst kinds ty const m] = true ↔
      Invocable1 (kinds ty) ty const m p q lvalue ∧ ¬ RefResult r := by
  rw [isCallable_iff, calls_fixed]
  cases m
  · exact absurd rfl hm
  · simp [inst, bindsAll, binds_named, Invocable1]
  · simp [inst, bindsAll, binds_expiring, Invocable1]

example : (Mode.lref ≠ .plain) ∧ isCallable (fun _ => .scalar) ⟨.fixed [⟨some 1, .cref⟩], .value, .none⟩ true
    [inst (fun _ => .scalar) 1 true .lref] = true ∧
    isCallable (fun _ => .scalar) ⟨.fixed [⟨some 1, .cref⟩], .lref, .none⟩ true [inst (fun _ => .scalar) 1 true .lref] = false := by decide

/-- **C139** (full): for types that are no references too, when values of the type can be moved (and copied, for `const` ones that
must then be classes). -/
theorem C139_invocable_value (kinds : Nat → Kind) (ty : Nat) (const : Bool) (p : Param) (r : Ret) (q : Qual) (lvalue : Bool)
    (hk : if const then ∃ m, kinds ty = .cls true m else Movable (kinds ty)) :
    isCallable kinds ⟨.fixed [p], r, q⟩ lvalue [inst kinds ty const .plain] = true ↔
      Invocable1 (kinds ty) ty const .plain p q lvalue ∧ ¬ RefResult r := by
  rw [isCallable_iff, calls_fixed]
  have : binds kinds p (inst kinds ty const .plain) = true ↔ TakesExpiring (kinds ty) ty const p := by
    cases const
    · simp only [Bool.false_eq_true, if_false] at hk
      rcases p with ⟨_ | t, form⟩ <;> cases form <;> simp [binds, inst, TakesExpiring, Typed, initialises, hk]
    · simp only [if_true] at hk
      obtain ⟨m, hk⟩ := hk
      rcases p with ⟨_ | t, form⟩ <;> cases form <;> simp [binds, inst, TakesExpiring, Typed, initialises, hk, Copyable]
  simp [bindsAll, this, Invocable1]

example : (if true then ∃ m, Kind.cls true true = .cls true m else Movable (.cls true true)) ∧
    (if false then ∃ m, Kind.cls false true = .cls true m else Movable (.cls false true)) ∧
    isCallable (fun _ => .cls false true) ⟨.fixed [⟨some 1, .rref⟩], .void, .none⟩ false
      [inst (fun _ => .cls false true) 1 false .plain] = true := by
  refine ⟨⟨true, rfl⟩, rfl, by decide⟩

/-- **C139**: otherwise it is not `std::is_invocable`: a value that can be neither copied nor moved is taken to be given to a
parameter, and a `const` number to a `&&` parameter. -/
theorem C139_invocable_value_false :
    (isCallable (fun _ => .cls false false) ⟨.fixed [⟨some 1, .value⟩], .void, .none⟩ false
        [inst (fun _ => .cls false false) 1 false .plain] = true ∧
      ¬ Invocable1 (.cls false false) 1 false .plain ⟨some 1, .value⟩ .none false) ∧
    (isCallable (fun _ => .scalar) ⟨.fixed [⟨some 1, .rref⟩], .void, .none⟩ false
        [inst (fun _ => .scalar) 1 true .plain] = true ∧
      ¬ Invocable1 .scalar 1 true .plain ⟨some 1, .rref⟩ .none false) := by
  refine ⟨⟨by decide, ?_⟩, by decide, ?_⟩ <;> simp [Invocable1, TakesExpiring, Movable]

/-! Callbacks with one parameter. -/

/-- **C139** (full): for an array, `const` or not, and a callback with one parameter: the callback is given the elements when its
parameter takes a named element (`const` for a `const` array), its operator can be used on the callback as it was given and
by name, and it does not return a reference. The call is rejected, so that another function may be chosen, in the cases of
`Rejected1`; in the others it is an error in the body of the function chosen. Indexes are numbers. -/
theorem C139_array (kinds : Nat → Kind) (hi : kinds index = .scalar) (const : Bool) (p : Param) (r : Ret) (q : Qual) (lvalue : Bool) :
    (arrayForEach kinds const ⟨.fixed [p], r, q⟩ lvalue = .elements (!const) ↔
      TakesNamed (kinds elem) elem const p ∧ Usable q lvalue ∧ ¬ RefResult r) ∧
    (arrayForEach kinds const ⟨.fixed [p], r, q⟩ lvalue = .noMatch ↔ Rejected1 const p r q lvalue) ∧
    (arrayForEach kinds const ⟨.fixed [p], r, q⟩ lvalue ∈ [Compiled.elements (!const), .noMatch, .bodyError]) := by
  by_cases hr : RefResult r
  · rw [array_ref kinds const ⟨.fixed [p], r, q⟩ lvalue hr]
    simp [hr, Rejected1]
  rw [array_void kinds const _ r q lvalue hr, array_congr kinds (only (kinds elem)) (by rw [hi]; rfl) (by simp [only]),
    array_norm]
  have rej : Rejected1 const (norm 1 p) .void q lvalue ↔ Rejected1 const p r q lvalue := by
    have hv : ¬ RefResult .void := by decide
    rw [Rejected1, Rejected1, typed_norm 1 elem p (by decide), ne_eq, norm_none, show (norm 1 p).form = p.form from rfl]
    simp only [hr, hv]
  rw [← rej, ← named_norm _ 1 _ _ _ (by decide)]
  simp only [hr, not_false_eq_true, and_true, List.map_cons, List.map_nil]
  generalize hp : norm 1 p = p'
  have hm : p' ∈ paramsAll 1 := hp ▸ mem_params 1 p
  rcases qual_cases q lvalue with hq | hq | ⟨hq, hl⟩
  · have t := array_one_table (kinds elem) (mem_kinds _) const (mem_bools _) p' hm (.none, true) (by decide)
    rw [array_usable _ _ _ _ _ _ hq]
    refine ⟨t.1.trans ?_, t.2.1.trans ?_, t.2.2⟩
    · simp [hq, show Usable .none true from Or.inl rfl]
    · have ho : ObjectOk q lvalue := by
        rcases hq with h | h
        · exact Or.inl h
        · exact Or.inr (Or.inl h)
      simp [Rejected1, ho, show ObjectOk .none true from Or.inl rfl, show ¬ RefResult .void by decide]
  · rw [array_not _ _ _ _ hq]
    have : ¬ Usable q lvalue := fun h => hq (by
      rcases h with h | h
      · exact Or.inl h
      · exact Or.inr (Or.inl h))
    simp [this, Rejected1, hq]
  · subst hq hl
    exact array_one_table (kinds elem) (mem_kinds _) const (mem_bools _) p' hm (.rvalue, false) (by decide)

example : (fun n => if n = elem then Kind.cls false true else .scalar) index = .scalar ∧
    arrayForEach (only (.cls false true)) false ⟨.fixed [⟨some elem, .ref⟩], .void, .none⟩ false = .elements true ∧
    arrayForEach (only (.cls false true)) true ⟨.fixed [⟨some elem, .ref⟩], .void, .none⟩ false = .noMatch ∧
    arrayForEach (only (.cls false true)) false ⟨.fixed [⟨some elem, .value⟩], .void, .none⟩ false = .bodyError := by decide

/-- **C139**: so not every callback that can be given the elements can be used: not one that returns a reference, nor one whose
operator is for names only, given as a temporary. -/
theorem C139_array_false :
    (TakesNamed .scalar elem false ⟨some elem, .ref⟩ ∧
      arrayForEach (only .scalar) false ⟨.fixed [⟨some elem, .ref⟩], .lref, .none⟩ true = .noMatch) ∧
    (calls (only .scalar) ⟨.fixed [⟨some elem, .ref⟩], .void, .lvalue⟩ true [⟨elem, false, .lvalue⟩] = true ∧
      arrayForEach (only .scalar) false ⟨.fixed [⟨some elem, .ref⟩], .void, .lvalue⟩ false = .noMatch) := by decide

/-- **C139**: nor is every callback that cannot be used rejected: one that takes `T&&`, or copies of elements that cannot be copied,
is an error inside the library. -/
theorem C139_array_error :
    arrayForEach (only .scalar) false ⟨.fixed [⟨some elem, .rref⟩], .void, .none⟩ true = .bodyError ∧
    arrayForEach (only (.cls false true)) true ⟨.fixed [⟨some elem, .value⟩], .void, .none⟩ true = .bodyError := by decide

/-- **C139** (partial: callbacks that return references and operators with `&` or `&&` are excluded, see `C139_array_false`): a callback
with one parameter can be used exactly when it can be given the elements. -/
theorem C139_array_partial (kinds : Nat → Kind) (hi : kinds index = .scalar) (const : Bool) (p : Param) (r : Ret) (lvalue : Bool)
    (hr : ¬ RefResult r) :
    arrayForEach kinds const ⟨.fixed [p], r, .none⟩ lvalue = .elements (!const) ↔ TakesNamed (kinds elem) elem const p := by
  rw [(C139_array kinds hi const p r .none lvalue).1]
  exact ⟨fun h => h.1, fun h => ⟨h, Or.inl rfl, hr⟩⟩

example : ¬ RefResult .value := by decide

/-- **C139** (full): the same for a view, `const` or not, of elements that are `const` or not. -/
theorem C139_view (kinds : Nat → Kind) (hi : kinds index = .scalar) (c const : Bool) (p : Param) (r : Ret) (q : Qual) (lvalue : Bool) :
    (viewForEach kinds c const ⟨.fixed [p], r, q⟩ lvalue = .elements (!(c || const)) ↔
      TakesNamed (kinds elem) elem (c || const) p ∧ Usable q lvalue ∧ ¬ RefResult r) ∧
    (viewForEach kinds c const ⟨.fixed [p], r, q⟩ lvalue ∈ [Compiled.elements (!(c || const)), .noMatch, .bodyError]) := by
  by_cases hr : RefResult r
  · rw [view_ref kinds c const ⟨.fixed [p], r, q⟩ lvalue hr]
    simp [hr]
  rw [view_void kinds c const _ r q lvalue hr, view_congr kinds (only (kinds elem)) (by rw [hi]; rfl) (by simp [only]),
    view_norm]
  rw [← named_norm _ 1 _ _ _ (by decide)]
  simp only [hr, not_false_eq_true, and_true, List.map_cons, List.map_nil]
  generalize hp : norm 1 p = p'
  have hm : p' ∈ paramsAll 1 := hp ▸ mem_params 1 p
  rcases qual_cases q lvalue with hq | hq | ⟨hq, hl⟩
  · have t := view_one_table (kinds elem) (mem_kinds _) c (mem_bools _) const (mem_bools _) p' hm (.none, true) (by decide)
    rw [view_usable _ _ _ _ _ _ _ hq]
    refine ⟨t.1.trans ?_, t.2⟩
    simp [hq, show Usable .none true from Or.inl rfl]
  · rw [view_not _ _ _ _ _ hq]
    have : ¬ Usable q lvalue := fun h => hq (by
      rcases h with h | h
      · exact Or.inl h
      · exact Or.inr (Or.inl h))
    simp [this]
  · subst hq hl
    exact view_one_table (kinds elem) (mem_kinds _) c (mem_bools _) const (mem_bools _) p' hm (.rvalue, false) (by decide)

example : viewForEach (only (.cls true true)) true false ⟨.fixed [⟨none, .ref⟩], .void, .none⟩ false = .elements false ∧
    viewForEach (only (.cls true true)) false true ⟨.fixed [⟨some elem, .ref⟩], .void, .none⟩ false = .noMatch := by decide

/-! Callbacks with an index. -/

/-- **C139** (full): for a callback with an index and an element, an array gives copies of the elements, never the elements
themselves, and does so when the parameters take a number and a named element, elements can be copied, and the callback can
be used as above. -/
theorem C139_array_indexed (kinds : Nat → Kind) (hi : kinds index = .scalar) (const : Bool) (i p : Param) (r : Ret) (q : Qual)
    (lvalue : Bool) :
    (arrayForEach kinds const ⟨.fixed [i, p], r, q⟩ lvalue = .copies ↔
      TakesIndex i ∧ TakesNamed (kinds elem) elem const p ∧ Copyable (kinds elem) ∧ Usable q lvalue ∧ ¬ RefResult r) ∧
    (arrayForEach kinds const ⟨.fixed [i, p], r, q⟩ lvalue = .noMatch ↔ Rejected2 (kinds elem) const i p r q lvalue) ∧
    (arrayForEach kinds const ⟨.fixed [i, p], r, q⟩ lvalue ∈ [Compiled.copies, .noMatch, .bodyError]) := by
  by_cases hr : RefResult r
  · rw [array_ref kinds const ⟨.fixed [i, p], r, q⟩ lvalue hr]
    simp [hr, Rejected2]
  rw [array_void kinds const _ r q lvalue hr, array_congr kinds (only (kinds elem)) (by rw [hi]; rfl) (by simp [only]),
    array_norm]
  have rej : Rejected2 (kinds elem) const (norm 1 i) (norm 1 p) .void q lvalue ↔ Rejected2 (kinds elem) const i p r q lvalue := by
    have hv : ¬ RefResult .void := by decide
    rw [Rejected2, Rejected2, typed_norm 1 elem p (by decide), typed_norm 1 index i (by decide),
      named_norm _ 1 _ _ _ (show elem ≤ 1 by decide), show (norm 1 i).form = i.form from rfl]
    simp only [hr, hv]
  rw [← rej, ← named_norm _ 1 _ _ _ (by decide), ← index_norm 1]
  simp only [hr, not_false_eq_true, and_true, List.map_cons, List.map_nil]
  generalize hp : norm 1 p = p'
  generalize hj : norm 1 i = i'
  have hm : p' ∈ paramsAll 1 := hp ▸ mem_params 1 p
  have hn : i' ∈ paramsAll 1 := hj ▸ mem_params 1 i
  rcases qual_cases q lvalue with hq | hq | ⟨hq, hl⟩
  · have t := array_two_table (kinds elem) (mem_kinds _) const (mem_bools _) i' hn p' hm (.none, true) (by decide)
    rw [array_usable _ _ _ _ _ _ hq]
    refine ⟨t.1.trans ?_, t.2.1.trans ?_, t.2.2⟩
    · simp [hq, show Usable .none true from Or.inl rfl]
    · have ho : ObjectOk q lvalue := by
        rcases hq with h | h
        · exact Or.inl h
        · exact Or.inr (Or.inl h)
      simp [Rejected2, ho, show ObjectOk .none true from Or.inl rfl, show ¬ RefResult .void by decide]
  · rw [array_not _ _ _ _ hq]
    have : ¬ Usable q lvalue := fun h => hq (by
      rcases h with h | h
      · exact Or.inl h
      · exact Or.inr (Or.inl h))
    simp [this, Rejected2, hq]
  · subst hq hl
    exact array_two_table (kinds elem) (mem_kinds _) const (mem_bools _) i' hn p' hm (.rvalue, false) (by decide)

example : arrayForEach (only .scalar) false ⟨.fixed [⟨some index, .value⟩, ⟨some elem, .ref⟩], .void, .none⟩ false = .copies ∧
    arrayForEach (only .scalar) false ⟨.fixed [⟨some index, .ref⟩, ⟨some elem, .ref⟩], .void, .none⟩ false = .noMatch := by decide

/-- **C139**: a callback that takes an index and a reference to each element is given copies, and is an error inside the library for
elements that cannot be copied. -/
theorem C139_indexed_false :
    TakesNamed (.cls false true) elem false ⟨some elem, .ref⟩ ∧ TakesIndex ⟨some index, .value⟩ ∧
    arrayForEach (only (.cls false true)) false ⟨.fixed [⟨some index, .value⟩, ⟨some elem, .ref⟩], .void, .none⟩ false = .bodyError ∧
    arrayForEach (only (.cls true true)) false ⟨.fixed [⟨some index, .value⟩, ⟨some elem, .ref⟩], .void, .none⟩ false = .copies := by
  decide

/-- **C139** (full): the same for views. -/
theorem C139_view_indexed (kinds : Nat → Kind) (hi : kinds index = .scalar) (c const : Bool) (i p : Param) (r : Ret) (q : Qual)
    (lvalue : Bool) :
    (viewForEach kinds c const ⟨.fixed [i, p], r, q⟩ lvalue = .copies ↔
      TakesIndex i ∧ TakesNamed (kinds elem) elem (c || const) p ∧ Copyable (kinds elem) ∧ Usable q lvalue ∧ ¬ RefResult r) ∧
    (viewForEach kinds c const ⟨.fixed [i, p], r, q⟩ lvalue ∈ [Compiled.copies, .noMatch, .bodyError]) := by
  by_cases hr : RefResult r
  · rw [view_ref kinds c const ⟨.fixed [i, p], r, q⟩ lvalue hr]
    simp [hr]
  rw [view_void kinds c const _ r q lvalue hr, view_congr kinds (only (kinds elem)) (by rw [hi]; rfl) (by simp [only]),
    view_norm]
  rw [← named_norm _ 1 _ _ _ (by decide), ← index_norm 1]
  simp only [hr, not_false_eq_true, and_true, List.map_cons, List.map_nil]
  generalize hp : norm 1 p = p'
  generalize hj : norm 1 i = i'
  have hm : p' ∈ paramsAll 1 := hp ▸ mem_params 1 p
  have hn : i' ∈ paramsAll 1 := hj ▸ mem_params 1 i
  rcases qual_cases q lvalue with hq | hq | ⟨hq, hl⟩
  · have t := view_two_table (kinds elem) (mem_kinds _) c (mem_bools _) const (mem_bools _) i' hn p' hm (.none, true) (by decide)
    rw [view_usable _ _ _ _ _ _ _ hq]
    refine ⟨t.1.trans ?_, t.2⟩
    simp [hq, show Usable .none true from Or.inl rfl]
  · rw [view_not _ _ _ _ _ hq]
    have : ¬ Usable q lvalue := fun h => hq (by
      rcases h with h | h
      · exact Or.inl h
      · exact Or.inr (Or.inl h))
    simp [this]
  · subst hq hl
    exact view_two_table (kinds elem) (mem_kinds _) c (mem_bools _) const (mem_bools _) i' hn p' hm (.rvalue, false) (by decide)

example : viewForEach (only .scalar) true true ⟨.fixed [⟨some index, .cref⟩, ⟨none, .rref⟩], .value, .none⟩ true = .copies := by decide

/-! Other callbacks. -/

/-- **C139** (full): a callback with no parameter or more than two is rejected. -/
theorem C139_other_count (kinds : Nat → Kind) (const : Bool) (ps : List Param) (r : Ret) (q : Qual) (lvalue : Bool)
    (h : ps.length ≠ 1 ∧ ps.length ≠ 2) : arrayForEach kinds const ⟨.fixed ps, r, q⟩ lvalue = .noMatch := by
  refine resolve_disabled _ _ _ ?_
  rcases ps with _ | ⟨a, _ | ⟨b, _ | ⟨c, ps⟩⟩⟩
  · simp [isCallable, calls, bindsAll]
  · exact absurd rfl h.1
  · exact absurd rfl h.2
  · simp [isCallable, calls, bindsAll]

example : ([] : List Param).length ≠ 1 ∧ ([] : List Param).length ≠ 2 := by decide

/-- **C139** (full): a callback for any number of arguments can be given an element alone and with its index: the call is ambiguous,
but for `auto&...`, that cannot be given an index and gets the elements. -/
theorem C139_pack (kinds : Nat → Kind) (hi : kinds index = .scalar) (const : Bool) (form : Form) (r : Ret) (q : Qual) (lvalue : Bool)
    (hq : Usable q lvalue) (hr : ¬ RefResult r) (hc : const = true → Copyable (kinds elem)) :
    arrayForEach kinds const ⟨.pack form, r, q⟩ lvalue = if form = .ref then .elements (!const) else .ambiguous := by
  rw [array_void kinds const _ r q lvalue hr, array_congr kinds (only (kinds elem)) (by rw [hi]; rfl) (by simp [only]),
    array_usable _ _ _ _ _ _ hq]
  have t : ∀ k ∈ kindsAll, ∀ const ∈ boolsAll, ∀ form ∈ formsAll, (const = true → Copyable k) →
      arrayForEach (only k) const ⟨.pack form, .void, .none⟩ true = if form = .ref then .elements (!const) else .ambiguous := by
    decide +kernel
  exact t _ (mem_kinds _) _ (mem_bools _) _ (mem_forms _) hc

example : Usable .none false ∧ ¬ RefResult .void ∧ (true = true → Copyable .scalar) ∧
    arrayForEach (fun _ => .scalar) true ⟨.pack .rref, .void, .none⟩ false = .ambiguous := by decide

/-! Text containers. -/

/-- **C139** (full): `String::forEach` gives the characters to a callback that takes a named `const` character, can be used as it was
given and by name, and returns no reference. -/
theorem C139_string (kinds : Nat → Kind) (hk : kinds elem = .scalar) (p : Param) (r : Ret) (q : Qual) (lvalue : Bool) :
    (stringForEach kinds ⟨.fixed [p], r, q⟩ lvalue = .elements false ↔
      TakesNamed .scalar elem true p ∧ Usable q lvalue ∧ ¬ RefResult r) ∧
    (stringForEach kinds ⟨.fixed [p], r, q⟩ lvalue ∈ [Compiled.elements false, .noMatch, .bodyError]) := by
  by_cases hr : RefResult r
  · rw [string_ref kinds ⟨.fixed [p], r, q⟩ lvalue hr]
    simp [hr]
  rw [string_void kinds _ r q lvalue hr, string_congr kinds textKinds (by rw [hk]; rfl), string_norm, ← named_norm _ 1 _ _ _ (by decide)]
  simp only [hr, not_false_eq_true, and_true, List.map_cons, List.map_nil]
  exact string_table _ (mem_params 1 p) q (mem_quals q) lvalue (mem_bools _)

example : stringForEach textKinds ⟨.fixed [⟨some elem, .value⟩], .void, .none⟩ true = .elements false ∧
    stringForEach textKinds ⟨.fixed [⟨some elem, .rref⟩], .void, .none⟩ true = .bodyError := by decide

/-- **C139** (full): `Path::forEach` gives the components themselves to a callback that takes an expiring `String` when the path is
itself expiring, otherwise views to a callback that takes a new `StringView`. -/
theorem C139_path (kinds : Nat → Kind) (h2 : kinds string = .cls false true) (h3 : kinds stringView = .cls true true)
    (const rvalue : Bool) (p : Param) (r : Ret) (q : Qual) (lvalue : Bool) :
    (pathForEach kinds const rvalue ⟨.fixed [p], r, q⟩ lvalue = .elements true ↔
      rvalue = true ∧ const = false ∧ TakesExpiring (.cls false true) string false p ∧ Usable q lvalue ∧ ¬ RefResult r) ∧
    (pathForEach kinds const rvalue ⟨.fixed [p], r, q⟩ lvalue = .copies ↔
      ¬ (rvalue = true ∧ const = false ∧ TakesExpiring (.cls false true) string false p) ∧
        TakesExpiring (.cls true true) stringView false p ∧ Usable q lvalue ∧ ¬ RefResult r) ∧
    (pathForEach kinds const rvalue ⟨.fixed [p], r, q⟩ lvalue ∈ [Compiled.elements true, .copies, .noMatch, .bodyError]) := by
  by_cases hr : RefResult r
  · rw [path_ref kinds const rvalue ⟨.fixed [p], r, q⟩ lvalue hr]
    simp [hr]
  rw [path_void kinds _ _ _ r q lvalue hr, path_congr kinds textKinds (by rw [h2]; rfl) (by rw [h3]; rfl), path_norm,
    ← expiring_norm _ 4 string _ _ (by decide), ← expiring_norm _ 4 stringView _ _ (by decide)]
  simp only [hr, not_false_eq_true, and_true, List.map_cons, List.map_nil]
  exact path_table const (mem_bools _) rvalue (mem_bools _) _ (mem_params 4 p) q (mem_quals q) lvalue (mem_bools _)

example : textKinds string = .cls false true ∧ textKinds stringView = .cls true true ∧
    pathForEach textKinds false true ⟨.fixed [⟨some string, .rref⟩], .void, .none⟩ false = .elements true ∧
    pathForEach textKinds false true ⟨.fixed [⟨some stringView, .value⟩], .void, .none⟩ false = .copies ∧
    pathForEach textKinds false false ⟨.fixed [⟨some string, .rref⟩], .void, .none⟩ false = .noMatch := by decide

/-- **C139** (full): `Env::forEach` gives a copy of each variable to a callback that takes a named `const` variable. -/
theorem C139_env (kinds : Nat → Kind) (hi : kinds index = .scalar) (h3 : kinds stringView = .cls true true)
    (h4 : kinds var = .cls true true) (p : Param) (r : Ret) (q : Qual) (lvalue : Bool) :
    (envForEach kinds ⟨.fixed [p], r, q⟩ lvalue = .copies ↔
      TakesNamed (.cls true true) var true p ∧ Usable q lvalue ∧ ¬ RefResult r) ∧
    (envForEach kinds ⟨.fixed [p], r, q⟩ lvalue ∈ [Compiled.copies, .noMatch, .bodyError]) := by
  by_cases hr : RefResult r
  · rw [env_ref kinds ⟨.fixed [p], r, q⟩ lvalue hr]
    simp [hr]
  rw [env_void kinds _ r q lvalue hr, env_congr kinds textKinds (by rw [hi]; rfl) (by rw [h3]; rfl) (by rw [h4]; rfl), env_norm,
    ← named_norm _ 4 _ _ _ (by decide)]
  simp only [hr, not_false_eq_true, and_true, List.map_cons, List.map_nil]
  exact env_one_table _ (mem_params 4 p) q (mem_quals q) lvalue (mem_bools _)

example : textKinds index = .scalar ∧ textKinds var = .cls true true ∧
    envForEach textKinds ⟨.fixed [⟨some var, .cref⟩], .void, .none⟩ false = .copies ∧
    envForEach textKinds ⟨.fixed [⟨some var, .ref⟩], .void, .none⟩ false = .noMatch := by decide

/-- **C139** (full): a callback with two parameters gets names and values, or numbers and variables. A callback that takes both is
ambiguous, and one that takes numbers and variables by `auto&` is an error inside the library. -/
theorem C139_env_two (kinds : Nat → Kind) (hi : kinds index = .scalar) (h3 : kinds stringView = .cls true true)
    (h4 : kinds var = .cls true true) (a b : Param) (r : Ret) (q : Qual) (lvalue : Bool) :
    (envForEach kinds ⟨.fixed [a, b], r, q⟩ lvalue = .copies ↔
      (Usable q lvalue ∧ ¬ RefResult r) ∧
        ((TakesPair a b ∧ ¬ TakesNumbered a b) ∨ (TakesNumbered a b ∧ ¬ TakesPair a b ∧ b.form ≠ .ref))) ∧
    (envForEach kinds ⟨.fixed [a, b], r, q⟩ lvalue = .ambiguous ↔
      (ObjectOk q lvalue ∧ ¬ RefResult r) ∧ TakesPair a b ∧ TakesNumbered a b) := by
  by_cases hr : RefResult r
  · rw [env_ref kinds ⟨.fixed [a, b], r, q⟩ lvalue hr]
    simp [hr]
  rw [env_void kinds _ r q lvalue hr, env_congr kinds textKinds (by rw [hi]; rfl) (by rw [h3]; rfl) (by rw [h4]; rfl), env_norm,
    ← pair_norm, ← numbered_norm, show b.form = (norm 4 b).form from rfl]
  simp only [hr, not_false_eq_true, and_true, List.map_cons, List.map_nil]
  exact env_two_table _ (mem_params 4 a) _ (mem_params 4 b) q (mem_quals q) lvalue (mem_bools _)

example : TakesPair ⟨some stringView, .value⟩ ⟨none, .cref⟩ ∧ ¬ TakesNumbered ⟨some stringView, .value⟩ ⟨none, .cref⟩ ∧
    TakesPair ⟨none, .value⟩ ⟨none, .value⟩ ∧ TakesNumbered ⟨none, .value⟩ ⟨none, .value⟩ := by decide

/-- **C139**: `Env::forEach` with `[](auto, auto)` is ambiguous, and with `[](size_type, auto&)` an error inside the library. -/
theorem C139_env_false :
    envForEach textKinds ⟨.fixed [⟨none, .value⟩, ⟨none, .value⟩], .void, .none⟩ false = .ambiguous ∧
    envForEach textKinds ⟨.fixed [⟨some index, .value⟩, ⟨none, .ref⟩], .void, .none⟩ false = .bodyError := by decide

end Solace.Callable
