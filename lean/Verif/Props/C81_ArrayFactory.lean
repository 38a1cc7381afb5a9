import Verif.Model.ArrayFactory
import Verif.Props.C44_Vector
/-
C81: an array or vector made from elements shows these elements. What is seen is `size`, `empty`, `operator[]` and the
comparisons.
-/
namespace Solace.Vec
variable {α : Type u}

theorem copyLoop_eq (xs : List α) : ∀ (rest : List α) (dest : List (Option α)), xs.length ≤ dest.length →
    copyLoop xs.length (xs ++ rest) dest = .ok (xs.map some ++ dest.drop xs.length) := by
  induction xs with
  | nil => intro rest dest _; simp [copyLoop]
  | cons x xs ih =>
    intro rest dest h
    cases dest with
    | nil => simp at h
    | cons d dest =>
      simp only [List.length_cons] at h
      rw [List.length_cons, List.cons_append, copyLoop, ih rest dest (by omega)]
      simp

theorem shown_holds {sz : Nat} {v : Vec α} {xs : List α} (h : Holds sz v xs) : shown sz v = xs.map some := by
  rw [shown, h.viewSize_eq, h.content]

theorem bytes_div {sz n : Nat} (hsz : 0 < sz) : n * sz / sz = n := Nat.mul_div_cancel n hsz

theorem holds_filled {sz : Nat} (hsz : 0 < sz) (xs : List α) (hx : xs.length * sz < 2 ^ 64) :
    Holds sz ⟨xs.length * sz, xs.map some, xs.length⟩ xs where
  sz_pos := hsz
  machine := hx
  cells := by simp [bytes_div hsz]
  fits := by simp [bytes_div hsz]
  next := rfl
  content := List.take_of_length_le (by simp)

theorem allocate_ok (heap : Nat → Bool) (sz bytes : Nat) (h : heap bytes = true) :
    (allocate heap sz bytes : Except Err (Vec α)) = .ok (ofBytes sz bytes) := by rw [allocate, if_pos h]

theorem allocate_error (heap : Nat → Bool) (sz bytes : Nat) (h : heap bytes = false) :
    (allocate heap sz bytes : Except Err (Vec α)) = .error .nomem := by rw [allocate, h]; rfl

theorem copyConstruct_eq (memcpy : Bool) {sz : Nat} (hsz : 0 < sz) (xs rest : List α) :
    copyConstruct memcpy sz (xs.length * sz) (xs ++ rest) (ofBytes sz (xs.length * sz)) =
      .ok ⟨xs.length * sz, xs.map some, 0⟩ := by
  have hl : (ofBytes (α := α) sz (xs.length * sz)).cells.length = xs.length := by simp [ofBytes, bytes_div hsz]
  have hc := copyLoop_eq xs rest (ofBytes sz (xs.length * sz)).cells (by omega)
  have hd : (ofBytes (α := α) sz (xs.length * sz)).cells.drop xs.length = [] := List.drop_of_length_le (by omega)
  rw [hd, List.append_nil] at hc
  cases memcpy with
  | false =>
    rw [copyConstruct, bytes_div hsz]
    simp only [Bool.false_eq_true, if_false, hc, Outcome.bind_ok]
    rfl
  | true =>
    rw [copyConstruct, copyBytes, bytes_div hsz]
    by_cases h0 : xs.length = 0
    · have : xs = [] := List.eq_nil_of_length_eq_zero h0
      subst this
      simp [ofBytes]
    · rw [if_pos rfl, if_neg h0, if_neg (by simp [ofBytes]), hc]
      rfl

/-- **C81**, `makeArray(n)`: `n` value-initialised elements. -/
theorem makeArray_holds (heap : Nat → Bool) {sz n : Nat} (hsz : 0 < sz) (hn : n * sz < 2 ^ 64) (hh : heap (n * sz) = true)
    (x : α) : ∃ a, makeArray heap sz n x = .ok a ∧ a.bytes = n * sz ∧ Holds sz a (List.replicate n x) := by
  refine ⟨⟨n * sz, (List.replicate n x).map some, n⟩, ?_, rfl, ?_⟩
  · rw [makeArray, wrap64_of_lt hn, allocate_ok heap sz _ hh]
    simp [ofBytes, bytes_div hsz]
  · have := holds_filled hsz (List.replicate n x) (by simpa using hn)
    simpa using this

theorem makeArrayFrom_holds (heap : Nat → Bool) (memcpy : Bool) {sz : Nat} (hsz : 0 < sz) (xs rest : List α)
    (hn : xs.length * sz < 2 ^ 64) (hh : heap (xs.length * sz) = true) :
    ∃ a, makeArrayFrom heap memcpy sz xs.length (xs ++ rest) = .ok (.ok a) ∧ a.bytes = xs.length * sz ∧ Holds sz a xs := by
  refine ⟨_, ?_, rfl, holds_filled hsz xs hn⟩
  rw [makeArrayFrom, Nat.mul_comm sz, wrap64_of_lt hn, allocate_ok heap sz _ hh]
  simp only [copyConstruct_eq memcpy hsz xs rest, Outcome.bind_ok]

theorem makeVectorFrom_holds (heap : Nat → Bool) (memcpy : Bool) {sz : Nat} (hsz : 0 < sz) (xs rest : List α)
    (hn : xs.length * sz < 2 ^ 64) (hh : heap (xs.length * sz) = true) :
    ∃ a, makeVectorFrom heap memcpy sz (xs.length * sz) (xs ++ rest) = .ok (.ok a) ∧ a.bytes = xs.length * sz ∧
      Holds sz a xs := by
  refine ⟨_, ?_, rfl, holds_filled hsz xs hn⟩
  rw [makeVectorFrom, bytes_div hsz, wrap64_of_lt hn, allocate_ok heap sz _ hh]
  simp only [copyConstruct_eq memcpy hsz xs rest, Outcome.bind_ok]

theorem makeOf_holds (heap : Nat → Bool) {sz : Nat} (hsz : 0 < sz) (xs : List α)
    (hn : xs.length * sz < 2 ^ 64) (hh : heap (xs.length * sz) = true) :
    ∃ a, makeOf heap sz xs = .ok (.ok a) ∧ a.bytes = xs.length * sz ∧ Holds sz a xs := by
  refine ⟨_, ?_, rfl, holds_filled hsz xs hn⟩
  have hl : (ofBytes (α := α) sz (xs.length * sz)).cells.length = xs.length := by simp [ofBytes, bytes_div hsz]
  have hc := copyLoop_eq xs [] (ofBytes sz (xs.length * sz)).cells (by omega)
  have hd : (ofBytes (α := α) sz (xs.length * sz)).cells.drop xs.length = [] := List.drop_of_length_le (by omega)
  rw [hd, List.append_nil, List.append_nil] at hc
  rw [makeOf, wrap64_of_lt hn, allocate_ok heap sz _ hh]
  simp only [hc, Outcome.bind_ok]
  rfl

/-! ### What is seen -/

/-- The container shows exactly the elements `xs`: its size, each element by `operator[]` (an exception for other indexes), and
the elements of the range `begin()` to `end()`. -/
def Shows (sz : Nat) (a : Vec α) (xs : List α) : Prop :=
  a.next = xs.length ∧ (∀ (i : Nat) x, xs[i]? = some x → index sz a i = .ok x) ∧ (∀ i, xs.length ≤ i → index sz a i = .throws) ∧
  shown sz a = xs.map some

theorem Holds.shows {sz : Nat} {a : Vec α} {xs : List α} (h : Holds sz a xs) : Shows sz a xs := by
  refine ⟨h.next, fun i x hx => ?_, fun i hi => ?_, shown_holds h⟩
  · rw [index_eq h, hx]
  · rw [index_eq h, List.getElem?_eq_none hi]

/-- The elements of two lists are pairwise equal. -/
def AllEq (eq : α → α → Bool) (xs ys : List α) : Prop :=
  xs.length = ys.length ∧ ∀ (i : Nat) x y, xs[i]? = some x → ys[i]? = some y → eq x y = true

theorem allEq_cons (eq : α → α → Bool) (x y : α) (xs ys : List α) :
    AllEq eq (x :: xs) (y :: ys) ↔ eq x y = true ∧ AllEq eq xs ys := by
  constructor
  · rintro ⟨h1, h2⟩
    refine ⟨h2 0 x y rfl rfl, by simpa using h1, fun i a b ha hb => h2 (i + 1) a b (by simpa using ha) (by simpa using hb)⟩
  · rintro ⟨h0, h1, h2⟩
    refine ⟨by simp [h1], fun i a b ha hb => ?_⟩
    cases i with
    | zero => simp at ha hb; rw [← ha, ← hb]; exact h0
    | succ i => exact h2 i a b (by simpa using ha) (by simpa using hb)

theorem equalsLoop_spec (eq : α → α → Bool) (xs : List α) : ∀ ys : List α, xs.length = ys.length →
    ∃ b, equalsLoop eq (xs.map some) ys = .ok b ∧ (b = true ↔ AllEq eq xs ys) := by
  induction xs with
  | nil =>
    intro ys h
    cases ys with
    | nil => exact ⟨true, rfl, by simp [AllEq]⟩
    | cons y ys => simp at h
  | cons x xs ih =>
    intro ys h
    cases ys with
    | nil => simp at h
    | cons y ys =>
      obtain ⟨b, h1, h2⟩ := ih ys (by simpa using h)
      rw [List.map_cons, equalsLoop]
      cases he : eq x y with
      | false => exact ⟨false, rfl, by simp [allEq_cons, he]⟩
      | true => exact ⟨b, by simpa using h1, by rw [h2, allEq_cons]; simp [he]⟩

theorem equalsViewLoop_spec (eq : α → α → Bool) (xs : List α) : ∀ ys : List α, xs.length = ys.length →
    ∃ b, equalsViewLoop eq (xs.map some) (ys.map some) = .ok b ∧ (b = true ↔ AllEq eq xs ys) := by
  induction xs with
  | nil =>
    intro ys h
    cases ys with
    | nil => exact ⟨true, rfl, by simp [AllEq]⟩
    | cons y ys => simp at h
  | cons x xs ih =>
    intro ys h
    cases ys with
    | nil => simp at h
    | cons y ys =>
      obtain ⟨b, h1, h2⟩ := ih ys (by simpa using h)
      rw [List.map_cons, List.map_cons, equalsViewLoop]
      cases he : eq x y with
      | false => exact ⟨false, rfl, by simp [allEq_cons, he]⟩
      | true => exact ⟨b, by simpa using h1, by rw [h2, allEq_cons]; simp [he]⟩

/-- **C81**, `makeArray(n)`: the array shows `n` value-initialised elements and is empty exactly when `n` is 0. -/
theorem C81_makeArray_partial (heap : Nat → Bool) (sz n : Nat) (hsz : 0 < sz) (hn : n * sz < 2 ^ 64) (x : α) :
    (heap (n * sz) = true → ∃ a, makeArray heap sz n x = .ok a ∧ Shows sz a (List.replicate n x) ∧
      (arrayEmpty a = true ↔ n = 0)) ∧
    (heap (n * sz) = false → makeArray heap sz n x = .error .nomem) := by
  refine ⟨fun hh => ?_, fun hh => ?_⟩
  · obtain ⟨a, h1, h2, h3⟩ := makeArray_holds heap hsz hn hh x
    refine ⟨a, h1, h3.shows, ?_⟩
    rw [arrayEmpty, h2, beq_iff_eq, Nat.mul_eq_zero]
    omega
  · rw [makeArray, wrap64_of_lt hn, allocate_error heap sz _ hh]

/-- **C81**, `makeArray(n, carray)` and the copies of an array or view, for both ways of copying: the first `n` elements, however
long the memory. -/
theorem C81_makeArrayFrom_partial (heap : Nat → Bool) (memcpy : Bool) (sz n : Nat) (hsz : 0 < sz) (hn : n * sz < 2 ^ 64)
    (mem : List α) (hm : n ≤ mem.length) :
    (heap (n * sz) = true → ∃ a, makeArrayFrom heap memcpy sz n mem = .ok (.ok a) ∧ Shows sz a (mem.take n) ∧
      (arrayEmpty a = true ↔ n = 0)) ∧
    (heap (n * sz) = false → makeArrayFrom heap memcpy sz n mem = .ok (.error .nomem)) := by
  have hl : (mem.take n).length = n := by rw [List.length_take]; omega
  refine ⟨fun hh => ?_, fun hh => ?_⟩
  · obtain ⟨a, h1, h2, h3⟩ := makeArrayFrom_holds heap memcpy hsz (mem.take n) (mem.drop n) (by rw [hl]; exact hn)
      (by rw [hl]; exact hh)
    rw [List.take_append_drop, hl] at h1
    refine ⟨a, h1, h3.shows, ?_⟩
    rw [arrayEmpty, h2, hl, beq_iff_eq, Nat.mul_eq_zero]
    omega
  · rw [makeArrayFrom, wrap64_of_lt hn, allocate_error heap sz _ hh]

/-- **C81**, `makeVector(view)` of a view of `n` whole elements: a vector that shows them and has no room for another. -/
theorem C81_makeVectorFrom_partial (heap : Nat → Bool) (memcpy : Bool) (sz n : Nat) (hsz : 0 < sz) (hn : n * sz < 2 ^ 64)
    (mem : List α) (hm : n ≤ mem.length) :
    (heap (n * sz) = true → ∃ a, makeVectorFrom heap memcpy sz (n * sz) mem = .ok (.ok a) ∧ Shows sz a (mem.take n) ∧
      capacity sz a = n ∧ ∀ x, emplaceBack sz a x = (a, .ok (.error .overflow))) ∧
    (heap (n * sz) = false → makeVectorFrom heap memcpy sz (n * sz) mem = .ok (.error .nomem)) := by
  have hl : (mem.take n).length = n := by rw [List.length_take]; omega
  refine ⟨fun hh => ?_, fun hh => ?_⟩
  · obtain ⟨a, h1, h2, h3⟩ := makeVectorFrom_holds heap memcpy hsz (mem.take n) (mem.drop n) (by rw [hl]; exact hn)
      (by rw [hl]; exact hh)
    rw [List.take_append_drop, hl] at h1
    have hc : a.bytes / sz = n := by rw [h2, hl, bytes_div hsz]
    exact ⟨a, h1, h3.shows, hc, fun x => emplaceBack_full h3 x (by rw [hl, hc])⟩
  · rw [makeVectorFrom, bytes_div hsz, wrap64_of_lt hn, allocate_error heap sz _ hh]

/-- **C81**, `makeVectorOf` and `makeArrayOf`: the container shows the arguments, and a vector has no room for another. The
arguments exist, so their size does not wrap. -/
theorem C81_makeOf (heap : Nat → Bool) (sz : Nat) (hsz : 0 < sz) (xs : List α) (hn : xs.length * sz < 2 ^ 64) :
    (heap (xs.length * sz) = true → ∃ a, makeOf heap sz xs = .ok (.ok a) ∧ Shows sz a xs ∧ capacity sz a = xs.length ∧
      (arrayEmpty a = true ↔ xs = []) ∧ ∀ x, emplaceBack sz a x = (a, .ok (.error .overflow))) ∧
    (heap (xs.length * sz) = false → makeOf heap sz xs = .ok (.error .nomem)) := by
  refine ⟨fun hh => ?_, fun hh => ?_⟩
  · obtain ⟨a, h1, h2, h3⟩ := makeOf_holds heap hsz xs hn hh
    have hc : a.bytes / sz = xs.length := by rw [h2, bytes_div hsz]
    refine ⟨a, h1, h3.shows, hc, ?_, fun x => emplaceBack_full h3 x hc.symm⟩
    rw [arrayEmpty, h2, beq_iff_eq, Nat.mul_eq_zero, List.length_eq_zero_iff]
    constructor
    · rintro (h | h)
      · exact h
      · omega
    · exact Or.inl
  · rw [makeOf, wrap64_of_lt hn, allocate_error heap sz _ hh]

/-- **C81**, `toArray` after any history of a vector: the array shows the elements of the vector, and the vector is empty and
holds nothing. -/
theorem C81_toArray (sz n : Nat) (hsz : 0 < sz) (hn : n * sz < 2 ^ 64) (ops : List (Op α)) :
    Shows sz (toArray (run sz (make sz n) ops).1).1 (specRun n [] ops).1 ∧
    (toArray (run sz (make sz n) ops).1).2.next = 0 ∧ capacity sz (toArray (run sz (make sz n) ops).1).2 = 0 := by
  refine ⟨?_, rfl, ?_⟩
  · rw [toArray]
    exact (C44_vector sz n hsz hn ops).2.shows
  · simp [toArray, empty, capacity]

/-- **C81**, comparison with a list: true exactly when the elements are pairwise equal and as many. -/
theorem C81_equalsList {sz : Nat} {a : Vec α} {xs : List α} (h : Shows sz a xs) (eq : α → α → Bool) (list : List α) :
    ∃ b, equalsList sz eq a list = .ok b ∧ (b = true ↔ AllEq eq xs list) := by
  obtain ⟨h1, -, -, h4⟩ := h
  rw [equalsList, h1, h4]
  by_cases hl : xs.length = list.length
  · rw [if_neg (by omega)]
    exact equalsLoop_spec eq xs list hl
  · rw [if_pos hl]
    exact ⟨false, rfl, by simp [AllEq, hl]⟩

/-- **C81**, comparison of two containers: as for lists, provided that an element is equal to itself when the two are the same
object. -/
theorem C81_equals {sz : Nat} {a b : Vec α} {xs ys : List α} (ha : Holds sz a xs) (hb : Holds sz b ys) (eq : α → α → Bool)
    (same : Bool) (hs : same = true → a = b ∧ ∀ x ∈ xs, eq x x = true) :
    ∃ r, equals sz eq same a b = .ok r ∧ (r = true ↔ AllEq eq xs ys) := by
  rw [equals, ha.viewSize_eq, hb.viewSize_eq, shown_holds ha, shown_holds hb]
  by_cases hl : xs.length = ys.length
  · rw [if_neg (by omega)]
    cases same with
    | false => exact equalsViewLoop_spec eq xs ys hl
    | true =>
      obtain ⟨rfl, hr⟩ := hs rfl
      have : xs = ys := by
        have := ha.content
        rw [hl, hb.content] at this
        exact (List.map_inj_right (fun _ _ h => Option.some.inj h)).1 this.symm
      subst this
      refine ⟨true, rfl, ⟨fun _ => ⟨rfl, fun i x y hx hy => ?_⟩, fun _ => rfl⟩⟩
      rw [hx] at hy
      cases hy
      exact hr x (List.mem_of_getElem? hx)
  · rw [if_pos hl]
    exact ⟨false, rfl, by simp [AllEq, hl]⟩

/-! ### Disagreements -/

/-- Disagreement: `makeArray(n)` multiplies without a check. Asked for 2^61 elements of 8 bytes it succeeds; `size()` is 2^61 and
there is not one element. -/
theorem C81_makeArray_wraps (x : α) : ∃ a, makeArray (fun _ => true) 8 (2 ^ 61) x = .ok a ∧ a.next = 2 ^ 61 ∧
    arrayEmpty a = true ∧ shown 8 a = [] ∧ ∀ i, index 8 a i = .throws := by
  have h : wrap64 (2 ^ 61 * 8) = 0 := by rw [wrap64_def]
  have h' : wrap64 (8 * 2 ^ 61) = 0 := by rw [wrap64_def]
  refine ⟨⟨0, [], 2 ^ 61⟩, ?_, rfl, rfl, ?_, fun i => ?_⟩
  · rw [makeArray, h]; rfl
  · exact List.take_nil
  · rw [index, viewSize, h', if_neg (by simp [MutableMemoryView.slice])]

/-- Disagreement: a vector made from a view of trivially copyable elements whose memory has some bytes after the last whole
element has as many elements as the view, but the copy was refused and its error dropped: the elements were never written. -/
theorem C81_makeVector_unwritten (x : α) : ∃ a, makeVectorFrom (fun _ => true) true 8 12 [x] = .ok (.ok a) ∧ a.next = 1 ∧
    shown 8 a = [none] ∧ index 8 a 0 = .ub := by
  have h : wrap64 8 = 8 := wrap64_of_lt (by omega)
  have hs : viewSize 8 (⟨8, [none], 1⟩ : Vec α) = 1 := by
    rw [viewSize]
    simp only [Nat.mul_one, h]
    rfl
  refine ⟨⟨8, [none], 1⟩, ?_, rfl, ?_, ?_⟩
  · have hw : wrap64 (12 / 8 * 8) = 8 := by simpa using h
    rw [makeVectorFrom, hw]; rfl
  · rw [shown, hs]; rfl
  · rw [index, hs]; rfl

/-- Disagreement: the array of a vector without elements is equal to `{}` but it is not `empty()`, nor equal to `nullptr`. -/
theorem C81_toArray_not_empty (eq : α → α → Bool) : let a := (toArray (make (α := α) 8 2)).1
    a.next = 0 ∧ shown 8 a = [] ∧ equalsList 8 eq a [] = .ok true ∧ arrayEmpty a = false := by
  have h : Holds 8 (make (α := α) 8 2) [] := holds_make 8 2 (by omega)
  refine ⟨rfl, shown_holds h, ?_, ?_⟩
  · obtain ⟨b, h1, h2⟩ := C81_equalsList h.shows eq []
    rw [toArray, h1, h2.2 ⟨rfl, by simp⟩]
  · have hw : wrap64 (2 * 8) = 16 := wrap64_of_lt (by omega)
    rw [toArray, make, hw]; rfl

example : (0 < 8 ∧ 3 * 8 < 2 ^ 64 ∧ 3 ≤ [4, 5, 6, 7].length) ∧
    makeArrayFrom (fun n => decide (n ≤ 100)) true 8 3 [4, 5, 6, 7] = .ok (.ok ⟨24, [some 4, some 5, some 6], 3⟩) ∧
    makeArrayFrom (fun n => decide (n ≤ 20)) false 8 3 [4, 5, 6, 7] = .ok (.error .nomem) ∧
    makeOf (fun _ => true) 4 ["a", "b"] = .ok (.ok ⟨8, [some "a", some "b"], 2⟩) ∧
    equalsList 4 (· == ·) ⟨8, [some "a", some "b"], 2⟩ ["a", "c"] = .ok false := by
  decide +kernel

example : Holds 4 ⟨8, [some "a", some "b"], 2⟩ ["a", "b"] := holds_filled (by omega) ["a", "b"] (by decide)

end Solace.Vec
