import Verif.Spec.Containers
import Verif.Props.C81_ArrayFactory
/-
C125: programs with arrays and vectors are programs with lists.
-/
namespace Solace.Containers
open Vec
variable {α β : Type}

/-! ### Variables -/

theorem get_put (w : List (Option β)) (a : Nat) (c : β) (h : (get w a).isSome = true) (i : Nat) :
    get (put w a c) i = if i = a then some c else get w i := by
  have ha : a < w.length := by
    rw [get] at h
    by_cases hl : a < w.length
    · exact hl
    · rw [List.getElem?_eq_none (by omega)] at h; cases h
  rw [get, put, List.getElem?_set]
  by_cases hi : i = a
  · subst hi; simp [ha]
  · rw [if_neg (fun e => hi e.symm), if_neg hi, get]

theorem get_push (w : List (Option β)) (c : Option β) (i : Nat) :
    get (w ++ [c]) i = if i = w.length then c else get w i := by
  rw [get, get]
  by_cases hi : i < w.length
  · rw [List.getElem?_append_left hi, if_neg (by omega)]
  · rw [List.getElem?_append_right (by omega), List.getElem?_eq_none (l := w) (by omega)]
    by_cases he : i = w.length
    · subst he; simp
    · rw [if_neg he, List.getElem?_eq_none (by simp; omega)]

theorem get_remove (w : List (Option β)) (a i : Nat) : get (w.set a none) i = if i = a then none else get w i := by
  rw [get, get, List.getElem?_set]
  by_cases hi : i = a
  · subst hi
    rw [if_pos rfl, if_pos rfl]
    split <;> rfl
  · rw [if_neg (fun e => hi e.symm), if_neg hi]

/-- The container holds the elements of the box and has its room. -/
def Same (sz : Nat) (c : Cont α) (b : Box α) : Prop :=
  c.vector = b.vector ∧ Holds sz c.store b.items ∧ c.store.bytes = b.room * sz

def SameVar (sz : Nat) : Option (Cont α) → Option (Box α) → Prop
  | none, none => True
  | some c, some b => Same sz c b
  | _, _ => False

/-- The variables of the program hold what the lists say. -/
def Rel (sz : Nat) (w : World α) (s : Lists α) : Prop := w.length = s.length ∧ ∀ i, SameVar sz (get w i) (get s i)

theorem Rel.none {sz : Nat} {w : World α} {s : Lists α} (h : Rel sz w s) {a : Nat} (hw : get w a = none) : get s a = none := by
  have := h.2 a
  rw [hw] at this
  cases hs : get s a with
  | none => rfl
  | some b => rw [hs] at this; cases this

theorem Rel.some {sz : Nat} {w : World α} {s : Lists α} (h : Rel sz w s) {a : Nat} {c : Cont α} (hw : get w a = some c) :
    ∃ b, get s a = some b ∧ Same sz c b := by
  have := h.2 a
  rw [hw] at this
  cases hs : get s a with
  | none => rw [hs] at this; cases this
  | some b => rw [hs] at this; exact ⟨b, rfl, this⟩

theorem Rel.put {sz : Nat} {w : World α} {s : Lists α} (h : Rel sz w s) {a : Nat} {c0 c : Cont α} {b : Box α}
    (hw : get w a = Option.some c0) (hs : Same sz c b) : Rel sz (put w a c) (put s a b) := by
  obtain ⟨b0, hb, _⟩ := h.some hw
  refine ⟨by simp [Containers.put, h.1], fun i => ?_⟩
  rw [get_put _ _ _ (by rw [hw]; rfl), get_put _ _ _ (by rw [hb]; rfl)]
  split
  · exact hs
  · exact h.2 i

theorem Rel.push {sz : Nat} {w : World α} {s : Lists α} (h : Rel sz w s) {c : Cont α} {b : Box α}
    (hs : Same sz c b) : Rel sz (w ++ [Option.some c]) (s ++ [Option.some b]) := by
  refine ⟨by simp [h.1], fun i => ?_⟩
  rw [get_push, get_push, h.1]
  split
  · exact hs
  · exact h.2 i

theorem Rel.remove {sz : Nat} {w : World α} {s : Lists α} (h : Rel sz w s) (a : Nat) :
    Rel sz (w.set a Option.none) (s.set a Option.none) := by
  refine ⟨by simp [h.1], fun i => ?_⟩
  rw [get_remove, get_remove]
  split
  · trivial
  · exact h.2 i

/-! ### Single calls -/

theorem readAll_eq (xs : List α) : readAll (xs.map some) = .ok xs := by
  induction xs with
  | nil => rfl
  | cons x xs ih => rw [List.map_cons, readAll, ih]; rfl

theorem indexOfLoop_eq (eq : α → α → Bool) (value : α) (xs : List α) : ∀ i,
    indexOfLoop eq value (xs.map some) i = .ok ((xs.findIdx? (eq value)).map (· + i)) := by
  induction xs with
  | nil => intro i; rfl
  | cons x xs ih =>
    intro i
    rw [List.map_cons, indexOfLoop, List.findIdx?_cons]
    cases eq value x with
    | true => simp
    | false =>
      rw [if_neg (by simp), ih, if_neg (by simp), Option.map_map]
      congr 2
      funext j
      show j + (i + 1) = j + 1 + i
      omega

theorem listEq_iff (eq : α → α → Bool) (xs : List α) : ∀ ys, listEq eq xs ys = true ↔ AllEq eq xs ys := by
  induction xs with
  | nil => intro ys; cases ys <;> simp [listEq, AllEq]
  | cons x xs ih =>
    intro ys
    cases ys with
    | nil => simp [listEq, AllEq]
    | cons y ys => rw [listEq, Bool.and_eq_true, ih, allEq_cons]

theorem equals_eq {sz : Nat} {a b : Vec α} {xs ys : List α} (ha : Holds sz a xs) (hb : Holds sz b ys) (eq : α → α → Bool) :
    equals sz eq false a b = .ok (listEq eq xs ys) := by
  rw [equals, ha.viewSize_eq, hb.viewSize_eq]
  by_cases hl : xs.length = ys.length
  · rw [if_neg (by simp [hl]), if_neg (by simp), shown_holds ha, shown_holds hb]
    obtain ⟨r, h1, h2⟩ := equalsViewLoop_spec eq xs ys hl
    rw [h1]
    congr 1
    rw [Bool.eq_iff_iff, h2, listEq_iff]
  · rw [if_pos hl]
    congr 1
    symm
    rw [← Bool.not_eq_true, listEq_iff]
    exact fun h => hl h.1

theorem equalsList_eq {sz : Nat} {a : Vec α} {xs : List α} (ha : Holds sz a xs) (eq : α → α → Bool) (ys : List α) :
    equalsList sz eq a ys = .ok (listEq eq xs ys) := by
  rw [equalsList, ha.next]
  by_cases hl : xs.length = ys.length
  · rw [if_neg (by simp [hl]), shown_holds ha]
    obtain ⟨r, h1, h2⟩ := equalsLoop_spec eq xs ys hl
    rw [h1]
    congr 1
    rw [Bool.eq_iff_iff, h2, listEq_iff]
  · rw [if_pos hl]
    congr 1
    symm
    rw [← Bool.not_eq_true, listEq_iff]
    exact fun h => hl h.1

/-- Other elements in place of the ones shown. -/
theorem holds_replace {sz : Nat} {v : Vec α} {xs ys : List α} (h : Holds sz v xs) (hl : ys.length = xs.length) :
    Holds sz { v with cells := ys.map Option.some ++ v.cells.drop xs.length } ys where
  sz_pos := h.sz_pos
  machine := h.machine
  cells := by
    have h1 := h.cells
    have h2 := h.fits
    simp only [List.length_append, List.length_map, List.length_drop]
    omega
  fits := by have := h.fits; rw [hl]; exact this
  next := by rw [hl]; exact h.next
  content := by
    show (ys.map Option.some ++ v.cells.drop xs.length).take ys.length = _
    rw [List.take_append_of_le_length (by simp), List.take_of_length_le (by simp)]

theorem holds_none {sz : Nat} {v : Vec α} {xs : List α} (h : Holds sz v xs) : Holds sz { v with next := 0 } [] where
  sz_pos := h.sz_pos
  machine := h.machine
  cells := h.cells
  fits := Nat.zero_le _
  next := rfl
  content := rfl

theorem holds_empty {sz : Nat} (hsz : 0 < sz) : Holds sz (Vec.empty : Vec α) [] where
  sz_pos := hsz
  machine := by simp [Vec.empty]
  cells := by simp [Vec.empty]
  fits := Nat.zero_le _
  next := rfl
  content := rfl

theorem same_empty {sz : Nat} (hsz : 0 < sz) (vector : Bool) : Same sz ⟨vector, (Vec.empty : Vec α)⟩ ⟨vector, [], 0⟩ :=
  ⟨rfl, holds_empty hsz, by simp [Vec.empty]⟩

theorem setAt_eq {sz : Nat} {v : Vec α} {xs : List α} (h : Holds sz v xs) (i : Nat) (x : α) (hi : i < xs.length) :
    ∃ v', setAt sz v i (some x) = (v', .ok ()) ∧ Holds sz v' (xs.set i x) ∧ v'.bytes = v.bytes := by
  have hc : v.cells[i]? = some (some xs[i]) := by
    have := congrArg (·[i]?) h.content
    simpa [List.getElem?_take, hi] using this
  refine ⟨{ v with cells := v.cells.set i (some x) }, ?_, ?_, rfl⟩
  · rw [setAt, h.viewSize_eq, if_pos hi]
    simp only [hc]
  · exact {
      sz_pos := h.sz_pos
      machine := h.machine
      cells := by simp [h.cells]
      fits := by simpa using h.fits
      next := by simpa using h.next
      content := by
        show (v.cells.set i (some x)).take (xs.set i x).length = (xs.set i x).map some
        rw [List.length_set, List.take_set, h.content, List.map_set] }

/-- One operation. -/
theorem step_rel (sz : Nat) (hsz : 0 < sz) (eq : α → α → Bool) (memcpy trivial : Bool) {w : World α} {s : Lists α}
    (h : Rel sz w s) (op : Op α) (ha : Allowed sz s op) :
    (step sz eq memcpy trivial w op).2 = (specStep eq s op).2 ∧
    Rel sz (step sz eq memcpy trivial w op).1 (specStep eq s op).1 := by
  cases op with
  | newEmpty vector => exact ⟨rfl, h.push (same_empty hsz vector)⟩
  | newVector n memory =>
    have hn : n * sz < 2 ^ 64 := ha
    rw [step, specStep, fresh, wrap64_of_lt hn]
    cases memory with
    | false => rw [allocate_error _ _ _ rfl]; exact ⟨rfl, h⟩
    | true =>
      rw [allocate_ok _ _ _ rfl]
      refine ⟨rfl, h.push ⟨rfl, ?_, rfl⟩⟩
      have := holds_make (α := α) sz n hsz
      rwa [make, wrap64_of_lt hn] at this
  | newArray n x memory =>
    have hn : n * sz < 2 ^ 64 := ha
    rw [step, specStep, fresh]
    cases memory with
    | false => rw [makeArray, allocate_error _ _ _ rfl]; exact ⟨rfl, h⟩
    | true =>
      obtain ⟨a, h1, h2, h3⟩ := makeArray_holds (fun _ => true) hsz hn rfl x
      rw [h1]
      exact ⟨rfl, h.push ⟨rfl, h3, h2⟩⟩
  | newOf vector xs memory =>
    have hn : xs.length * sz < 2 ^ 64 := ha
    rw [step, specStep, fresh]
    cases memory with
    | false => rw [makeOf, allocate_error _ _ _ rfl]; exact ⟨rfl, h⟩
    | true =>
      obtain ⟨a, h1, h2, h3⟩ := makeOf_holds (fun _ => true) hsz xs hn rfl
      rw [h1]
      exact ⟨rfl, h.push ⟨rfl, h3, h2⟩⟩
  | copyOf a memory =>
    rw [step, specStep]
    cases hw : get w a with
    | none => rw [h.none hw]; exact ⟨rfl, h⟩
    | some c =>
      obtain ⟨b, hs, hv, hh, hb⟩ := h.some hw
      rw [hs]
      dsimp only
      have hn : b.items.length * sz < 2 ^ 64 := Nat.lt_of_le_of_lt (hh.mul_le hh.fits) hh.machine
      rw [copyOf, shown_holds hh, readAll_eq, Outcome.bind_ok, hh.viewSize_eq, hh.next, fresh]
      cases hcv : c.vector with
      | true =>
        rw [if_pos rfl]
        cases memory with
        | false => rw [makeVectorFrom, allocate_error _ _ _ rfl]; exact ⟨rfl, h⟩
        | true =>
          obtain ⟨v, h1, h2, h3⟩ := makeVectorFrom_holds (fun _ => true) memcpy hsz b.items [] hn rfl
          rw [List.append_nil] at h1
          rw [h1]
          exact ⟨rfl, h.push ⟨by rw [← hv, hcv], h3, h2⟩⟩
      | false =>
        rw [if_neg (by simp)]
        cases memory with
        | false => rw [makeArrayFrom, allocate_error _ _ _ rfl]; exact ⟨rfl, h⟩
        | true =>
          obtain ⟨v, h1, h2, h3⟩ := makeArrayFrom_holds (fun _ => true) memcpy hsz b.items [] hn rfl
          rw [List.append_nil] at h1
          rw [h1]
          exact ⟨rfl, h.push ⟨by rw [← hv, hcv], h3, h2⟩⟩
  | moveFrom a =>
    rw [step, specStep]
    cases hw : get w a with
    | none => rw [h.none hw]; exact ⟨rfl, h⟩
    | some c =>
      obtain ⟨b, hs, hv, hh, hb⟩ := h.some hw
      rw [hs]
      refine ⟨rfl, (h.put hw ?_).push ⟨hv, hh, hb⟩⟩
      rw [hv]
      exact same_empty hsz b.vector
  | moveAssign a b =>
    rw [step, specStep]
    cases hw : get w a with
    | none => rw [h.none hw]; exact ⟨rfl, h⟩
    | some c =>
      obtain ⟨x, hs, hx⟩ := h.some hw
      rw [hs]
      cases hw' : get w b with
      | none => rw [h.none hw']; exact ⟨rfl, h⟩
      | some d =>
        obtain ⟨y, hs', hy⟩ := h.some hw'
        rw [hs']
        dsimp only
        rw [← hx.1, ← hy.1]
        split
        · refine ⟨rfl, (h.put hw hy).put (c0 := if b = a then d else d) ?_ hx⟩
          rw [get_put _ _ _ (by rw [hw]; rfl)]
          split
          · rfl
          · exact hw'
        · exact ⟨rfl, h⟩
  | swap a b =>
    rw [step, specStep]
    cases hw : get w a with
    | none => rw [h.none hw]; exact ⟨rfl, h⟩
    | some c =>
      obtain ⟨x, hs, hx⟩ := h.some hw
      rw [hs]
      cases hw' : get w b with
      | none => rw [h.none hw']; exact ⟨rfl, h⟩
      | some d =>
        obtain ⟨y, hs', hy⟩ := h.some hw'
        rw [hs']
        dsimp only
        rw [← hx.1, ← hy.1]
        split
        · refine ⟨rfl, (h.put hw hy).put (c0 := if b = a then d else d) ?_ hx⟩
          rw [get_put _ _ _ (by rw [hw]; rfl)]
          split
          · rfl
          · exact hw'
        · exact ⟨rfl, h⟩
  | toArray a =>
    rw [step, specStep]
    cases hw : get w a with
    | none => rw [h.none hw]; exact ⟨rfl, h⟩
    | some c =>
      obtain ⟨b, hs, hv, hh, hb⟩ := h.some hw
      rw [hs]
      dsimp only
      rw [← hv]
      split
      · exact ⟨rfl, (h.put hw (same_empty hsz true)).push ⟨rfl, hh, hb⟩⟩
      · exact ⟨rfl, h⟩
  | assignNull a =>
    rw [step, specStep]
    cases hw : get w a with
    | none => rw [h.none hw]; exact ⟨rfl, h⟩
    | some c =>
      obtain ⟨b, hs, hv, hh, hb⟩ := h.some hw
      rw [hs]
      refine ⟨rfl, h.put hw ⟨hv, ?_, ?_⟩⟩
      · dsimp only
        cases hcv : c.vector with
        | true => rw [if_pos rfl]; exact holds_none hh
        | false =>
          rw [if_neg (by simp), arrayNull]
          have he : b.items = [] := ha b hs (by rw [← hv, hcv])
          rw [he] at hh
          split
          · exact hh
          · rw [shown_holds hh, hh.viewSize_eq]
            exact hh
      · dsimp only
        cases c.vector with
        | true => exact hb
        | false =>
          rw [if_neg (by simp), arrayNull]
          split <;> exact hb
  | emplaceBack a x =>
    rw [step, specStep]
    cases hw : get w a with
    | none => rw [h.none hw]; exact ⟨rfl, h⟩
    | some c =>
      obtain ⟨b, hs, hv, hh, hb⟩ := h.some hw
      rw [hs]
      dsimp only
      rw [← hv]
      have hself : ∀ hcv : c.vector = true, Rel sz (put w a ⟨true, c.store⟩) s := by
        intro hcv
        refine ⟨by simp [put, h.1], fun i => ?_⟩
        rw [get_put _ _ _ (by rw [hw]; rfl)]
        split
        · rename_i hi; subst hi; rw [hs]; exact ⟨by rw [← hv, hcv], hh, hb⟩
        · exact h.2 i
      split
      · rename_i hcv
        have hroom : c.store.bytes / sz = b.room := by rw [hb, Nat.mul_div_cancel _ hsz]
        have hfit := hh.fits
        by_cases hf : b.items.length < b.room
        · rw [if_pos hf]
          cases x with
          | none => rw [emplaceBack_throws hh (by omega)]; exact ⟨rfl, hself hcv⟩
          | some x =>
            obtain ⟨v', h1, h2, h3⟩ := emplaceBack_room hh x (by omega)
            rw [h1]
            exact ⟨rfl, h.put hw ⟨rfl, h2, by rw [h3]; exact hb⟩⟩
        · rw [if_neg hf, emplaceBack_full hh _ (by omega)]
          exact ⟨rfl, hself hcv⟩
      · exact ⟨rfl, h⟩
  | popBack a =>
    rw [step, specStep]
    cases hw : get w a with
    | none => rw [h.none hw]; exact ⟨rfl, h⟩
    | some c =>
      obtain ⟨b, hs, hv, hh, hb⟩ := h.some hw
      rw [hs]
      dsimp only
      rw [← hv]
      split
      · by_cases hne : b.items = []
        · rw [hne] at hh
          rw [popBack_nil hh, hne]
          exact ⟨rfl, h.put hw ⟨rfl, hh, hb⟩⟩
        · obtain ⟨ys, y, he⟩ : ∃ ys y, b.items = ys ++ [y] :=
            ⟨b.items.dropLast, b.items.getLast hne, (List.dropLast_concat_getLast hne).symm⟩
          rw [he] at hh
          obtain ⟨v', h1, h2, h3⟩ := popBack_concat hh
          rw [h1, he, List.dropLast_concat]
          exact ⟨rfl, h.put hw ⟨rfl, h2, by rw [h3]; exact hb⟩⟩
      · exact ⟨rfl, h⟩
  | clear a =>
    rw [step, specStep]
    cases hw : get w a with
    | none => rw [h.none hw]; exact ⟨rfl, h⟩
    | some c =>
      obtain ⟨b, hs, hv, hh, hb⟩ := h.some hw
      rw [hs]
      dsimp only
      rw [← hv]
      split
      · obtain ⟨v', h1, h2, h3⟩ := clearLoop_eq b.items.length hh rfl (c.store.next + 1) (by rw [hh.next]; omega)
        rw [h1]
        exact ⟨rfl, h.put hw ⟨rfl, h2, by rw [h3]; exact hb⟩⟩
      · exact ⟨rfl, h⟩
  | set a i x =>
    rw [step, specStep]
    cases hw : get w a with
    | none => rw [h.none hw]; exact ⟨rfl, h⟩
    | some c =>
      obtain ⟨b, hs, hv, hh, hb⟩ := h.some hw
      rw [hs]
      dsimp only
      rw [← hv]
      have hself : ∀ hcv : ¬c.vector = true, Rel sz (put w a ⟨false, c.store⟩) s := by
        intro hcv
        refine ⟨by simp [put, h.1], fun i => ?_⟩
        rw [get_put _ _ _ (by rw [hw]; rfl)]
        split
        · rename_i hi; subst hi; rw [hs]; exact ⟨by rw [← hv]; simpa using hcv, hh, hb⟩
        · exact h.2 i
      split
      · exact ⟨rfl, h⟩
      · rename_i hcv
        by_cases hi : i < b.items.length
        · rw [if_pos hi]
          cases x with
          | none =>
            have : setAt sz c.store i none = (c.store, .throws) := by rw [setAt, hh.viewSize_eq, if_pos hi]
            rw [this]
            exact ⟨rfl, hself hcv⟩
          | some x =>
            obtain ⟨v', h1, h2, h3⟩ := setAt_eq hh i x hi
            rw [h1]
            exact ⟨rfl, h.put hw ⟨rfl, h2, by rw [h3]; exact hb⟩⟩
        · have : setAt sz c.store i x = (c.store, .throws) := by rw [setAt.eq_def, hh.viewSize_eq, if_neg hi]
          rw [if_neg hi, this]
          exact ⟨rfl, hself hcv⟩
  | forEach a g =>
    rw [step, specStep]
    cases hw : get w a with
    | none => rw [h.none hw]; exact ⟨rfl, h⟩
    | some c =>
      obtain ⟨b, hs, hv, hh, hb⟩ := h.some hw
      rw [hs]
      dsimp only
      rw [← hv]
      split
      · exact ⟨rfl, h⟩
      · have he : forEach sz c.store g =
            ({ c.store with cells := (b.items.map g).map some ++ c.store.cells.drop b.items.length }, .ok ()) := by
          rw [forEach, shown_holds hh, readAll_eq, hh.viewSize_eq, List.map_map]
          rfl
        rw [he]
        exact ⟨rfl, h.put hw ⟨rfl, holds_replace hh (by simp), hb⟩⟩
  | index a i =>
    rw [step, specStep]
    cases hw : get w a with
    | none => rw [h.none hw]; exact ⟨rfl, h⟩
    | some c =>
      obtain ⟨b, hs, hv, hh, hb⟩ := h.some hw
      rw [hs]
      refine ⟨?_, h⟩
      dsimp only
      rw [index_eq hh]
      cases b.items[i]? <;> rfl
  | size a =>
    rw [step, specStep]
    cases hw : get w a with
    | none => rw [h.none hw]; exact ⟨rfl, h⟩
    | some c =>
      obtain ⟨b, hs, hv, hh, hb⟩ := h.some hw
      rw [hs]
      exact ⟨by dsimp only; rw [hh.next], h⟩
  | empty a =>
    rw [step, specStep]
    cases hw : get w a with
    | none => rw [h.none hw]; exact ⟨rfl, h⟩
    | some c =>
      obtain ⟨b, hs, hv, hh, hb⟩ := h.some hw
      rw [hs]
      refine ⟨?_, h⟩
      dsimp only
      rw [← hv, hh.next, arrayEmpty, hb]
      congr 1
      split
      · cases b.items <;> rfl
      · rw [Bool.eq_iff_iff, beq_iff_eq, beq_iff_eq, Nat.mul_eq_zero]
        omega
  | capacity a =>
    rw [step, specStep]
    cases hw : get w a with
    | none => rw [h.none hw]; exact ⟨rfl, h⟩
    | some c =>
      obtain ⟨b, hs, hv, hh, hb⟩ := h.some hw
      rw [hs]
      dsimp only
      rw [← hv, Vec.capacity, hb, Nat.mul_div_cancel _ hsz]
      split <;> exact ⟨rfl, h⟩
  | iterate a =>
    rw [step, specStep]
    cases hw : get w a with
    | none => rw [h.none hw]; exact ⟨rfl, h⟩
    | some c =>
      obtain ⟨b, hs, hv, hh, hb⟩ := h.some hw
      rw [hs]
      refine ⟨?_, h⟩
      dsimp only
      rw [shown_holds hh, readAll_eq]
      rfl
  | indexOf a x =>
    rw [step, specStep]
    cases hw : get w a with
    | none => rw [h.none hw]; exact ⟨rfl, h⟩
    | some c =>
      obtain ⟨b, hs, hv, hh, hb⟩ := h.some hw
      rw [hs]
      refine ⟨?_, h⟩
      dsimp only
      rw [indexOf, shown_holds hh, indexOfLoop_eq]
      simp [see]
  | contains a x =>
    rw [step, specStep]
    cases hw : get w a with
    | none => rw [h.none hw]; exact ⟨rfl, h⟩
    | some c =>
      obtain ⟨b, hs, hv, hh, hb⟩ := h.some hw
      rw [hs]
      refine ⟨?_, h⟩
      dsimp only
      rw [contains, indexOf, shown_holds hh, indexOfLoop_eq, Outcome.bind_ok]
      simp [see]
  | equal a b =>
    rw [step, specStep]
    cases hw : get w a with
    | none => rw [h.none hw]; exact ⟨rfl, h⟩
    | some c =>
      obtain ⟨x, hs, hx⟩ := h.some hw
      rw [hs]
      cases hw' : get w b with
      | none => rw [h.none hw']; exact ⟨rfl, h⟩
      | some d =>
        obtain ⟨y, hs', hy⟩ := h.some hw'
        rw [hs']
        refine ⟨?_, h⟩
        dsimp only
        by_cases he : a = b
        · subst he
          rw [hw] at hw'
          cases hw'
          simp [equals, see]
        · rw [show (a == b) = false by simpa using he, equals_eq hx.2.1 hy.2.1]
          simp [see]
  | equalList a xs =>
    rw [step, specStep]
    cases hw : get w a with
    | none => rw [h.none hw]; exact ⟨rfl, h⟩
    | some c =>
      obtain ⟨b, hs, hv, hh, hb⟩ := h.some hw
      rw [hs]
      dsimp only
      rw [← hv, equalsList_eq hh]
      split <;> exact ⟨rfl, h⟩
  | destroy a =>
    rw [step, specStep]
    cases hw : get w a with
    | none => rw [h.none hw]; exact ⟨rfl, h⟩
    | some c =>
      obtain ⟨b, hs, _⟩ := h.some hw
      rw [hs]
      exact ⟨rfl, h.remove a⟩

/-- **C125** (partial: no `nullptr` assigned to an array with elements, and no size that does not fit into 64 bits): every program
with arrays and vectors shows what the same program with lists shows, and its variables end holding these lists. -/
theorem C125_refines_partial (sz : Nat) (hsz : 0 < sz) (eq : α → α → Bool) (memcpy trivial : Bool) (ops : List (Op α)) :
    ∀ {w : World α} {s : Lists α}, Rel sz w s → AllowedAll sz eq s ops →
    (run sz eq memcpy trivial w ops).2 = (specRun eq s ops).2 ∧
    Rel sz (run sz eq memcpy trivial w ops).1 (specRun eq s ops).1 := by
  induction ops with
  | nil => intro w s h _; exact ⟨rfl, h⟩
  | cons op ops ih =>
    intro w s h ha
    obtain ⟨h1, h2⟩ := step_rel sz hsz eq memcpy trivial h op ha.1
    obtain ⟨h3, h4⟩ := ih h2 ha.2
    rw [run, specRun]
    exact ⟨by rw [h1, h3], h4⟩

/-- **C125** (partial, as above), from the start of the program. -/
theorem C125_programs_partial (sz : Nat) (hsz : 0 < sz) (eq : α → α → Bool) (memcpy trivial : Bool) (ops : List (Op α))
    (ha : AllowedAll sz eq [] ops) :
    (run sz eq memcpy trivial [] ops).2 = (specRun eq [] ops).2 ∧
    Rel sz (run sz eq memcpy trivial [] ops).1 (specRun eq [] ops).1 :=
  C125_refines_partial sz hsz eq memcpy trivial ops ⟨rfl, fun i => by simp [get, SameVar]⟩ ha

/-! ### Moving and swapping -/

/-- How many of the elements of a variable satisfy `p`. -/
def tally (p : α → Bool) : Option (Box α) → Nat
  | some b => b.items.countP p
  | none => 0

theorem countP_everything (p : α → Bool) (s : Lists α) : (everything s).countP p = (s.map (tally p)).sum := by
  induction s with
  | nil => rfl
  | cons v s ih =>
    rw [everything, List.flatMap_cons, List.countP_append, List.map_cons, List.sum_cons, ← ih]
    cases v <;> rfl

theorem sum_set (l : List Nat) : ∀ (a n : Nat), a < l.length → (l.set a n).sum + l[a]?.getD 0 = l.sum + n := by
  induction l with
  | nil => intro a n h; simp at h
  | cons x l ih =>
    intro a n h
    cases a with
    | zero => simp; omega
    | succ a =>
      have := ih a n (by simpa using h)
      simp only [List.set_cons_succ, List.sum_cons, List.getElem?_cons_succ]
      omega

theorem get_lt {w : List (Option β)} {a : Nat} {c : β} (h : get w a = some c) : a < w.length := by
  by_cases hl : a < w.length
  · exact hl
  · rw [get, List.getElem?_eq_none (by omega)] at h; cases h

theorem tally_put (p : α → Bool) {s : Lists α} {a : Nat} {c : Box α} (h : get s a = some c) (b : Box α) :
    (everything (put s a b)).countP p + c.items.countP p = (everything s).countP p + b.items.countP p := by
  have hl := get_lt h
  rw [countP_everything, countP_everything, put, List.map_set]
  have h1 := sum_set (s.map (tally p)) a (tally p (some b)) (by simpa using hl)
  have h2 : ((s.map (tally p))[a]?).getD 0 = c.items.countP p := by
    rw [get] at h
    rw [List.getElem?_map]
    cases hx : s[a]? with
    | none => rw [hx] at h; cases h
    | some v => rw [hx] at h; cases h; rfl
  rw [h2] at h1
  exact h1

theorem tally_push (p : α → Bool) (s : Lists α) (b : Box α) :
    (everything (s ++ [some b])).countP p = (everything s).countP p + b.items.countP p := by
  rw [countP_everything, countP_everything]
  simp [tally]

/-- **C125**, nothing is lost or made twice by moving: after a move construction, a move assignment, a swap or `toArray` every
element is somewhere as often as before. -/
theorem C125_moves (eq : α → α → Bool) (s : Lists α) (op : Op α)
    (h : match op with | .moveFrom _ | .moveAssign _ _ | .swap _ _ | .toArray _ => True | _ => False) (p : α → Bool) :
    (everything (specStep eq s op).1).countP p = (everything s).countP p := by
  have hsw : ∀ a b c d, get s a = some c → get s b = some d →
      (everything (put (put s a d) b c)).countP p = (everything s).countP p := by
    intro a b c d h1 h2
    have e1 := tally_put p h1 d
    have h3 : get (put s a d) b = some d := by
      rw [get_put _ _ _ (by rw [h1]; rfl)]
      split
      · rfl
      · exact h2
    have e2 := tally_put p h3 c
    omega
  cases op with
  | moveFrom a =>
    rw [specStep]
    cases hs : get s a with
    | none => rfl
    | some b =>
      have e1 := tally_put p hs ⟨b.vector, [], 0⟩
      dsimp only
      rw [tally_push]
      simpa using e1
  | moveAssign a b =>
    rw [specStep]
    cases h1 : get s a with
    | none => rfl
    | some c =>
      cases h2 : get s b with
      | none => rfl
      | some d =>
        dsimp only
        split
        · exact hsw a b c d h1 h2
        · rfl
  | swap a b =>
    rw [specStep]
    cases h1 : get s a with
    | none => rfl
    | some c =>
      cases h2 : get s b with
      | none => rfl
      | some d =>
        dsimp only
        split
        · exact hsw a b c d h1 h2
        · rfl
  | toArray a =>
    rw [specStep]
    cases hs : get s a with
    | none => rfl
    | some b =>
      have e1 := tally_put p hs ⟨true, [], 0⟩
      dsimp only
      split
      · rw [tally_push]
        simpa using e1
      · rfl
  | _ => cases h

/-- **C125**, `std::swap(a, b)` of two vectors or arrays, that is a move construction and two move assignments, exchanges what
they hold, also when both are the same variable, and leaves the rest alone. -/
theorem C125_std_swap (eq : α → α → Bool) (s : Lists α) (a b : Nat) (c d : Box α) (ha : get s a = some c) (hb : get s b = some d)
    (hk : c.vector = d.vector) (i : Nat) :
    get (specRun eq s [.moveFrom a, .moveAssign a b, .moveAssign b s.length, .destroy s.length]).1 i =
      if i = a then some d else if i = b then some c else get s i := by
  have hla := get_lt ha
  have hlb := get_lt hb
  have hend : get s s.length = none := by rw [get, List.getElem?_eq_none (Nat.le_refl _)]; rfl
  -- the temporary
  have e1 : (specStep eq s (.moveFrom a)).1 = put s a ⟨c.vector, [], 0⟩ ++ [some c] := by rw [specStep, ha]
  have g1 : ∀ j, get (put s a ⟨c.vector, [], 0⟩ ++ [some c]) j =
      if j = s.length then some c else if j = a then some ⟨c.vector, [], 0⟩ else get s j := by
    intro j
    rw [get_push, get_put _ _ _ (by rw [ha]; rfl)]
    simp [put]
  -- a = mv(b)
  have hga := g1 a
  rw [if_neg (by omega), if_pos rfl] at hga
  obtain ⟨x, hgb, hxk, hx⟩ : ∃ x, get (put s a ⟨c.vector, [], 0⟩ ++ [some c]) b = some x ∧ x.vector = c.vector ∧
      (b ≠ a → x = d) := by
    rw [g1 b, if_neg (by omega)]
    by_cases h : b = a
    · exact ⟨⟨c.vector, [], 0⟩, by rw [if_pos h], rfl, fun e => absurd h e⟩
    · exact ⟨d, by rw [if_neg h, hb], hk.symm, fun _ => rfl⟩
  generalize hs1 : put s a ⟨c.vector, [], 0⟩ ++ [some c] = s1 at *
  have e2 : (specStep eq s1 (.moveAssign a b)).1 = put (put s1 a x) b ⟨c.vector, [], 0⟩ := by
    rw [specStep, hga, hgb]
    dsimp only
    rw [if_pos hxk.symm]
  have g2 : ∀ j, get (put (put s1 a x) b ⟨c.vector, [], 0⟩) j =
      if j = b then some ⟨c.vector, [], 0⟩ else if j = a then some x else get s1 j := by
    intro j
    rw [get_put, get_put _ _ _ (by rw [hga]; rfl)]
    rw [get_put _ _ _ (by rw [hga]; rfl)]
    split
    · rfl
    · rw [hgb]; rfl
  generalize hs2 : put (put s1 a x) b ⟨c.vector, [], 0⟩ = s2 at *
  have hgb2 := g2 b
  rw [if_pos rfl] at hgb2
  have hgt2 := g2 s.length
  rw [if_neg (by omega), if_neg (by omega), g1, if_pos rfl] at hgt2
  have e3 : (specStep eq s2 (.moveAssign b s.length)).1 = put (put s2 b c) s.length ⟨c.vector, [], 0⟩ := by
    rw [specStep, hgb2, hgt2]
    dsimp only
    rw [if_pos rfl]
  have hgt3 : (get (put s2 b c) s.length).isSome = true := by
    rw [get_put _ _ _ (by rw [hgb2]; rfl), if_neg (by omega), hgt2]
    rfl
  have g3 : ∀ j, get (put (put s2 b c) s.length ⟨c.vector, [], 0⟩) j =
      if j = s.length then some ⟨c.vector, [], 0⟩ else if j = b then some c else get s2 j := by
    intro j
    rw [get_put _ _ _ hgt3, get_put _ _ _ (by rw [hgb2]; rfl)]
  generalize hs3 : put (put s2 b c) s.length ⟨c.vector, [], 0⟩ = s3 at *
  have hgt := g3 s.length
  rw [if_pos rfl] at hgt
  have e4 : (specStep eq s3 (.destroy s.length)).1 = s3.set s.length none := by rw [specStep, hgt]
  simp only [specRun, e1, e2, e3, e4]
  rw [get_remove, g3, g2, g1]
  by_cases h1 : i = s.length
  · rw [if_pos h1, if_neg (by omega), if_neg (by omega), h1, hend]
  · rw [if_neg h1, if_neg h1, if_neg h1]
    by_cases h2 : i = b
    · rw [if_pos h2, if_pos h2]
      by_cases h3 : i = a
      · rw [if_pos h3]
        rw [← h2, h3, ha] at hb
        exact hb
      · rw [if_neg h3]
    · rw [if_neg h2, if_neg h2, if_neg h2]
      by_cases h3 : i = a
      · rw [if_pos h3, if_pos h3, hx (by omega)]
      · rw [if_neg h3, if_neg h3, if_neg h3]

/-! ### Where arrays are not lists -/

/-- **C125, negation**: an array with elements does not become the empty list when `nullptr` is assigned to it. It reports as many
elements as before and is not empty; what they are is undefined if elements have a destructor, otherwise they are the old ones. -/
theorem C125_array_null (sz : Nat) (eq : α → α → Bool) (memcpy trivial : Bool) (w : World α) (a : Nat) (v : Vec α)
    (xs : List α) (hw : get w a = some ⟨false, v⟩) (h : Holds sz v xs) (hx : xs ≠ []) :
    (run sz eq memcpy trivial w [.assignNull a, .size a, .empty a, .iterate a]).2 =
      [.done, .number xs.length, .flag false, if trivial then .elements xs else .undefined] := by
  have e1 : (step sz eq memcpy trivial w (.assignNull a)) = (put w a ⟨false, arrayNull trivial sz v⟩, .done) := by
    rw [step, hw]
    rfl
  have hg : get (put w a ⟨false, arrayNull trivial sz v⟩) a = some ⟨false, arrayNull trivial sz v⟩ := by
    rw [get_put _ _ _ (by rw [hw]; rfl), if_pos rfl]
  have hn : (arrayNull trivial sz v).next = xs.length ∧ (arrayNull trivial sz v).bytes = v.bytes := by
    rw [arrayNull]
    split <;> exact ⟨h.next, rfl⟩
  have hb : v.bytes ≠ 0 := by
    intro hb
    have := h.fits
    rw [hb, Nat.zero_div] at this
    exact hx (List.length_eq_zero_iff.mp (by omega))
  have hr : readAll (shown sz (arrayNull trivial sz v)) = if trivial then .ok xs else .ub := by
    cases trivial with
    | true => rw [arrayNull, if_pos rfl, shown_holds h, readAll_eq]; rfl
    | false =>
      have hv : viewSize sz (arrayNull false sz v) = xs.length := by
        rw [← h.viewSize_eq, viewSize, viewSize, hn.1, hn.2, h.next]
      rw [shown, hv, arrayNull, if_neg (by simp), shown_holds h]
      obtain ⟨y, ys, rfl⟩ : ∃ y ys, xs = y :: ys := by
        cases xs with
        | nil => exact absurd rfl hx
        | cons y ys => exact ⟨y, ys, rfl⟩
      rw [List.length_map, List.take_append_of_le_length (by simp), List.take_of_length_le (by simp), List.length_cons,
        List.replicate_succ, readAll]
      rfl
  simp only [run, e1]
  simp only [step, hg, hn.1, hr, arrayEmpty, hn.2]
  cases trivial <;> simp [see, hb]

/-- A program with all kinds of operations. -/
example : AllowedAll 4 (· == ·) ([] : Lists Nat) [.newVector 3 true, .emplaceBack 0 (some 5), .emplaceBack 0 (some 6), .toArray 0,
    .newOf false [5, 6] true, .equal 1 2, .swap 1 2, .emplaceBack 0 (some 1), .copyOf 1 true, .set 3 0 (some 9), .equal 1 3,
    .newArray 2 0 false, .moveFrom 2, .assignNull 2, .empty 4, .indexOf 3 9, .iterate 4] := by
  simp [AllowedAll, Allowed, specStep, fresh, get, put]

example : (run 4 (· == ·) true false ([] : World Nat) [.newVector 3 true, .emplaceBack 0 (some 5), .emplaceBack 0 (some 6),
    .toArray 0, .newOf false [5, 6] true, .equal 1 2, .swap 1 2, .emplaceBack 0 (some 1), .copyOf 1 true, .set 3 0 (some 9),
    .equal 1 3, .newArray 2 0 false, .moveFrom 2, .assignNull 2, .empty 4, .indexOf 3 9, .iterate 4]).2 =
    [.done, .done, .done, .done, .done, .flag true, .done, .overflow, .done, .done, .flag false, .nomem, .done, .done,
      .flag false, .position (some 0), .elements [5, 6]] := by
  decide +kernel

end Solace.Containers
