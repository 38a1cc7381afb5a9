import Verif.Model.Vector
/-
C44: a vector behaves like a bounded list.
-/
namespace Solace.Vec
variable {α : Type u}

/-- The vector holds exactly these elements, in order, in a buffer of a size the machine can have. -/
structure Holds (sz : Nat) (v : Vec α) (xs : List α) : Prop where
  sz_pos : 0 < sz
  machine : v.bytes < 2 ^ 64
  cells : v.cells.length = v.bytes / sz
  fits : xs.length ≤ v.bytes / sz
  next : v.next = xs.length
  content : v.cells.take xs.length = xs.map some

theorem Holds.mul_le {sz : Nat} {v : Vec α} {xs : List α} (_ : Holds sz v xs) {k : Nat} (hk : k ≤ v.bytes / sz) :
    k * sz ≤ v.bytes :=
  Nat.le_trans (Nat.mul_le_mul_right sz hk) (Nat.div_mul_le_self _ _)

theorem Holds.le_mul {sz : Nat} {v : Vec α} {xs : List α} (h : Holds sz v xs) (k : Nat) : k ≤ k * sz :=
  Nat.le_mul_of_pos_right k h.sz_pos

theorem slice_inside {size a b : Nat} (hab : a < b) (hb : b ≤ size) : MutableMemoryView.slice size a b = (a, b - a) := by
  rw [MutableMemoryView.slice, if_neg (by omega)]
  have h1 : min a size = a := by omega
  simp only [h1]
  have h2 : min (max b a) size = b := by omega
  rw [h2]

/-- The arena of element `k`, when it is inside the buffer. -/
theorem arena_eq {sz bytes k : Nat} (hsz : 0 < sz) (hm : bytes < 2 ^ 64) (hk : (k + 1) * sz ≤ bytes) :
    MutableMemoryView.slice bytes (wrap64 (k * sz)) (wrap64 (wrap64 (k + 1) * sz)) = (k * sz, sz) := by
  have h1 : k * sz + sz = (k + 1) * sz := by rw [Nat.succ_mul]
  have h2 : k + 1 ≤ (k + 1) * sz := Nat.le_mul_of_pos_right _ hsz
  rw [wrap64_of_lt (n := k + 1) (by omega), wrap64_of_lt (n := k * sz) (by omega),
    wrap64_of_lt (n := (k + 1) * sz) (by omega), slice_inside (by omega) hk]
  congr 1
  omega

theorem Holds.viewSize_eq {sz : Nat} {v : Vec α} {xs : List α} (h : Holds sz v xs) : viewSize sz v = xs.length := by
  have h1 := h.mul_le h.fits
  have h2 : xs.length * sz < 2 ^ 64 := Nat.lt_of_le_of_lt h1 h.machine
  rw [viewSize, h.next, Nat.mul_comm, wrap64_of_lt h2]
  by_cases h0 : xs.length = 0
  · rw [h0, MutableMemoryView.slice, if_pos (by omega)]
    simp
  · have : 0 < xs.length * sz := Nat.mul_pos (by omega) h.sz_pos
    rw [slice_inside this h1, Nat.sub_zero, Nat.mul_div_cancel _ h.sz_pos]

theorem holds_make (sz n : Nat) (hsz : 0 < sz) : Holds sz (make (α := α) sz n) [] where
  sz_pos := hsz
  machine := wrap64_lt _
  cells := by simp [make, ofBytes]
  fits := Nat.zero_le _
  next := rfl
  content := rfl

theorem emplaceBack_full {sz : Nat} {v : Vec α} {xs : List α} (h : Holds sz v xs) (x : Option α)
    (hf : xs.length = v.bytes / sz) : emplaceBack sz v x = (v, .ok (.error .overflow)) := by
  rw [emplaceBack, if_pos (by rw [capacity, h.next]; omega)]

theorem emplaceBack_throws {sz : Nat} {v : Vec α} {xs : List α} (h : Holds sz v xs)
    (hf : xs.length < v.bytes / sz) : emplaceBack sz v none = (v, .throws) := by
  have ha := arena_eq h.sz_pos h.machine (h.mul_le (k := xs.length + 1) hf)
  have := h.sz_pos
  rw [emplaceBack, if_neg (by rw [capacity, h.next]; omega)]
  simp only [h.next, ha]
  rw [if_neg (by omega), if_neg (by omega)]

theorem emplaceBack_room {sz : Nat} {v : Vec α} {xs : List α} (h : Holds sz v xs) (x : α)
    (hf : xs.length < v.bytes / sz) :
    ∃ v', emplaceBack sz v (some x) = (v', .ok (.ok ())) ∧ Holds sz v' (xs ++ [x]) ∧ v'.bytes = v.bytes := by
  have hmul := h.mul_le (k := xs.length + 1) hf
  have ha := arena_eq h.sz_pos h.machine hmul
  have := h.sz_pos
  have hle := h.le_mul (xs.length + 1)
  have hm := h.machine
  rw [emplaceBack, if_neg (by rw [capacity, h.next]; omega)]
  simp only [h.next, ha]
  rw [if_neg (by omega), if_neg (by omega)]
  refine ⟨_, rfl, ?_, rfl⟩
  rw [Nat.mul_div_cancel _ h.sz_pos, wrap64_of_lt (by omega)]
  exact {
    sz_pos := h.sz_pos
    machine := h.machine
    cells := by simp [h.cells]
    fits := by simp only [List.length_append, List.length_singleton]; omega
    next := by simp
    content := by
      have hc := h.content
      have hcl := h.cells
      rw [List.length_append, List.length_singleton, List.map_append, List.take_add_one, List.take_set_of_le (Nat.le_refl _), hc]
      simp [hcl, hf] }

theorem popBack_nil {sz : Nat} {v : Vec α} (h : Holds sz v []) : popBack sz v = .ok (v, []) := by
  rw [popBack, if_pos (by rw [h.next]; simp)]

theorem popBack_concat {sz : Nat} {v : Vec α} {xs : List α} {x : α} (h : Holds sz v (xs ++ [x])) :
    ∃ v', popBack sz v = .ok (v', [some x]) ∧ Holds sz v' xs ∧ v'.bytes = v.bytes := by
  have hn := h.next
  have hf := h.fits
  rw [List.length_append, List.length_singleton] at hn hf
  have hmul := h.mul_le (k := xs.length + 1) hf
  have ha := arena_eq h.sz_pos h.machine hmul
  have hsz := h.sz_pos
  have hle := h.le_mul (xs.length + 1)
  have hm := h.machine
  have hcell : v.cells[xs.length]? = some (some x) := by
    have := congrArg (·[xs.length]?) h.content
    simpa [List.getElem?_take] using this
  rw [popBack, if_neg (by omega), hn, sub64_of_le (by omega) (by omega)]
  simp only [Nat.add_sub_cancel, ha]
  rw [if_neg (by omega), Nat.mul_div_cancel _ hsz, hcell]
  refine ⟨_, rfl, ?_, rfl⟩
  exact {
    sz_pos := h.sz_pos
    machine := h.machine
    cells := h.cells
    fits := by show xs.length ≤ v.bytes / sz; omega
    next := rfl
    content := by
      have := congrArg (List.take xs.length) h.content
      rw [List.take_take, List.length_append, List.length_singleton, Nat.min_eq_left (by omega)] at this
      show v.cells.take xs.length = _
      rw [this]
      simp [List.take_left'] }

theorem clearLoop_eq {sz : Nat} (n : Nat) : ∀ {v : Vec α} {xs : List α}, Holds sz v xs → xs.length = n → ∀ fuel, n < fuel →
    ∃ v', clearLoop sz fuel v = some (.ok (v', xs.reverse.map some)) ∧ Holds sz v' [] ∧ v'.bytes = v.bytes := by
  induction n with
  | zero =>
    intro v xs h hl fuel hf
    have : xs = [] := List.length_eq_zero_iff.mp hl
    subst this
    match fuel, hf with
    | f + 1, _ =>
      rw [clearLoop, if_neg (by rw [h.next]; simp)]
      exact ⟨v, rfl, h, rfl⟩
  | succ k ih =>
    intro v xs h hl fuel hf
    have hne : xs ≠ [] := by rintro rfl; simp at hl
    obtain ⟨ys, y, rfl⟩ : ∃ ys y, xs = ys ++ [y] := ⟨xs.dropLast, xs.getLast hne, (List.dropLast_concat_getLast hne).symm⟩
    match fuel, hf with
    | f + 1, hf =>
      obtain ⟨v1, h1, h2, h3⟩ := popBack_concat h
      obtain ⟨v2, h4, h5, h6⟩ := ih h2 (by simpa using hl) f (by omega)
      refine ⟨v2, ?_, h5, by rw [h6, h3]⟩
      rw [clearLoop, if_pos (by rw [h.next]; simp), h1]
      simp only [h4, Option.map_some, Outcome.bind_ok]
      simp

theorem index_eq {sz : Nat} {v : Vec α} {xs : List α} (h : Holds sz v xs) (i : Nat) :
    index sz v i = match xs[i]? with | some x => .ok x | none => .throws := by
  rw [index, h.viewSize_eq]
  by_cases hi : i < xs.length
  · rw [if_pos hi]
    have : v.cells[i]? = some (some xs[i]) := by
      have := congrArg (·[i]?) h.content
      simpa [List.getElem?_take, hi] using this
    rw [this, List.getElem?_eq_getElem hi]
  · rw [if_neg hi, List.getElem?_eq_none (by omega)]

/-! ### Histories -/

inductive Op (α : Type u) where
  /-- `none`: the constructor of the element throws -/
  | emplaceBack (x : Option α)
  | popBack
  | clear
  | index (i : Nat)
  | size
  | full

/-- What the caller sees. -/
inductive Obs (α : Type u) where
  | pushed
  | overflow
  | exception
  | done
  | element (x : α)
  | number (n : Nat)
  | flag (b : Bool)
  | diverged
  | terminated
  | undefined
deriving DecidableEq, Repr

/-- One operation of the code. -/
def step (sz : Nat) (v : Vec α) : Op α → Vec α × Obs α
  | .emplaceBack x =>
    match emplaceBack sz v x with
    | (v', .ok (.ok ())) => (v', .pushed)
    | (v', .ok (.error _)) => (v', .overflow)
    | (v', .throws) => (v', .exception)
    | (v', .terminate) => (v', .terminated)
    | (v', .ub) => (v', .undefined)
  | .popBack =>
    match popBack sz v with
    | .ok (v', _) => (v', .done)
    | .throws => (v, .exception)
    | .terminate => (v, .terminated)
    | .ub => (v, .undefined)
  | .clear =>
    match clearLoop sz (v.next + 1) v with
    | none => (v, .diverged)
    | some (.ok (v', _)) => (v', .done)
    | some .throws => (v, .exception)
    | some .terminate => (v, .terminated)
    | some .ub => (v, .undefined)
  | .index i =>
    match index sz v i with
    | .ok x => (v, .element x)
    | .throws => (v, .exception)
    | .terminate => (v, .terminated)
    | .ub => (v, .undefined)
  | .size => (v, .number v.next)
  | .full => (v, .flag (decide (capacity sz v = v.next)))

/-- The same operation on a list of at most `cap` elements. -/
def specStep (cap : Nat) (xs : List α) : Op α → List α × Obs α
  | .emplaceBack (some x) => if xs.length < cap then (xs ++ [x], .pushed) else (xs, .overflow)
  | .emplaceBack none => if xs.length < cap then (xs, .exception) else (xs, .overflow)
  | .popBack => (xs.dropLast, .done)
  | .clear => ([], .done)
  | .index i =>
    match xs[i]? with
    | some x => (xs, .element x)
    | none => (xs, .exception)
  | .size => (xs, .number xs.length)
  | .full => (xs, .flag (decide (xs.length = cap)))

def run (sz : Nat) : Vec α → List (Op α) → Vec α × List (Obs α)
  | v, [] => (v, [])
  | v, o :: os => ((run sz (step sz v o).1 os).1, (step sz v o).2 :: (run sz (step sz v o).1 os).2)

def specRun (cap : Nat) : List α → List (Op α) → List α × List (Obs α)
  | xs, [] => (xs, [])
  | xs, o :: os =>
    ((specRun cap (specStep cap xs o).1 os).1, (specStep cap xs o).2 :: (specRun cap (specStep cap xs o).1 os).2)

theorem step_refines {sz : Nat} {v : Vec α} {xs : List α} (h : Holds sz v xs) (o : Op α) :
    (step sz v o).2 = (specStep (capacity sz v) xs o).2 ∧ Holds sz (step sz v o).1 (specStep (capacity sz v) xs o).1 ∧
    (step sz v o).1.bytes = v.bytes := by
  have hfit := h.fits
  cases o with
  | emplaceBack x =>
    by_cases hf : xs.length < v.bytes / sz
    · cases x with
      | none =>
        rw [step, emplaceBack_throws h hf, specStep, capacity, if_pos hf]
        exact ⟨rfl, h, rfl⟩
      | some x =>
        obtain ⟨v', h1, h2, h3⟩ := emplaceBack_room h x hf
        rw [step, h1, specStep, capacity, if_pos hf]
        exact ⟨rfl, h2, h3⟩
    · cases x with
      | none =>
        rw [step, emplaceBack_full h _ (by omega), specStep, capacity, if_neg hf]
        exact ⟨rfl, h, rfl⟩
      | some x =>
        rw [step, emplaceBack_full h _ (by omega), specStep, capacity, if_neg hf]
        exact ⟨rfl, h, rfl⟩
  | popBack =>
    by_cases hne : xs = []
    · subst hne
      rw [step, popBack_nil h]
      exact ⟨rfl, h, rfl⟩
    · obtain ⟨ys, y, rfl⟩ : ∃ ys y, xs = ys ++ [y] :=
        ⟨xs.dropLast, xs.getLast hne, (List.dropLast_concat_getLast hne).symm⟩
      obtain ⟨v', h1, h2, h3⟩ := popBack_concat h
      rw [step, h1, specStep, List.dropLast_concat]
      exact ⟨rfl, h2, h3⟩
  | clear =>
    obtain ⟨v', h1, h2, h3⟩ := clearLoop_eq xs.length h rfl (v.next + 1) (by rw [h.next]; omega)
    rw [step, h1]
    exact ⟨rfl, h2, h3⟩
  | index i =>
    rw [step, specStep, index_eq h]
    cases xs[i]? with
    | none => exact ⟨rfl, h, rfl⟩
    | some x => exact ⟨rfl, h, rfl⟩
  | size => exact ⟨by rw [step, specStep, h.next], h, rfl⟩
  | full =>
    refine ⟨?_, h, rfl⟩
    rw [step, specStep, h.next]
    simp only [eq_comm]

/-- **C44** (full): from any state that holds a list, every history of operations gives the observations that the list of
at most `capacity()` elements gives, and ends holding that list. -/
theorem C44_refines {sz : Nat} (ops : List (Op α)) : ∀ {v : Vec α} {xs : List α}, Holds sz v xs →
    (run sz v ops).2 = (specRun (capacity sz v) xs ops).2 ∧
    Holds sz (run sz v ops).1 (specRun (capacity sz v) xs ops).1 ∧
    capacity sz (run sz v ops).1 = capacity sz v := by
  induction ops with
  | nil => intro v xs h; exact ⟨rfl, h, rfl⟩
  | cons o os ih =>
    intro v xs h
    obtain ⟨h1, h2, h3⟩ := step_refines h o
    have hcap : capacity sz (step sz v o).1 = capacity sz v := by rw [capacity, capacity, h3]
    obtain ⟨h4, h5, h6⟩ := ih h2
    rw [hcap] at h4 h5 h6
    rw [run, specRun]
    exact ⟨by rw [h1, h4], h5, h6⟩

/-- **C44** from a new vector: `makeVector(n)`. -/
theorem C44_vector (sz n : Nat) (hsz : 0 < sz) (hn : n * sz < 2 ^ 64) (ops : List (Op α)) :
    (run sz (make sz n) ops).2 = (specRun n [] ops).2 ∧ Holds sz (run sz (make sz n) ops).1 (specRun n [] ops).1 := by
  have hcap : capacity sz (make (α := α) sz n) = n := by
    rw [capacity, make, ofBytes, wrap64_of_lt hn, Nat.mul_div_cancel _ hsz]
  obtain ⟨h1, h2, -⟩ := C44_refines ops (holds_make (α := α) sz n hsz)
  rw [hcap] at h1 h2
  exact ⟨h1, h2⟩

/-- **C44** (a failing `emplace_back` changes nothing, spelled out). -/
theorem C44_failure_keeps {sz : Nat} {v : Vec α} {xs : List α} (h : Holds sz v xs) (x : Option α)
    (hfail : (emplaceBack sz v x).2 ≠ .ok (.ok ())) : (emplaceBack sz v x).1 = v := by
  have hfit := h.fits
  by_cases hf : xs.length < v.bytes / sz
  · cases x with
    | none => rw [emplaceBack_throws h hf]
    | some x =>
      obtain ⟨v', h1, -, -⟩ := emplaceBack_room h x hf
      rw [h1] at hfail
      exact absurd rfl hfail
  · rw [emplaceBack_full h _ (by omega)]

/-- Disagreement: `makeVector(n)` multiplies without a check, so a vector asked to hold 2^61 elements of 8 bytes is made
without an error and cannot hold one. -/
theorem C44_capacity_wraps : capacity 8 (make (α := α) 8 (2 ^ 61)) = 0 := by
  have h : wrap64 (2 ^ 61 * 8) = 0 := by rw [wrap64_def]
  rw [capacity, make, ofBytes, h, Nat.zero_div]

example : (run 8 (make 8 2) [Op.emplaceBack (some 5), .emplaceBack none, .emplaceBack (some 6), .emplaceBack (some 7),
    .index 1, .index 2, .popBack, .size, .clear, .popBack, .full]).2 =
    [.pushed, .exception, .pushed, .overflow, .element 6, .exception, .done, .number 1, .done, .done, .flag false] := by
  decide +kernel

end Solace.Vec
