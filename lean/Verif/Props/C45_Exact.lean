import Verif.Props.C45_Lifetimes
/-! C45: exactly the histories in which every element is destroyed once. -/
namespace Solace.Lifetimes
open Lifetime

/-- What an operation does to the variables does not depend on the log, and it adds to the log. -/
theorem step_log (sz : Nat) (vars : List (Option Cont)) (next : Nat) (op : Op) :
    ∃ vars' delta next', ∀ log, step sz ⟨vars, log, next⟩ op = ⟨vars', log ++ delta, next'⟩ := by
  cases op with
  | newVector n => exact ⟨vars ++ [some ⟨.vector, .make sz n⟩], [], next, fun log => by simp only [step, List.append_nil]⟩
  | newVectorOf n t =>
    by_cases h : n * sz < 2 ^ 64
    · simp only [step, if_pos h, build]
      split
      · exact ⟨_, _, _, fun log => rfl⟩
      · exact ⟨_, _, _, fun log => rfl⟩
      · exact ⟨_, _, _, fun log => by rw [List.append_assoc]⟩
    · exact ⟨vars, [], next, fun log => by rw [step, if_neg h, List.append_nil]⟩
  | newArray n t =>
    simp only [step, build]
    split
    · exact ⟨_, _, _, fun log => rfl⟩
    · exact ⟨_, _, _, fun log => rfl⟩
    · exact ⟨_, _, _, fun log => by rw [List.append_assoc]⟩
  | emplaceBack v throws =>
    simp only [step]
    split
    · split
      · exact ⟨_, _, _, fun log => rfl⟩
      · exact ⟨_, [], _, fun log => by rw [List.append_nil]⟩
      · exact ⟨_, [], _, fun log => by rw [List.append_nil]⟩
      · exact ⟨_, _, _, fun log => rfl⟩
    · exact ⟨_, [], _, fun log => by rw [List.append_nil]⟩
  | popBack v =>
    simp only [step]
    split
    · split
      · exact ⟨_, _, _, fun log => rfl⟩
      · exact ⟨_, _, _, fun log => rfl⟩
    · exact ⟨_, [], _, fun log => by rw [List.append_nil]⟩
  | clear v =>
    simp only [step]
    split
    · split
      · exact ⟨_, _, _, fun log => rfl⟩
      · exact ⟨_, _, _, fun log => rfl⟩
    · exact ⟨_, [], _, fun log => by rw [List.append_nil]⟩
  | assignNull v =>
    simp only [step]
    split
    · exact ⟨_, _, _, fun log => rfl⟩
    · exact ⟨_, _, _, fun log => rfl⟩
    · exact ⟨_, [], _, fun log => by rw [List.append_nil]⟩
  | swap a b =>
    simp only [step]
    split
    · split
      · exact ⟨_, [], _, fun log => by rw [List.append_nil]⟩
      · exact ⟨_, [], _, fun log => by rw [List.append_nil]⟩
    · exact ⟨_, [], _, fun log => by rw [List.append_nil]⟩
  | moveCtor a =>
    simp only [step]
    split
    · exact ⟨_, [], _, fun log => by rw [List.append_nil]⟩
    · exact ⟨_, [], _, fun log => by rw [List.append_nil]⟩
  | toArray a =>
    simp only [step]
    split
    · exact ⟨_, [], _, fun log => by rw [List.append_nil]⟩
    · exact ⟨_, [], _, fun log => by rw [List.append_nil]⟩
  | emplaceAt a i throws =>
    simp only [step]
    split
    · split
      · split
        · exact ⟨_, _, _, fun log => rfl⟩
        · exact ⟨_, _, _, fun log => by rw [List.append_assoc]⟩
      · exact ⟨_, [], _, fun log => by rw [List.append_nil]⟩
    · exact ⟨_, [], _, fun log => by rw [List.append_nil]⟩
  | destroy v =>
    simp only [step]
    split
    · exact ⟨_, _, _, fun log => rfl⟩
    · exact ⟨_, [], _, fun log => by rw [List.append_nil]⟩

/-- The variables are as some history without the two offending operations would have them. -/
def Sound (sz : Nat) (w : World) : Prop := ∃ log, Inv sz ⟨w.vars, log, w.next⟩

/-- How often an object has been destroyed or is going to be. -/
def dues (sz : Nat) (w : World) (id : Nat) : Nat := w.log.count (.destroy id) + (held sz w.vars).count id

theorem leaves_counts {log : List Event} {next : Nat} {alive : List Nat} (h : Leaves log next alive) (id : Nat) :
    log.count (.destroy id) + alive.count id = log.count (.construct id) := by
  obtain ⟨s, h1, _, h3⟩ := h
  obtain ⟨_, _, h4, _⟩ := replay_counts id log _ s h1 .nil (by simp)
  rw [← h3.count_eq id]
  simpa using h4

theorem allowed_congr (sz : Nat) (vars : List (Option Cont)) (next : Nat) (l1 l2 : List Event) (op : Op) :
    allowed sz ⟨vars, l1, next⟩ op = allowed sz ⟨vars, l2, next⟩ op := by
  cases op <;> rfl

/-- The offending operations destroy an element and leave it where it is. -/
theorem offending {sz : Nat} {w : World} (hs : Sound sz w) (op : Op) (ha : allowed sz w op = false) :
    (step sz w op).vars = w.vars ∧ (step sz w op).next = w.next ∧
    ∃ delta, (step sz w op).log = w.log ++ delta ∧ ∃ id, .destroy id ∈ delta ∧ id ∈ held sz w.vars := by
  obtain ⟨log', hinv⟩ := hs
  have hmem : ∀ (v : Nat) (c : Cont), w.vars[v]? = some (some c) → ∀ id ∈ contents sz c, id ∈ held sz w.vars := by
    intro v c hv id hid
    rw [held, List.mem_flatMap]
    exact ⟨some c, List.mem_of_getElem? hv, hid⟩
  cases op with
  | assignNull v =>
    rw [allowed] at ha
    split at ha
    · rename_i s hv
      have hcells := (hinv.goodAt (w := ⟨w.vars, log', w.next⟩) hv).cells
      simp only at hcells
      have hne : contents sz ⟨.array, s⟩ ≠ [] := by
        obtain ⟨ids, hl, hid⟩ := hinv.goodAt (w := ⟨w.vars, log', w.next⟩) hv
        intro h0
        rw [h0, hid] at hcells
        have : ids = [] := by simpa using hcells
        rw [this, List.length_nil] at hl
        rw [hl] at ha
        cases ha
      simp only [step, hv]
      refine ⟨trivial, trivial, _, rfl, ?_⟩
      obtain ⟨x, xs, hx⟩ := List.exists_cons_of_ne_nil hne
      refine ⟨x, ?_, hmem v _ hv x (by rw [hx]; exact List.mem_cons_self)⟩
      rw [hcells, destroyCells_some, hx]
      exact List.mem_cons_self
    · cases ha
  | emplaceAt a i throws =>
    rw [allowed] at ha
    split at ha
    · rename_i c hv
      obtain ⟨k, s⟩ := c
      rw [Bool.or_eq_false_iff, Bool.not_eq_false', decide_eq_false_iff_not] at ha
      obtain ⟨rfl, hi⟩ := ha
      have hi' : i < Vec.viewSize sz s := by simp only at hi; omega
      have hg := hinv.goodAt (w := ⟨w.vars, log', w.next⟩) hv
      have hcells := hg.cells
      simp only at hcells
      have hlen : (contents sz ⟨k, s⟩).length = Vec.viewSize sz s := by
        cases k with
        | vector =>
          obtain ⟨ids, h⟩ := hg
          rw [contents_of_holds h, h.viewSize_eq]
        | array =>
          obtain ⟨ids, hl, hid⟩ := hg
          have := congrArg List.length (hcells.symm.trans hid)
          simp only [List.length_map] at this
          omega
      have hil : i < (contents sz ⟨k, s⟩).length := by omega
      have hcell : s.cells[i]? = some (some (contents sz ⟨k, s⟩)[i]) := by
        have := congrArg (·[i]?) hcells
        simpa [List.getElem?_take, hi', hil] using this
      simp only [step, hv, if_pos hi', if_true]
      refine ⟨trivial, trivial, _, rfl, (contents sz ⟨k, s⟩)[i], ?_, hmem a _ hv _ (List.getElem_mem _)⟩
      rw [hcell]
      exact List.mem_cons_self
    · cases ha
  | newVector => cases ha
  | newVectorOf => cases ha
  | newArray => cases ha
  | emplaceBack => cases ha
  | popBack => cases ha
  | clear => cases ha
  | swap => cases ha
  | moveCtor => cases ha
  | toArray => cases ha
  | destroy => cases ha

theorem step_sound {sz : Nat} {w : World} (hs : Sound sz w) (op : Op) :
    Sound sz (step sz w op) ∧ ∀ id, dues sz w id ≤ dues sz (step sz w op) id := by
  by_cases ha : allowed sz w op = true
  · obtain ⟨log', hinv⟩ := hs
    obtain ⟨vars', delta, next', hstep⟩ := step_log sz w.vars w.next op
    have hs1 := step_inv hinv op (by rw [allowed_congr sz w.vars w.next log' w.log]; exact ha)
    rw [hstep] at hs1
    have hs2 : step sz w op = ⟨vars', w.log ++ delta, next'⟩ := hstep w.log
    rw [hs2]
    refine ⟨⟨_, hs1⟩, fun id => ?_⟩
    have c1 := leaves_counts hinv.log id
    have c2 := leaves_counts hs1.log id
    simp only [dues, List.count_append] at c1 c2 ⊢
    omega
  · obtain ⟨h1, h2, delta, h3, _⟩ := offending hs op (Bool.eq_false_iff.mpr ha)
    obtain ⟨log', hinv⟩ := hs
    refine ⟨⟨log', by rw [h1, h2]; exact hinv⟩, fun id => ?_⟩
    rw [dues, dues, h1, h3, List.count_append]
    omega

theorem run_sound {sz : Nat} (ops : List Op) : ∀ {w : World}, Sound sz w →
    Sound sz (run sz w ops) ∧ ∀ id, dues sz w id ≤ dues sz (run sz w ops) id := by
  induction ops with
  | nil => intro w h; exact ⟨h, fun _ => Nat.le_refl _⟩
  | cons o os ih =>
    intro w h
    obtain ⟨h1, h2⟩ := step_sound h o
    obtain ⟨h3, h4⟩ := ih h1
    exact ⟨h3, fun id => Nat.le_trans (h2 id) (h4 id)⟩

theorem run_offending {sz : Nat} (ops : List Op) : ∀ {w : World}, Sound sz w → allowedAll sz w ops = false →
    ∃ id, 2 ≤ dues sz (run sz w ops) id := by
  induction ops with
  | nil => intro w _ h; cases h
  | cons o os ih =>
    intro w h ha
    rw [allowedAll, Bool.and_eq_false_iff] at ha
    have hst := step_sound h o
    by_cases h1 : allowed sz w o = true
    · rw [h1] at ha
      exact ih hst.1 (ha.resolve_left (by simp))
    · obtain ⟨g1, _, delta, g3, id, g4, g5⟩ := offending h o (Bool.eq_false_iff.mpr h1)
      refine ⟨id, Nat.le_trans ?_ ((run_sound os hst.1).2 id)⟩
      rw [dues, g1, g3, List.count_append]
      have := List.count_pos_iff.mpr g4
      have := List.count_pos_iff.mpr g5
      omega

theorem closing_held (sz : Nat) (w : World) : held sz (run sz w (closing w)).vars = [] := by
  rw [held, List.flatMap_eq_nil_iff]
  intro x hx
  obtain ⟨v, hv⟩ := List.mem_iff_getElem?.mp hx
  have hlt : v < w.vars.length := by
    have := (List.getElem?_eq_some_iff.mp hv).1
    rwa [closing, closing_length] at this
  rw [closing, closing_vars sz _ _ v hlt (.inl (List.mem_range.mpr hlt))] at hv
  cases hv
  rfl

/-- **C45**, exactly when it holds: every element constructed in a history is destroyed exactly once if and only if nowhere
in the history `nullptr` is assigned to an array with elements and nowhere the constructor throws in `ArrayView::emplace`.
Otherwise some element is destroyed at least twice. -/
theorem C45_iff (sz : Nat) (hsz : 0 < sz) (ops : List Op) :
    (Clean (run sz (run sz .init ops) (closing (run sz .init ops))).log ↔ allowedAll sz .init ops = true) ∧
    (allowedAll sz .init ops = false →
      ∃ id, 2 ≤ (run sz (run sz .init ops) (closing (run sz .init ops))).log.count (.destroy id)) := by
  have hbad : allowedAll sz .init ops = false →
      ∃ id, 2 ≤ (run sz (run sz .init ops) (closing (run sz .init ops))).log.count (.destroy id) := by
    intro h
    have h0 : Sound sz .init := ⟨[], inv_init hsz⟩
    obtain ⟨id, hid⟩ := run_offending ops h0 h
    have h1 := (run_sound (closing (run sz .init ops)) (run_sound ops h0).1).2 id
    have h2 : dues sz (run sz (run sz .init ops) (closing (run sz .init ops))) id =
        (run sz (run sz .init ops) (closing (run sz .init ops))).log.count (.destroy id) := by
      rw [dues, closing_held, List.count_nil, Nat.add_zero]
    exact ⟨id, by omega⟩
  refine ⟨⟨fun hc => ?_, C45_exactly_once_partial sz hsz ops⟩, hbad⟩
  cases ha : allowedAll sz .init ops with
  | true => rfl
  | false =>
    obtain ⟨id, hid⟩ := hbad ha
    have := hc.counts id
    omega

/-- A history with an offending operation in the middle. -/
example : allowedAll 8 .init [.newArray 2 [], .newVector 1, .assignNull 0, .emplaceBack 1 false, .swap 0 0] = false := by
  decide +kernel

end Solace.Lifetimes
