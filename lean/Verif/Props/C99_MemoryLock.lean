import Verif.Model.MemoryLock
/-
C99: memory is locked exactly as long as a `Lock` object for it lives.
-/
namespace Solace.MemLock

/-- The specification of "the page holds a byte of the view". -/
def Holds (ps : Nat) (r : Range) (p : Nat) : Prop := ∃ a, r.addr ≤ a ∧ a < r.addr + r.size ∧ p * ps ≤ a ∧ a < (p + 1) * ps

/-- A live object keeps the view `r` in RAM. -/
def Live (w : World) (v : Nat) (r : Range) : Prop := w.objs[v]? = some (some r)

/-- Some live object is for memory on the page. -/
def Covered (ps : Nat) (w : World) (p : Nat) : Prop := ∃ v r, Live w v r ∧ Holds ps r p

theorem touches_iff {ps : Nat} (hps : 0 < ps) (r : Range) (p : Nat) : r.touches ps p = true ↔ Holds ps r p := by
  unfold Range.touches Holds
  simp only [Bool.and_eq_true, bne_iff_ne, ne_eq, decide_eq_true_eq]
  constructor
  · rintro ⟨h0, h1, h2⟩
    have h1' : r.addr < (p + 1) * ps := by
      have := (Nat.div_lt_iff_lt_mul hps).mp (Nat.lt_succ_of_le h1)
      exact this
    have h2' : p * ps ≤ r.addr + r.size - 1 := (Nat.le_div_iff_mul_le hps).mp h2
    by_cases hc : p * ps ≤ r.addr
    · exact ⟨r.addr, Nat.le_refl _, by omega, hc, h1'⟩
    · have : (p + 1) * ps = p * ps + ps := Nat.succ_mul p ps
      exact ⟨p * ps, by omega, by omega, Nat.le_refl _, by omega⟩
  · rintro ⟨a, h1, h2, h3, h4⟩
    refine ⟨by omega, ?_, ?_⟩
    · exact Nat.le_of_lt_succ ((Nat.div_lt_iff_lt_mul hps).mpr (by show r.addr < (p + 1) * ps; omega))
    · exact (Nat.le_div_iff_mul_le hps).mpr (by omega)

theorem not_holds_none {ps : Nat} (p : Nat) : ¬Holds ps .none p := by
  rintro ⟨a, h1, h2, _⟩
  simp only [Range.none] at h1 h2
  omega

theorem lt_of_live {w : World} {v : Nat} {r : Range} (h : Live w v r) : v < w.objs.length :=
  (List.getElem?_eq_some_iff.mp h).1

theorem live_inj {w : World} {v : Nat} {r r' : Range} (h : Live w v r) (h' : Live w v r') : r = r' := by
  unfold Live at h h'
  rw [h] at h'
  cases h'
  rfl

theorem lock_live (ps : Nat) (w : World) (r : Range) (x : Nat) (q : Range) :
    Live (lock ps w r true).1 x q ↔ Live w x q ∨ (x = w.objs.length ∧ q = r) := by
  unfold Live lock
  simp only [if_true]
  by_cases hx : x < w.objs.length
  · rw [List.getElem?_append_left hx]
    constructor
    · exact .inl
    · rintro (h | ⟨h, _⟩)
      · exact h
      · omega
  · by_cases e : x = w.objs.length
    · subst e
      simp [eq_comm]
    · rw [List.getElem?_eq_none (by simp; omega), List.getElem?_eq_none (by omega)]
      simp [e]

theorem move_live {w : World} {v : Nat} {r : Range} (h : Live w v r) (x : Nat) (q : Range) :
    Live (move w v) x q ↔ (x ≠ v ∧ Live w x q) ∨ (x = v ∧ q = .none) ∨ (x = w.objs.length ∧ q = r) := by
  have hlt := lt_of_live h
  have hm : move w v = { w with objs := w.objs.set v (some .none) ++ [some r] } := by
    unfold move; rw [show w.objs[v]? = some (some r) from h]
  rw [hm]
  unfold Live
  simp only
  by_cases hx : x < w.objs.length
  · rw [List.getElem?_append_left (by simpa using hx)]
    by_cases e : x = v
    · subst e
      rw [List.getElem?_set_self hlt]
      simp only [Option.some.injEq, ne_eq, not_true, false_and, true_and, false_or]
      constructor
      · intro e; exact .inl e.symm
      · rintro (e | ⟨e, _⟩)
        · exact e.symm
        · omega
    · rw [List.getElem?_set_ne (fun h => e h.symm)]
      constructor
      · intro h; exact .inl ⟨e, h⟩
      · rintro (⟨_, h⟩ | ⟨h, _⟩ | ⟨h, _⟩)
        · exact h
        · exact absurd h e
        · omega
  · by_cases e : x = w.objs.length
    · subst e
      rw [List.getElem?_append_right (by simp)]
      simp only [List.length_set, Nat.sub_self, List.getElem?_cons_zero, Option.some.injEq]
      constructor
      · intro h; exact .inr (.inr ⟨trivial, h.symm⟩)
      · rintro (⟨_, h⟩ | ⟨h, _⟩ | ⟨_, h⟩)
        · rw [List.getElem?_eq_none (Nat.le_refl _)] at h; cases h
        · omega
        · exact h.symm
    · rw [List.getElem?_eq_none (by simp; omega), List.getElem?_eq_none (by omega)]
      constructor
      · intro h; cases h
      · rintro (⟨_, h⟩ | ⟨h, _⟩ | ⟨h, _⟩)
        · cases h
        · omega
        · omega

theorem move_dead {w : World} {v : Nat} (h : ∀ r, ¬Live w v r) : move w v = w := by
  unfold move
  split
  · rename_i r hr; exact absurd hr (h r)
  · rfl

theorem move_locked (w : World) (v : Nat) : (move w v).locked = w.locked := by
  unfold move; split <;> rfl

theorem assign_locked (w : World) (v u : Nat) : (assign w v u).locked = w.locked := by
  unfold assign; split <;> rfl

theorem assign_live {w : World} {v u : Nat} {a b : Range} (hv : Live w v a) (hu : Live w u b) (x : Nat) (q : Range) :
    Live (assign w v u) x q ↔ if x = u then q = a else if x = v then q = b else Live w x q := by
  have hm : assign w v u = { w with objs := (w.objs.set v (some b)).set u (some a) } := by
    unfold assign
    rw [show w.objs[v]? = some (some a) from hv, show w.objs[u]? = some (some b) from hu]
  have h1 := lt_of_live hv
  have h2 := lt_of_live hu
  rw [hm]
  unfold Live
  simp only
  by_cases eu : x = u
  · subst eu
    rw [List.getElem?_set_self (by simpa using h2), if_pos rfl]
    simp [eq_comm]
  · rw [List.getElem?_set_ne (fun h => eu h.symm), if_neg eu]
    by_cases ev : x = v
    · subst ev
      rw [List.getElem?_set_self h1, if_pos rfl]
      simp [eq_comm]
    · rw [List.getElem?_set_ne (fun h => ev h.symm), if_neg ev]

theorem assign_dead {w : World} {v u : Nat} (h : (∀ r, ¬Live w v r) ∨ ∀ r, ¬Live w u r) : assign w v u = w := by
  unfold assign
  split
  · rename_i a b hv hu
    rcases h with h | h
    · exact absurd hv (h _)
    · exact absurd hu (h _)
  · rfl

theorem destroy_live {ps : Nat} {w : World} {v : Nat} {r : Range} (h : Live w v r) (x : Nat) (q : Range) :
    Live (destroy ps w v) x q ↔ x ≠ v ∧ Live w x q := by
  have hlt := lt_of_live h
  have hm : destroy ps w v = ⟨munlock ps w.locked r, w.objs.set v none⟩ := by
    unfold destroy; rw [show w.objs[v]? = some (some r) from h]
  rw [hm]
  unfold Live
  simp only
  by_cases e : x = v
  · subst e
    rw [List.getElem?_set_self hlt]
    simp
  · rw [List.getElem?_set_ne (fun h => e h.symm)]
    simp [e]

theorem destroy_locked {ps : Nat} {w : World} {v : Nat} {r : Range} (h : Live w v r) (p : Nat) :
    (destroy ps w v).locked p = (w.locked p && !r.touches ps p) := by
  unfold destroy; rw [show w.objs[v]? = some (some r) from h]; rfl

theorem destroy_dead {ps : Nat} {w : World} {v : Nat} (h : ∀ r, ¬Live w v r) : destroy ps w v = w := by
  unfold destroy
  split
  · rename_i r hr; exact absurd hr (h r)
  · rfl

/-- Moving and assigning locks does not change which pages are covered. -/
theorem covered_move (ps : Nat) (w : World) (v p : Nat) : Covered ps (move w v) p ↔ Covered ps w p := by
  by_cases hl : ∃ r, Live w v r
  · obtain ⟨r, hr⟩ := hl
    unfold Covered
    constructor
    · rintro ⟨x, q, hx, hq⟩
      rw [move_live hr] at hx
      rcases hx with ⟨_, hx⟩ | ⟨_, rfl⟩ | ⟨_, rfl⟩
      · exact ⟨x, q, hx, hq⟩
      · exact absurd hq (not_holds_none p)
      · exact ⟨v, q, hr, hq⟩
    · rintro ⟨x, q, hx, hq⟩
      by_cases e : x = v
      · subst e
        have := live_inj hx hr
        subst this
        exact ⟨w.objs.length, q, (move_live hr _ _).mpr (.inr (.inr ⟨rfl, rfl⟩)), hq⟩
      · exact ⟨x, q, (move_live hr _ _).mpr (.inl ⟨e, hx⟩), hq⟩
  · rw [move_dead (fun r hr => hl ⟨r, hr⟩)]

theorem covered_assign (ps : Nat) (w : World) (v u p : Nat) : Covered ps (assign w v u) p ↔ Covered ps w p := by
  by_cases hl : ∃ a b, Live w v a ∧ Live w u b
  · obtain ⟨a, b, hv, hu⟩ := hl
    unfold Covered
    constructor
    · rintro ⟨x, q, hx, hq⟩
      rw [assign_live hv hu] at hx
      split at hx
      · subst hx; exact ⟨v, q, hv, hq⟩
      · split at hx
        · subst hx; exact ⟨u, q, hu, hq⟩
        · exact ⟨x, q, hx, hq⟩
    · rintro ⟨x, q, hx, hq⟩
      by_cases ev : x = v
      · subst ev
        have := live_inj hx hv
        subst this
        exact ⟨u, q, (assign_live hv hu _ _).mpr (by rw [if_pos rfl]), hq⟩
      · by_cases eu : x = u
        · subst eu
          have := live_inj hx hu
          subst this
          exact ⟨v, q, (assign_live hv hu _ _).mpr (by rw [if_neg (fun h => ev h.symm), if_pos rfl]), hq⟩
        · exact ⟨x, q, (assign_live hv hu _ _).mpr (by rw [if_neg eu, if_neg ev]; exact hx), hq⟩
  · rw [assign_dead]
    by_cases hv : ∃ a, Live w v a
    · obtain ⟨a, hv⟩ := hv
      exact .inr fun o ho => hl ⟨a, o, hv, ho⟩
    · exact .inl fun o ho => hv ⟨o, ho⟩

/-- One operation keeps "locked pages are covered". -/
theorem step_covered {ps : Nat} (hps : 0 < ps) (w : World) (op : Op) (h : ∀ p, w.locked p = true → Covered ps w p) :
    ∀ p, (step ps w op).locked p = true → Covered ps (step ps w op) p := by
  intro p hp
  cases op with
  | lock r works =>
    cases works with
    | false => exact h p hp
    | true =>
      have hp' : (w.locked p || r.touches ps p) = true := hp
      rw [Bool.or_eq_true] at hp'
      rcases hp' with hp' | hp'
      · obtain ⟨x, q, hx, hq⟩ := h p hp'
        exact ⟨x, q, (lock_live ps w r x q).mpr (.inl hx), hq⟩
      · exact ⟨_, r, (lock_live ps w r _ r).mpr (.inr ⟨rfl, rfl⟩), (touches_iff hps r p).mp hp'⟩
  | move v =>
    have hp' : (move w v).locked p = true := hp
    rw [move_locked] at hp'
    exact (covered_move ps w v p).mpr (h p hp')
  | assign v u =>
    have hp' : (assign w v u).locked p = true := hp
    rw [assign_locked] at hp'
    exact (covered_assign ps w v u p).mpr (h p hp')
  | destroy v =>
    have hp' : (destroy ps w v).locked p = true := hp
    by_cases hl : ∃ r, Live w v r
    · obtain ⟨r, hr⟩ := hl
      rw [destroy_locked hr, Bool.and_eq_true, Bool.not_eq_true'] at hp'
      obtain ⟨x, q, hx, hq⟩ := h p hp'.1
      refine ⟨x, q, (destroy_live hr x q).mpr ⟨?_, hx⟩, hq⟩
      intro e
      subst e
      have := live_inj hx hr
      subst this
      have := (touches_iff hps q p).mpr hq
      rw [this] at hp'
      exact absurd hp'.2 (by simp)
    · have e := destroy_dead (ps := ps) (fun r hr => hl ⟨r, hr⟩)
      show Covered ps (destroy ps w v) p
      rw [e] at hp' ⊢
      exact h p hp'

/-- **C99** (full): in every program a page that is locked holds memory of a live `Lock` object: no lock outlives its objects, and
none is forgotten by moves and assignments. -/
theorem C99_locked_covered {ps : Nat} (hps : 0 < ps) (ops : List Op) (p : Nat) (h : (run ps .init ops).locked p = true) :
    ∃ v r, Live (run ps .init ops) v r ∧ Holds ps r p := by
  have key : ∀ (ops : List Op) (w : World), (∀ p, w.locked p = true → Covered ps w p) →
      ∀ p, (run ps w ops).locked p = true → Covered ps (run ps w ops) p := by
    intro ops
    induction ops with
    | nil => intro w h; exact h
    | cons op ops ih => intro w h; exact ih _ (step_covered hps w op h)
  exact key ops .init (fun p h => by simp [World.init] at h) p h

/-- **C99** (full): when all `Lock` objects are gone nothing is locked. -/
theorem C99_all_released {ps : Nat} (hps : 0 < ps) (ops : List Op) (hd : ∀ v r, ¬Live (run ps .init ops) v r) (p : Nat) :
    (run ps .init ops).locked p = false := by
  cases h : (run ps .init ops).locked p with
  | false => rfl
  | true =>
    obtain ⟨v, r, hv, _⟩ := C99_locked_covered hps ops p h
    exact absurd hv (hd v r)

/-- No two live objects share a page. -/
def Apart (ps : Nat) (w : World) : Prop :=
  ∀ v u r q p, Live w v r → Live w u q → Holds ps r p → Holds ps q p → v = u

/-- The program locks only memory on pages without a live lock. -/
def Separate (ps : Nat) : World → List Op → Prop
  | _, [] => True
  | w, op :: ops => (∀ r, op = .lock r true → ∀ p, Holds ps r p → ¬Covered ps w p) ∧ Separate ps (step ps w op) ops

theorem step_apart {ps : Nat} (hps : 0 < ps) (w : World) (op : Op) (ha : Apart ps w) (hc : ∀ p, Covered ps w p → w.locked p = true)
    (hs : ∀ r, op = .lock r true → ∀ p, Holds ps r p → ¬Covered ps w p) :
    Apart ps (step ps w op) ∧ ∀ p, Covered ps (step ps w op) p → (step ps w op).locked p = true := by
  cases op with
  | lock r works =>
    cases works with
    | false => exact ⟨ha, hc⟩
    | true =>
      have hs' := hs r rfl
      constructor
      · intro v u a b p hv hu hp hp'
        have hv' := (lock_live ps w r v a).mp hv
        have hu' := (lock_live ps w r u b).mp hu
        rcases hv' with hv' | ⟨e, rfl⟩ <;> rcases hu' with hu' | ⟨e', rfl⟩
        · exact ha v u a b p hv' hu' hp hp'
        · exact absurd ⟨v, a, hv', hp⟩ (hs' p hp')
        · exact absurd ⟨u, b, hu', hp'⟩ (hs' p hp)
        · omega
      · rintro p ⟨x, q, hx, hq⟩
        show (w.locked p || r.touches ps p) = true
        rcases (lock_live ps w r x q).mp hx with hx | ⟨_, rfl⟩
        · rw [hc p ⟨x, q, hx, hq⟩]; rfl
        · rw [(touches_iff hps q p).mpr hq]; simp
  | move v =>
    refine ⟨?_, fun p hp => ?_⟩
    · show Apart ps (move w v)
      by_cases hl : ∃ r, Live w v r
      · obtain ⟨r, hr⟩ := hl
        intro x y a b p hx hy hp hp'
        rw [move_live hr] at hx hy
        rcases hx with ⟨n1, hx⟩ | ⟨_, rfl⟩ | ⟨e1, rfl⟩ <;> rcases hy with ⟨n2, hy⟩ | ⟨_, rfl⟩ | ⟨e2, rfl⟩
        · exact ha x y a b p hx hy hp hp'
        · exact absurd hp' (not_holds_none p)
        · exact absurd (ha x v a b p hx hr hp hp') n1
        · exact absurd hp (not_holds_none p)
        · exact absurd hp (not_holds_none p)
        · exact absurd hp (not_holds_none p)
        · exact absurd (ha y v b a p hy hr hp' hp) n2
        · exact absurd hp' (not_holds_none p)
        · omega
      · rw [move_dead (fun r hr => hl ⟨r, hr⟩)]; exact ha
    · show (move w v).locked p = true
      rw [move_locked]
      exact hc p ((covered_move ps w v p).mp hp)
  | assign v u =>
    refine ⟨?_, fun p hp => ?_⟩
    · show Apart ps (assign w v u)
      by_cases hl : ∃ a b, Live w v a ∧ Live w u b
      · obtain ⟨a, b, hv, hu⟩ := hl
        have back : ∀ x q, Live (assign w v u) x q → Live w (if x = u then v else if x = v then u else x) q := by
          intro x q hx
          rw [assign_live hv hu] at hx
          by_cases eu : x = u
          · rw [if_pos eu] at hx ⊢; subst hx; exact hv
          · rw [if_neg eu] at hx ⊢
            by_cases ev : x = v
            · rw [if_pos ev] at hx ⊢; subst hx; exact hu
            · rw [if_neg ev] at hx ⊢; exact hx
        intro x y c d p hx hy hp hp'
        have := ha _ _ c d p (back x c hx) (back y d hy) hp hp'
        split at this <;> split at this <;> try split at this
        all_goals (try split at this)
        all_goals omega
      · rw [assign_dead]
        · exact ha
        · by_cases hv : ∃ a, Live w v a
          · obtain ⟨a, hv⟩ := hv
            exact .inr fun o ho => hl ⟨a, o, hv, ho⟩
          · exact .inl fun o ho => hv ⟨o, ho⟩
    · show (assign w v u).locked p = true
      rw [assign_locked]
      exact hc p ((covered_assign ps w v u p).mp hp)
  | destroy v =>
    show Apart ps (destroy ps w v) ∧ ∀ p, Covered ps (destroy ps w v) p → (destroy ps w v).locked p = true
    by_cases hl : ∃ r, Live w v r
    · obtain ⟨r, hr⟩ := hl
      constructor
      · intro x y a b p hx hy
        exact ha x y a b p ((destroy_live hr x a).mp hx).2 ((destroy_live hr y b).mp hy).2
      · rintro p ⟨x, q, hx, hq⟩
        have hx' := (destroy_live hr x q).mp hx
        rw [destroy_locked hr, hc p ⟨x, q, hx'.2, hq⟩, Bool.true_and, Bool.not_eq_true']
        cases ht : r.touches ps p with
        | false => rfl
        | true => exact absurd (ha x v q r p hx'.2 hr hq ((touches_iff hps r p).mp ht)) hx'.1
    · rw [destroy_dead (ps := ps) (fun r hr => hl ⟨r, hr⟩)]
      exact ⟨ha, hc⟩

/-- **C99** (partial: no two locks on one page at a time): a page is locked exactly when a live object is for memory on it.
Missing: locks that share a page, see the negation. -/
theorem C99_exactly_partial {ps : Nat} (hps : 0 < ps) (ops : List Op) (hs : Separate ps .init ops) (p : Nat) :
    (run ps .init ops).locked p = true ↔ Covered ps (run ps .init ops) p := by
  refine ⟨C99_locked_covered hps ops p, ?_⟩
  have key : ∀ (ops : List Op) (w : World), Apart ps w → (∀ p, Covered ps w p → w.locked p = true) → Separate ps w ops →
      ∀ p, Covered ps (run ps w ops) p → (run ps w ops).locked p = true := by
    intro ops
    induction ops with
    | nil => intro w _ h _; exact h
    | cons op ops ih =>
      intro w ha hc hs
      have h := step_apart hps w op ha hc hs.1
      exact ih _ h.1 h.2 hs.2
  refine key ops .init ?_ ?_ hs p
  · intro v u r q p hv; simp [Live, World.init] at hv
  · rintro p ⟨v, r, hv, _⟩; simp [Live, World.init] at hv

/-- **C99, negation**: of two objects for memory on one page, destroying one unlocks the page for the other. -/
theorem C99_shared_page {ps : Nat} (hps : 0 < ps) (w : World) (v u p : Nat) (r q : Range) (hvu : v ≠ u) (hv : Live w v r)
    (hu : Live w u q) (hr : Holds ps r p) (hq : Holds ps q p) :
    Covered ps (destroy ps w v) p ∧ (destroy ps w v).locked p = false := by
  refine ⟨⟨u, q, (destroy_live hv u q).mpr ⟨fun h => hvu h.symm, hu⟩, hq⟩, ?_⟩
  rw [destroy_locked hv, (touches_iff hps r p).mpr hr]
  simp

/-- **C99**: a successful `lock` locks every byte of the view; a failed one changes nothing. -/
theorem C99_lock {ps : Nat} (hps : 0 < ps) (w : World) (r : Range) :
    (∀ a, r.addr ≤ a → a < r.addr + r.size → (lock ps w r true).1.locked (a / ps) = true) ∧
    (lock ps w r true).2 = .ok () ∧ lock ps w r false = (w, .error .errno) := by
  refine ⟨fun a h1 h2 => ?_, rfl, rfl⟩
  show (w.locked (a / ps) || r.touches ps (a / ps)) = true
  rw [(touches_iff hps r _).mpr ⟨a, h1, h2, Nat.div_mul_le_self a ps, ?_⟩]
  · simp
  · rw [Nat.add_mul, Nat.one_mul]
    have := Nat.mod_lt a hps
    have h := Nat.div_add_mod a ps
    rw [Nat.mul_comm] at h
    omega

/-- **C99**: a moved-from object locks nothing and its destruction unlocks nothing. -/
theorem C99_moved_from {ps : Nat} (w : World) (v : Nat) (r : Range) (hv : Live w v r) :
    Live (move w v) v .none ∧ Live (move w v) w.objs.length r ∧
      ∀ p, (destroy ps (move w v) v).locked p = w.locked p := by
  have h1 : Live (move w v) v .none := (move_live hv _ _).mpr (.inr (.inl ⟨rfl, rfl⟩))
  refine ⟨h1, (move_live hv _ _).mpr (.inr (.inr ⟨rfl, rfl⟩)), fun p => ?_⟩
  rw [destroy_locked h1, move_locked]
  simp [Range.touches, Range.none]

/-! Non-trivial cases: pages of 4096 bytes. -/

example : (run 4096 .init [.lock ⟨4000, 200⟩ true]).locked 0 = true ∧ (run 4096 .init [.lock ⟨4000, 200⟩ true]).locked 1 = true ∧
    (run 4096 .init [.lock ⟨4000, 200⟩ true]).locked 2 = false := by decide
example : (run 4096 .init [.lock ⟨0, 10⟩ true, .move 0, .destroy 0]).locked 0 = true ∧
    (run 4096 .init [.lock ⟨0, 10⟩ true, .move 0, .destroy 0, .destroy 1]).locked 0 = false := by decide
/-- Two buffers on one page: the second is no longer locked. -/
example : (run 4096 .init [.lock ⟨0, 10⟩ true, .lock ⟨100, 10⟩ true, .destroy 0]).locked 0 = false := by decide
example : Separate 4096 .init [.lock ⟨0, 10⟩ true, .lock ⟨8192, 10⟩ true, .destroy 0] := by
  refine ⟨?_, ?_, ?_, trivial⟩
  · rintro r h p _ ⟨v, q, hv, _⟩
    simp [Live, World.init] at hv
  · rintro r h p ⟨a, h1, h2, h3, h4⟩ ⟨v, q, hv, b, g1, g2, g3, g4⟩
    injection h with h
    subst h
    have hv' := (lock_live 4096 .init ⟨0, 10⟩ v q).mp hv
    rcases hv' with hv' | ⟨_, rfl⟩
    · simp [Live, World.init] at hv'
    · simp only at *
      omega
  · intro r h
    cases h

end Solace.MemLock
