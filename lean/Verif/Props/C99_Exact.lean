import Verif.Props.C99_MemoryLock
/-! C99: exactly which pages are locked, and exactly when these are the pages that live objects are for. -/
namespace Solace.MemLock

/-- No live object for memory on the page is destroyed by the operations. -/
def NoUnlock (ps : Nat) (p : Nat) : World → List Op → Prop
  | _, [] => True
  | w, op :: ops => (∀ v r, op = .destroy v → Live w v r → ¬Holds ps r p) ∧ NoUnlock ps p (step ps w op) ops

/-- One operation locks the page exactly if it locks memory on it, or it was locked and is not unlocked. -/
theorem step_locked {ps : Nat} (hps : 0 < ps) (w : World) (op : Op) (p : Nat) :
    (step ps w op).locked p = true ↔ (∃ r, op = .lock r true ∧ Holds ps r p) ∨
      (w.locked p = true ∧ ∀ v r, op = .destroy v → Live w v r → ¬Holds ps r p) := by
  cases op with
  | lock r works =>
    cases works with
    | false =>
      show w.locked p = true ↔ _
      constructor
      · intro h
        exact .inr ⟨h, fun v r e => by cases e⟩
      · rintro (⟨q, e, -⟩ | ⟨h, -⟩)
        · cases e
        · exact h
    | true =>
      show (w.locked p || r.touches ps p) = true ↔ _
      rw [Bool.or_eq_true, touches_iff hps]
      constructor
      · rintro (h | h)
        · exact .inr ⟨h, fun v r e => by cases e⟩
        · exact .inl ⟨r, rfl, h⟩
      · rintro (⟨q, e, h⟩ | ⟨h, -⟩)
        · cases e
          exact .inr h
        · exact .inl h
  | move v =>
    show (move w v).locked p = true ↔ _
    rw [move_locked]
    constructor
    · intro h
      exact .inr ⟨h, fun v r e => by cases e⟩
    · rintro (⟨q, e, -⟩ | ⟨h, -⟩)
      · cases e
      · exact h
  | assign v u =>
    show (assign w v u).locked p = true ↔ _
    rw [assign_locked]
    constructor
    · intro h
      exact .inr ⟨h, fun v r e => by cases e⟩
    · rintro (⟨q, e, -⟩ | ⟨h, -⟩)
      · cases e
      · exact h
  | destroy v =>
    show (destroy ps w v).locked p = true ↔ _
    by_cases hl : ∃ r, Live w v r
    · obtain ⟨r, hr⟩ := hl
      rw [destroy_locked hr, Bool.and_eq_true, Bool.not_eq_true', ← Bool.not_eq_true, touches_iff hps]
      constructor
      · rintro ⟨h1, h2⟩
        refine .inr ⟨h1, fun x q e hx => ?_⟩
        cases e
        rw [live_inj hx hr]
        exact h2
      · rintro (⟨q, e, -⟩ | ⟨h, h2⟩)
        · cases e
        · exact ⟨h, h2 v r rfl hr⟩
    · rw [destroy_dead (ps := ps) (fun r hr => hl ⟨r, hr⟩)]
      constructor
      · intro h
        refine .inr ⟨h, fun x q e hx => ?_⟩
        cases e
        exact absurd ⟨q, hx⟩ hl
      · rintro (⟨q, e, -⟩ | ⟨h, -⟩)
        · cases e
        · exact h

theorem run_locked {ps : Nat} (hps : 0 < ps) (p : Nat) (ops : List Op) : ∀ w,
    (run ps w ops).locked p = true ↔ (w.locked p = true ∧ NoUnlock ps p w ops) ∨
      ∃ before r after, ops = before ++ .lock r true :: after ∧ Holds ps r p ∧
        NoUnlock ps p (run ps w (before ++ [.lock r true])) after := by
  induction ops with
  | nil =>
    intro w
    constructor
    · intro h
      exact .inl ⟨h, trivial⟩
    · rintro (⟨h, -⟩ | ⟨b, r, a, e, -⟩)
      · exact h
      · cases b <;> cases e
  | cons op ops ih =>
    intro w
    show (run ps (step ps w op) ops).locked p = true ↔ _
    rw [ih (step ps w op), step_locked hps]
    constructor
    · rintro (⟨⟨r, rfl, h⟩ | ⟨h, h2⟩, hn⟩ | ⟨b, r, a, rfl, h, hn⟩)
      · exact .inr ⟨[], r, ops, rfl, h, hn⟩
      · exact .inl ⟨h, h2, hn⟩
      · exact .inr ⟨op :: b, r, a, rfl, h, hn⟩
    · rintro (⟨h, h2, hn⟩ | ⟨b, r, a, e, h, hn⟩)
      · exact .inl ⟨.inr ⟨h, h2⟩, hn⟩
      · cases b with
        | nil =>
          cases e
          exact .inl ⟨.inl ⟨r, rfl, h⟩, hn⟩
        | cons x b =>
          cases e
          exact .inr ⟨b, r, a, rfl, h, hn⟩

/-- **C99**, exactly which pages are locked after any program: those with memory that was locked at some point after which no
live object for memory on the page was destroyed. -/
theorem C99_page {ps : Nat} (hps : 0 < ps) (ops : List Op) (p : Nat) :
    (run ps .init ops).locked p = true ↔ ∃ before r after, ops = before ++ .lock r true :: after ∧ Holds ps r p ∧
      NoUnlock ps p (run ps .init (before ++ [.lock r true])) after := by
  rw [run_locked hps]
  constructor
  · rintro (⟨h, -⟩ | h)
    · cases h
    · exact h
  · exact .inr

/-- Whenever an object is destroyed, no other is for memory on one of its pages. -/
def Undisturbed (ps : Nat) : World → List Op → Prop
  | _, [] => True
  | w, op :: ops => (∀ v u r q p, op = .destroy v → v ≠ u → Live w v r → Live w u q → Holds ps r p → ¬Holds ps q p) ∧
      Undisturbed ps (step ps w op) ops

theorem step_good {ps : Nat} (hps : 0 < ps) (w : World) (hg : ∀ p, w.locked p = true ↔ Covered ps w p) (op : Op) :
    (∀ p, (step ps w op).locked p = true ↔ Covered ps (step ps w op) p) ↔
      ∀ v u r q p, op = .destroy v → v ≠ u → Live w v r → Live w u q → Holds ps r p → ¬Holds ps q p := by
  constructor
  · rintro h v u r q p rfl hvu hv hu hr hq
    have := C99_shared_page hps w v u p r q hvu hv hu hr hq
    have h2 := (h p).mpr this.1
    have h3 : (step ps w (.destroy v)).locked p = (destroy ps w v).locked p := rfl
    rw [h3, this.2] at h2
    cases h2
  · intro h p
    refine ⟨step_covered hps w op (fun p => (hg p).mp) p, fun hc => ?_⟩
    rw [step_locked hps]
    cases op with
    | lock r works =>
      cases works with
      | false => exact .inr ⟨(hg p).mpr hc, fun v r e => by cases e⟩
      | true =>
        obtain ⟨x, q, hx, hq⟩ := hc
        rcases (lock_live ps w r x q).mp hx with hx | ⟨-, rfl⟩
        · exact .inr ⟨(hg p).mpr ⟨x, q, hx, hq⟩, fun v r e => by cases e⟩
        · exact .inl ⟨q, rfl, hq⟩
    | move v => exact .inr ⟨(hg p).mpr ((covered_move ps w v p).mp hc), fun v r e => by cases e⟩
    | assign v u => exact .inr ⟨(hg p).mpr ((covered_assign ps w v u p).mp hc), fun v r e => by cases e⟩
    | destroy v =>
      have hc : Covered ps (destroy ps w v) p := hc
      obtain ⟨x, q, hx, hq⟩ := hc
      by_cases hl : ∃ r, Live w v r
      · obtain ⟨r, hr⟩ := hl
        obtain ⟨hne, hx⟩ := (destroy_live hr x q).mp hx
        refine .inr ⟨(hg p).mpr ⟨x, q, hx, hq⟩, fun y r' e hy => ?_⟩
        cases e
        exact fun hr' => h v x r' q p rfl (fun e => hne e.symm) hy hx hr' hq
      · rw [destroy_dead (ps := ps) (fun r hr => hl ⟨r, hr⟩)] at hx
        refine .inr ⟨(hg p).mpr ⟨x, q, hx, hq⟩, fun y r' e hy => ?_⟩
        cases e
        exact absurd ⟨r', hy⟩ hl

/-- **C99**, exactly when it holds: all through a program the locked pages are those that live objects are for, if and only if no
object is destroyed while another one is for memory on one of its pages. -/
theorem C99_iff {ps : Nat} (hps : 0 < ps) (ops : List Op) :
    (∀ n p, (run ps .init (ops.take n)).locked p = true ↔ Covered ps (run ps .init (ops.take n)) p) ↔
      Undisturbed ps .init ops := by
  have key : ∀ (ops : List Op) w, (∀ p, w.locked p = true ↔ Covered ps w p) →
      ((∀ n p, (run ps w (ops.take n)).locked p = true ↔ Covered ps (run ps w (ops.take n)) p) ↔ Undisturbed ps w ops) := by
    intro ops
    induction ops with
    | nil =>
      intro w hg
      refine ⟨fun _ => trivial, fun _ n => ?_⟩
      rw [List.take_nil]
      exact hg
    | cons op ops ih =>
      intro w hg
      constructor
      · intro h
        have h1 := h 1
        refine ⟨(step_good hps w hg op).mp h1, (ih (step ps w op) h1).mp fun n => h (n + 1)⟩
      · rintro ⟨h1, h2⟩ n
        have hg' := (step_good hps w hg op).mpr h1
        cases n with
        | zero => exact hg
        | succ n => exact (ih (step ps w op) hg').mpr h2 n
  refine key ops .init fun p => ⟨fun h => (by cases h), ?_⟩
  rintro ⟨v, r, hv, -⟩
  simp [Live, World.init] at hv

/-- Two buffers on one page: fine as long as none is destroyed. -/
example : Undisturbed 4096 .init [.lock ⟨0, 10⟩ true, .lock ⟨100, 10⟩ true] := by
  refine ⟨?_, ?_, trivial⟩ <;> (intro v u r q p e; cases e)
example : ¬Undisturbed 4096 .init [.lock ⟨0, 10⟩ true, .lock ⟨100, 10⟩ true, .destroy 0] := by
  rintro ⟨-, -, h, -⟩
  exact h 0 1 ⟨0, 10⟩ ⟨100, 10⟩ 0 rfl (by decide) rfl rfl ⟨0, by decide, by decide, by decide, by decide⟩
    ⟨100, by decide, by decide, by decide, by decide⟩

end Solace.MemLock
