import Verif.Spec.PayloadThrow
import Verif.Props.C57_Exact
/-
C124: exceptions of the constructors of payloads leave the calls of `Optional` and `Result`, or end the program.
-/
namespace Solace.PayloadThrow

/-- All about one constructor, in terms of its two flags. -/
local macro "table" : tactic => `(tactic|
  simp_all [Passes, Nothrow, made, outcome, optValue, optInPlace, optFrom, optMoved, optAssignValue, resTag, resInPlace,
    resWrapped, resWrapper, resRef, resMoved, resConverted, voidErrCopy, voidErrMove, voidMoved, voidTagCopy, voidTagMove,
    voidInPlace, wrapCopy, wrapMove, optConstruct, construct, spec, pick, Traits.declared, Transparent, Promises])

/-- **C124**, exactly which calls: an exception of the payload leaves the call, for every type of payload, if and only if the call
is one of the transparent ones. -/
theorem C124_transparent (c : Call) : (∀ tv te, Passes tv te c) ↔ Transparent c := by
  constructor
  · intro h
    have h1 := h ⟨false, true⟩ ⟨false, true⟩
    have h2 := h ⟨true, false⟩ ⟨true, false⟩
    have h3 := h ⟨false, false⟩ ⟨false, false⟩
    clear h
    cases c
    case optValue k => rcases k with _ | _ | _ | _ <;> table
    case optInPlace n => cases n <;> table
    case optFrom k => rcases k with _ | _ | _ | _ <;> table
    case optMoved k => rcases k with _ | _ | _ | _ <;> table
    case optAssignValue => trivial
    case resTag w k => cases w <;> rcases k with _ | _ | _ | _ <;> table
    case resInPlace => trivial
    case resWrapped w k => cases w <;> rcases k with _ | _ | _ | _ <;> table
    case resWrapper w k => cases w <;> rcases k with _ | _ | _ | _ <;> table
    case resRef => trivial
    case resMoved => trivial
    case resConverted w n => cases w <;> cases n <;> table
    case voidErrCopy => table
    case voidErrMove => trivial
    case voidMoved => trivial
    case voidTagCopy => table
    case voidTagMove => trivial
    case voidInPlace n => cases n <;> table
    case wrapCopy => trivial
    case wrapMove => trivial
  · rintro h ⟨c1, m1⟩ ⟨c2, m2⟩
    cases c
    case optValue k => rcases k with _ | _ | _ | _ <;> cases c1 <;> cases m1 <;> table
    case optInPlace n => cases n <;> cases c1 <;> cases m1 <;> table
    case optFrom k => rcases k with _ | _ | _ | _ <;> cases c1 <;> cases m1 <;> table
    case optMoved k => rcases k with _ | _ | _ | _ <;> cases c1 <;> cases m1 <;> table
    case optAssignValue => cases c1 <;> cases m1 <;> table
    case resTag w k => cases w <;> rcases k with _ | _ | _ | _ <;> cases c1 <;> cases m1 <;> cases c2 <;> cases m2 <;> table
    case resInPlace w n => cases w <;> cases n <;> table
    case resWrapped w k => cases w <;> rcases k with _ | _ | _ | _ <;> cases c1 <;> cases m1 <;> cases c2 <;> cases m2 <;> table
    case resWrapper w k => cases w <;> rcases k with _ | _ | _ | _ <;> cases c1 <;> cases m1 <;> cases c2 <;> cases m2 <;> table
    case resRef w => cases w <;> cases m1 <;> cases m2 <;> table
    case resMoved w => cases w <;> cases m1 <;> cases m2 <;> table
    case resConverted w n => cases w <;> cases n <;> table
    case voidErrCopy => table
    case voidErrMove => cases m2 <;> table
    case voidMoved => cases m2 <;> table
    case voidTagCopy => table
    case voidTagMove => cases m2 <;> table
    case voidInPlace n => cases n <;> cases m2 <;> table
    case wrapCopy w => cases w <;> cases c1 <;> cases c2 <;> table
    case wrapMove w => cases w <;> cases m1 <;> cases m2 <;> table

/-- **C124**, exactly when: no call hides an exception of its payload, and it ends the program exactly when the constructor of the
payload is declared `noexcept` itself or a specification on the way to it promises that nothing is thrown. -/
theorem C124_exact (tv te : Traits) (c : Call) :
    outcome tv te c false = .ok () ∧
    (outcome tv te c true = .terminate ↔ Nothrow tv te c ∨ Promises tv te c) ∧
    (outcome tv te c true = .throws ↔ ¬(Nothrow tv te c ∨ Promises tv te c)) := by
  obtain ⟨c1, m1⟩ := tv
  obtain ⟨c2, m2⟩ := te
  cases c
  case optValue k => rcases k with _ | _ | _ | _ <;> cases c1 <;> cases m1 <;> table
  case optInPlace n => cases n <;> cases c1 <;> cases m1 <;> table
  case optFrom k => rcases k with _ | _ | _ | _ <;> cases c1 <;> cases m1 <;> table
  case optMoved k => rcases k with _ | _ | _ | _ <;> cases c1 <;> cases m1 <;> table
  case optAssignValue => cases c1 <;> cases m1 <;> table
  case resTag w k => cases w <;> rcases k with _ | _ | _ | _ <;> cases c1 <;> cases m1 <;> cases c2 <;> cases m2 <;> table
  case resInPlace w n => cases w <;> cases n <;> table
  case resWrapped w k => cases w <;> rcases k with _ | _ | _ | _ <;> cases c1 <;> cases m1 <;> cases c2 <;> cases m2 <;> table
  case resWrapper w k => cases w <;> rcases k with _ | _ | _ | _ <;> cases c1 <;> cases m1 <;> cases c2 <;> cases m2 <;> table
  case resRef w => cases w <;> cases m1 <;> cases m2 <;> table
  case resMoved w => cases w <;> cases m1 <;> cases m2 <;> table
  case resConverted w n => cases w <;> cases n <;> cases m1 <;> cases m2 <;> table
  case voidErrCopy => cases c2 <;> cases m2 <;> table
  case voidErrMove => cases m2 <;> table
  case voidMoved => cases m2 <;> table
  case voidTagCopy => cases c2 <;> cases m2 <;> table
  case voidTagMove => cases m2 <;> table
  case voidInPlace n => cases n <;> cases m2 <;> table
  case wrapCopy w => cases w <;> cases c1 <;> cases c2 <;> table
  case wrapMove w => cases w <;> cases m1 <;> cases m2 <;> table

/-- **C124, negation**: a payload that is moved without exceptions and whose copy constructor throws (a string, say): an
`Optional`, a `Result` and a `Result<void, E>` made from an object of this type end the program, also by the constructors that are
not declared `noexcept` for it; so does construction in place in an `Optional`. -/
theorem C124_copy_ends (te : Traits) :
    outcome ⟨false, true⟩ te (.optValue .copy) true = .terminate ∧
    outcome ⟨false, true⟩ te (.resTag .value .copy) true = .terminate ∧
    outcome ⟨false, true⟩ te (.resWrapper .value (.convert false)) true = .terminate ∧
    outcome ⟨false, true⟩ te (.optInPlace false) true = .terminate ∧
    outcome te ⟨false, true⟩ .voidTagCopy true = .terminate ∧
    outcome te ⟨false, true⟩ (.voidInPlace false) true = .terminate :=
  ⟨rfl, rfl, rfl, rfl, rfl, rfl⟩

theorem steps_ok (moves : List (Bool × Bool)) (h : ∀ m ∈ moves, m.2 = false) : steps moves = .ok () := by
  induction moves with
  | nil => rfl
  | cons m ms ih =>
    obtain ⟨n, t⟩ := m
    have ht : t = false := h (n, t) (List.mem_cons_self ..)
    subst ht
    exact ih fun m hm => h m (List.mem_cons_of_mem _ hm)

theorem steps_fails (moves : List (Bool × Bool)) (h : ∃ m ∈ moves, m.2 = true) :
    steps moves = .throws ∨ steps moves = .terminate := by
  induction moves with
  | nil => obtain ⟨m, hm, _⟩ := h; cases hm
  | cons m ms ih =>
    obtain ⟨n, t⟩ := m
    cases t with
    | true => cases n <;> simp [steps]
    | false =>
      refine ih ?_
      obtain ⟨m, hm, ht⟩ := h
      rcases List.mem_cons.mp hm with rfl | hm
      · cases ht
      · exact ⟨m, hm, ht⟩

/-- **C124**, `swap` and move assignment: they never throw; they end the program exactly when one of the moves or assignments
they make throws, whatever the type of the payload. -/
theorem C124_swap (t : Traits) (moves : List (Bool × Bool)) :
    (swap moves = .terminate ↔ ∃ m ∈ moves, m.2 = true) ∧ (swap moves = .ok () ↔ ∀ m ∈ moves, m.2 = false) ∧
    optMoveAssign t moves = swap moves ∧ resMoveAssign moves = swap moves := by
  by_cases h : ∃ m ∈ moves, m.2 = true
  · have hn : ¬∀ m ∈ moves, m.2 = false := by
      intro ha
      obtain ⟨m, hm, ht⟩ := h
      rw [ha m hm] at ht
      cases ht
    have hs : swap moves = .terminate := by
      rcases steps_fails moves h with e | e <;> rw [swap, e] <;> rfl
    simp only [optMoveAssign, resMoveAssign, hs, h, hn, reduceCtorEq, true_and]
    exact ⟨by rw [spec]; split <;> rfl, rfl⟩
  · have ha : ∀ m ∈ moves, m.2 = false := fun m hm => by
      cases ht : m.2 with
      | false => rfl
      | true => exact absurd ⟨m, hm, ht⟩ h
    have hs : swap moves = .ok () := by rw [swap, steps_ok moves ha]; rfl
    simp only [optMoveAssign, resMoveAssign, hs, true_iff, h, reduceCtorEq, true_and]
    exact ⟨ha, by rw [spec]; split <;> rfl, rfl⟩

/-- **C124**, `exchange`: it returns the old value and leaves the new one when nothing throws. When the move throws the object is
unchanged; when the assignment throws the old value is lost. It ends the program only in a move or an assignment that is
declared `noexcept` itself. -/
theorem C124_exchange {α : Type} (t : Traits) (an : Bool) (husk : α → α) (obj new : α) (tm ta : Bool) :
    (tm = false → ta = false → exchange t an husk obj new tm ta = (.ok obj, new)) ∧
    (tm = true → exchange t an husk obj new tm ta = (if t.move then .terminate else .throws, obj)) ∧
    (tm = false → ta = true → exchange t an husk obj new tm ta = (if an then .terminate else .throws, husk obj)) := by
  obtain ⟨c, m⟩ := t
  cases m <;> cases an <;> cases tm <;> cases ta <;>
    simp [exchange, spec, construct, Traits.declared]

theorem result_harmless {tv te : Traits} (w : Payload.World) {op : Op} (h : Harmless tv te op) :
    result tv te w op = .ok () ∨ result tv te w op = .throws := by
  have hc : ∀ (c : Call) (throws : Bool), (throws = true → Transparent c ∧ ¬Nothrow tv te c) →
      outcome tv te c throws = .ok () ∨ outcome tv te c throws = .throws := by
    intro c throws h
    cases throws with
    | false => exact .inl (C124_exact tv te c).1
    | true => exact .inr (((C124_transparent c).mpr (h rfl).1 tv te).2.1 (h rfl).2)
  cases op with
  | make c throws => exact hc c throws h
  | «from» c a throws =>
    rw [result]
    split
    · exact hc c throws h
    · exact .inl rfl
  | assignValue a throws =>
    cases throws with
    | false => exact .inl ((C124_exact tv te .optAssignValue).1)
    | true =>
      refine .inr ?_
      have hm : tv.move = false := h rfl
      rw [result, optAssignValue, optConstruct]
      simp [spec, construct, Traits.declared, hm]
  | swap a b moves => exact .inl ((C124_swap tv moves).2.1.mpr h)
  | _ => exact .inl rfl

theorem run_eq {tv te : Traits} (ops : List Op) : ∀ w, (∀ op ∈ ops, Harmless tv te op) →
    run tv te w ops = ((ops.map effect).foldl Payload.step w, false) := by
  induction ops with
  | nil => intro w _; rfl
  | cons op ops ih =>
    intro w h
    have h1 := ih (Payload.step w (effect op)) fun o ho => h o (List.mem_cons_of_mem _ ho)
    rw [run]
    rcases result_harmless w (h op (List.mem_cons_self ..)) with e | e <;> rw [e] <;> exact h1

/-- **C124**, programs: whatever throws, as long as the constructors that throw are not declared `noexcept` and are called through
transparent calls, and the moves of swaps do not throw, the program is not ended, and at its end every payload that was
constructed has been destroyed exactly once and was used only while alive (with the two self operations C57 excludes). -/
theorem C124_program (tv te : Traits) (ops : List Op) (h : ∀ op ∈ ops, Harmless tv te op) :
    (run tv te Payload.World.init ops).2 = false ∧
    (Lifetime.Clean (Payload.closing (run tv te Payload.World.init ops).1) ↔
      Payload.ProperFrom Payload.World.init (ops.map effect)) := by
  rw [run_eq ops _ h]
  exact ⟨rfl, Payload.C57_iff (ops.map effect)⟩

/-- **C124**, programs that are ended: the operation that ends the program is one whose payload's constructor throws, and either
that constructor or the call promised not to; or it is a swap with a move that throws. Nothing that was legal before has become
illegal. -/
theorem C124_ended (tv te : Traits) (ops : List Op) : ∀ w, Payload.Inv w → (run tv te w ops).2 = true →
    Payload.ProperFrom w (ops.map effect) →
    ∃ pre op post, ops = pre ++ op :: post ∧ (run tv te w pre).2 = false ∧
      (run tv te w ops).1 = (run tv te w pre).1 ∧ Payload.Inv (run tv te w pre).1 ∧
      match op with
      | .make c throws | .from c _ throws => throws = true ∧ (Nothrow tv te c ∨ Promises tv te c)
      | .assignValue _ throws => throws = true ∧ tv.move = true
      | .swap _ _ moves => ∃ m ∈ moves, m.2 = true
      | _ => False := by
  induction ops with
  | nil => intro w _ h; cases h
  | cons op ops ih =>
    intro w hi h hp
    have hc : ∀ (c : Call) (throws : Bool), outcome tv te c throws ≠ .ok () → outcome tv te c throws ≠ .throws →
        throws = true ∧ (Nothrow tv te c ∨ Promises tv te c) := by
      intro c throws h1 h2
      cases throws with
      | false => exact absurd (C124_exact tv te c).1 h1
      | true =>
        exact ⟨rfl, Classical.byContradiction fun hn => h2 ((C124_exact tv te c).2.2.mpr hn)⟩
    by_cases hr : result tv te w op = .ok () ∨ result tv te w op = .throws
    · have hrun : ∀ l, run tv te w (op :: l) = run tv te (Payload.step w (effect op)) l := by
        intro l
        rw [run]
        rcases hr with e | e <;> rw [e]
      rw [hrun] at h ⊢
      obtain ⟨pre, o, post, e1, e2, e3, e4, e5⟩ := ih _ (Payload.step_inv hi _ hp.1) h hp.2
      refine ⟨op :: pre, o, post, by rw [e1]; rfl, ?_, ?_, ?_, e5⟩ <;> rw [hrun] <;> assumption
    · have h1 : result tv te w op ≠ .ok () := fun e => hr (.inl e)
      have h2 : result tv te w op ≠ .throws := fun e => hr (.inr e)
      have hw : run tv te w (op :: ops) = (w, true) := by
        rw [run]
        cases hx : result tv te w op with
        | ok u => exact absurd hx h1
        | throws => exact absurd hx h2
        | terminate => rfl
        | ub => rfl
      refine ⟨[], op, ops, rfl, rfl, by rw [hw]; rfl, hi, ?_⟩
      cases op with
      | make c throws => exact hc c throws h1 h2
      | «from» c a throws =>
        rw [result] at h1 h2
        split at h1
        · rename_i hs
          rw [if_pos hs] at h2
          exact hc c throws h1 h2
        · exact absurd rfl h1
      | assignValue a throws =>
        have := hc .optAssignValue throws h1 h2
        refine ⟨this.1, ?_⟩
        rcases this.2 with e | e
        · exact e
        · exact e
      | swap a b moves =>
        refine Classical.byContradiction fun hn => h1 ((C124_swap tv moves).2.1.mpr fun m hm => ?_)
        cases ht : m.2 with
        | false => rfl
        | true => exact absurd ⟨m, hm, ht⟩ hn
      | _ => exact absurd rfl h1

/-- A program with payloads that throw. -/
example : ∀ op ∈ [Op.newNone, .make (.resTag .error .move) true, .make (.optValue .move) false, .from (.optFrom .copy) 1 true,
    .swap 0 1 [(true, false)], .assignValue 0 true, .destroy 0], Harmless ⟨false, false⟩ ⟨true, false⟩ op := by
  simp [Harmless, Transparent, Nothrow, made, Traits.declared]

example : (run ⟨false, true⟩ ⟨true, true⟩ Payload.World.init [.newNone, .make (.optValue .copy) true, .destroy 0]).2 = true := by
  decide

/-- **C124**: the alternative of the `Result` a call makes is the one it names. -/
theorem C124_alternative (c : Call) (s : Payload.World) :
    (kind c = some .value → (Payload.step s (effect (.make c false))).vars = s.vars ++ [some (.res true s.next)]) ∧
    (kind c = some .error → (Payload.step s (effect (.make c false))).vars = s.vars ++ [some (.res false s.next)]) := by
  constructor <;> intro hk <;> rw [effect, hk] <;> rfl

example : kind (.resWrapper .error .copy) = some .error := rfl

end Solace.PayloadThrow
