import Verif.Props.C57_Payload
/-! C57: exactly the programs in which every payload is destroyed once and used only while it lives. -/
namespace Solace.Payload
open Lifetime

theorem create_grows (w : World) (obj : Nat → Obj) (throws : Bool) : ∃ d, (create w obj throws).log = w.log ++ d := by
  rw [create]
  split
  · exact ⟨[], (List.append_nil _).symm⟩
  · exact ⟨_, rfl⟩

theorem assign_grows (w : World) (a : Nat) (p q : Option Nat) (throws : Bool) :
    ∃ d, (assign w a p q throws).log = w.log ++ d := by
  rw [assign]
  split
  · exact ⟨_, List.append_assoc ..⟩
  · exact ⟨_, by simp only [List.append_assoc]; rfl⟩

/-- Operations add to the log. -/
theorem step_grows (w : World) (op : Op) : ∃ d, (step w op).log = w.log ++ d := by
  have same : ∃ d, w.log = w.log ++ d := ⟨[], (List.append_nil _).symm⟩
  cases op with
  | newNone => exact same
  | newSome throws => exact create_grows _ _ _
  | newResult ok throws => exact create_grows _ _ _
  | «from» a throws =>
    rw [step, copyFrom]
    split
    · exact same
    · exact same
    · obtain ⟨d, hd⟩ := create_grows ⟨w.vars, w.log ++ [.use _], w.next⟩ (fun n => .opt (some n)) throws
      exact ⟨_, hd.trans (List.append_assoc ..)⟩
    · rename_i ok p _
      obtain ⟨d, hd⟩ := create_grows ⟨w.vars, w.log ++ [.use p], w.next⟩ (fun n => .res ok n) throws
      exact ⟨_, hd.trans (List.append_assoc ..)⟩
  | assignNone a =>
    rw [step]
    split
    · exact ⟨_, rfl⟩
    · exact same
  | assignValue a throws =>
    rw [step]
    split
    · exact assign_grows _ _ _ _ _
    · exact same
  | assignPayload a b throws =>
    rw [step]
    split
    · exact assign_grows _ _ _ _ _
    · exact same
  | swap a b =>
    rw [step]
    split
    · rename_i p q _ _
      cases p <;> cases q
      · exact same
      · exact ⟨_, rfl⟩
      · exact ⟨_, rfl⟩
      · exact ⟨_, rfl⟩
    · rw [swapRes]
      exact ⟨_, by simp only [List.append_assoc]; rfl⟩
    · exact same
  | access a =>
    rw [step]
    split
    · exact ⟨_, rfl⟩
    · exact same
  | destroy a =>
    rw [step]
    split
    · exact ⟨_, rfl⟩
    · exact same

theorem foldl_grows (ops : List Op) : ∀ w : World, ∃ d, (ops.foldl step w).log = w.log ++ d := by
  induction ops with
  | nil => intro w; exact ⟨[], (List.append_nil _).symm⟩
  | cons op ops ih =>
    intro w
    obtain ⟨d1, h1⟩ := step_grows w op
    obtain ⟨d2, h2⟩ := ih (step w op)
    exact ⟨d1 ++ d2, by rw [List.foldl_cons, h2, h1, List.append_assoc]⟩

/-- **C57, negation**, whatever comes before: `a = mv(*a)` uses the payload it has destroyed. -/
theorem C57_own_payload_always (w : World) (h : Inv w) (a p : Nat) (throws : Bool) (ha : w.get a = some (.opt (some p))) :
    replay ⟨[], []⟩ (step w (.assignPayload a a throws)).log = none := by
  obtain ⟨s, h1, h2, h3⟩ := h
  have hm : p ∈ s.alive := h3.mem_iff.mpr ((held_get ha).mem_iff.mpr (by simp [heldBy, payload]))
  have hnd : s.alive.Nodup := (replay_counts 0 w.log _ s h1 .nil (by simp)).1
  have hg : p ∉ s.alive.erase p := fun hc => ((List.Nodup.mem_erase_iff hnd).mp hc).1 rfl
  rw [step]
  simp only [ha]
  rw [assign]
  cases throws with
  | true =>
    simp only [if_true, List.append_assoc, destroyEvents, useEvents]
    rw [replay_append, h1, Option.bind_some]
    simp [replay, Lifetime.step, hm, hg]
  | false =>
    simp only [Bool.false_eq_true, if_false, List.append_assoc, destroyEvents, useEvents]
    rw [replay_append, h1, Option.bind_some]
    simp [replay, Lifetime.step, hm, hg]

theorem improper {w : World} (h : Inv w) (op : Op) (hn : ¬Proper w op) : replay ⟨[], []⟩ (step w op).log = none := by
  cases op with
  | swap a b =>
    have hab : a = b := Classical.byContradiction fun e => hn fun e' => absurd e' e
    subst hab
    cases ha : w.get a with
    | none => exact absurd (fun _ ok p => by rw [ha]; exact fun e => by cases e) hn
    | some o =>
      cases o with
      | opt p => exact absurd (fun _ ok p => by rw [ha]; exact fun e => by cases e) hn
      | res ok p => exact C57_self_swap_always w h a ok p ha
  | assignPayload a b t =>
    have hab : a = b := Classical.byContradiction fun e => hn fun e' => absurd e' e
    subst hab
    cases ha : w.get a with
    | none => exact absurd (fun _ p => by rw [ha]; exact fun e => by cases e) hn
    | some o =>
      cases o with
      | res ok p => exact absurd (fun _ p => by rw [ha]; exact fun e => by cases e) hn
      | opt p =>
        cases p with
        | none => exact absurd (fun _ p => by rw [ha]; exact fun e => by cases e) hn
        | some p => exact C57_own_payload_always w h a p t ha
  | newNone => exact absurd trivial hn
  | newSome => exact absurd trivial hn
  | newResult => exact absurd trivial hn
  | «from» => exact absurd trivial hn
  | assignNone => exact absurd trivial hn
  | assignValue => exact absurd trivial hn
  | access => exact absurd trivial hn
  | destroy => exact absurd trivial hn

theorem properFrom_of_legal (ops : List Op) : ∀ w : World, Inv w → replay ⟨[], []⟩ (ops.foldl step w).log ≠ none →
    ProperFrom w ops := by
  induction ops with
  | nil => intro w _ _; trivial
  | cons op ops ih =>
    intro w h hl
    have hp : Proper w op := Classical.byContradiction fun hn => hl (by
      obtain ⟨d, hd⟩ := foldl_grows ops (step w op)
      rw [List.foldl_cons, hd, replay_append, improper h op hn, Option.bind_none])
    exact ⟨hp, ih _ (step_inv h op hp) hl⟩

/-- **C57**, exactly when it holds: every payload of a program is destroyed exactly once and used only while it is alive if and
only if nowhere in the program a `Result` is swapped with or move-assigned to itself and nowhere an `Optional` is assigned its
own payload. -/
theorem C57_iff (ops : List Op) : Clean (program ops) ↔ ProperFrom World.init ops := by
  refine ⟨fun hc => properFrom_of_legal ops _ Leaves.nil fun hn => ?_, C57_clean_partial ops⟩
  rw [Clean, aliveAfter, program, closing, run, replay_append, hn] at hc
  cases hc

/-- A program of both kinds. -/
example : ProperFrom World.init [.newNone, .assignPayload 0 0 false, .newSome false, .swap 0 1] ∧
    ¬ProperFrom World.init [.newSome true, .newResult false false, .access 0, .swap 0 0, .newNone] := by
  constructor
  · simp [ProperFrom, Proper, World.get, World.init, step]
  · intro h
    exact absurd (h.2.2.2.1 rfl false 0) (by decide)

end Solace.Payload
