import Verif.Lemmas.SharedMemory
/-
C114: programs working on parts of one memory block through different views.
-/
namespace Solace.Shared
open ByteWriter

/-- The actions of one view, in order. -/
def ofView (i : Nat) (program : List (Nat × Act)) : List Act := (program.filter fun p => p.1 == i).map (·.2)

/-- What one view got to know, in order. -/
def seenBy (i : Nat) (seen : List (Nat × Seen)) : List Seen := (seen.filter fun p => p.1 == i).map (·.2)

/-- Offsets and object sizes that the machine has. -/
def InMachine (program : List (Nat × Act)) : Prop :=
  ∀ i size offset, (i, Act.look size offset) ∈ program → offset < 2 ^ 64 ∧ size ≤ 2 ^ 63

/-- The views are inside of the block, and no two of them touch. -/
structure Parts (ws : List Window) (m : List Byte) : Prop where
  inside : ∀ w ∈ ws, w.In m
  apart : ∀ (i j : Nat) (a b : Window), i ≠ j → ws[i]? = some a → ws[j]? = some b → Apart a b

theorem Parts.act {ws : List Window} {m : List Byte} (h : Parts ws m) (hm : m.length < 2 ^ 63) (i : Nat) (w : Window) (hi : ws[i]? = some w)
    (a : Act) (hlook : ∀ size offset, a = .look size offset → offset < 2 ^ 64 ∧ size ≤ 2 ^ 63) :
    (Shared.step w m a).1.length = m.length ∧ Parts ws (Shared.step w m a).1 ∧
    w.bytes (Shared.step w m a).1 = (Shared.step ⟨0, w.size⟩ (w.bytes m) a).1 ∧
    (∀ j u, j ≠ i → ws[j]? = some u → u.bytes (Shared.step w m a).1 = u.bytes m) ∧
    ∀ k, (k < w.off ∨ w.off + w.size ≤ k) → (Shared.step w m a).1[k]? = m[k]? := by
  have hw := h.inside w (List.mem_of_getElem? hi)
  obtain ⟨e, hl⟩ := step_local w m hw hm a hlook
  have hw' : w.off + w.size ≤ m.length := hw
  have hlen : (Shared.step w m a).1.length = m.length := by rw [e]; exact overwrite_length _ _ _ (by omega)
  refine ⟨hlen, ⟨fun u hu => ?_, h.apart⟩, ?_, fun j u hj hu => ?_, fun k hk => ?_⟩
  · have := h.inside u hu; unfold Window.In at this ⊢; rw [hlen]; exact this
  · rw [e]; exact bytes_overwrite w m _ hw hl
  · rw [e]; exact bytes_apart w u m _ hw hl (h.apart i j w u (fun q => hj q.symm) hi hu)
  · rw [e]; exact overwrite_getElem? _ _ _ (by omega) k (by omega)

/-- **C114** (full): a program works on parts of a memory block through views that do not touch, in any order. Each part ends as if its
actions had been done alone on a block of their own, and they get to know the same; bytes outside of all parts are not changed. -/
theorem C114_independent (ws : List Window) (m : List Byte) (h : Parts ws m) (hm : m.length < 2 ^ 63) (program : List (Nat × Act))
    (hp : InMachine program) :
    (run ws program m).1.length = m.length ∧
    (∀ i w, ws[i]? = some w →
      (w.bytes (run ws program m).1, seenBy i (run ws program m).2) = alone w.size (ofView i program) (w.bytes m)) ∧
    ∀ k, (∀ w ∈ ws, k < w.off ∨ w.off + w.size ≤ k) → (run ws program m).1[k]? = m[k]? := by
  induction program generalizing m with
  | nil => exact ⟨rfl, fun _ _ _ => rfl, fun _ _ => rfl⟩
  | cons p rest ih =>
    obtain ⟨i, a⟩ := p
    have hp' : InMachine rest := fun i size offset hx => hp i size offset (List.mem_cons_of_mem _ hx)
    cases hi : ws[i]? with
    | none =>
      obtain ⟨h1, h2, h3⟩ := ih m h hm hp'
      have e : run ws ((i, a) :: rest) m = run ws rest m := by rw [run]; simp only [hi]
      rw [e]
      refine ⟨h1, fun j w hj => ?_, h3⟩
      have hne : (i == j) = false := by
        rw [beq_eq_false_iff_ne]; intro q; rw [q, hj] at hi; exact absurd hi (by simp)
      rw [h2 j w hj, ofView, ofView, List.filter_cons_of_neg (by simp only [hne]; exact Bool.false_ne_true)]
    | some w =>
      have hlook : ∀ size offset, a = .look size offset → offset < 2 ^ 64 ∧ size ≤ 2 ^ 63 := by
        intro size offset q; subst q; exact hp i size offset (List.mem_cons_self ..)
      obtain ⟨s1, s2, s3, s4, s5⟩ := h.act hm i w hi a hlook
      obtain ⟨h1, h2, h3⟩ := ih (step w m a).1 s2 (by rw [s1]; exact hm) hp'
      have hstep := (step_local w m (h.inside w (List.mem_of_getElem? hi)) hm a hlook).1
      have e : run ws ((i, a) :: rest) m = ((run ws rest (step w m a).1).1, (i, (step w m a).2) :: (run ws rest (step w m a).1).2) := by
        rw [run]; simp only [hi]
      rw [e]
      refine ⟨by rw [h1, s1], fun j u hj => ?_, fun k hk => ?_⟩
      · by_cases hij : j = i
        · subst hij
          rw [hi] at hj; cases hj
          have := h2 j w hi
          rw [s3] at this
          have t1 := congrArg Prod.fst this
          have t2 := congrArg Prod.snd this
          simp only [ofView, seenBy, List.filter_cons, beq_self_eq_true, if_true, List.map_cons, alone, Prod.mk.injEq]
          refine ⟨t1, ?_⟩
          rw [List.cons.injEq]
          exact ⟨by rw [hstep], t2⟩
        · have hne : (i == j) = false := by rw [beq_eq_false_iff_ne]; exact fun q => hij q.symm
          have := h2 j u hj
          rw [s4 j u hij hj] at this
          simp only [ofView, seenBy, List.filter_cons, hne, Bool.false_eq_true, if_false]
          exact this
      · rw [h3 k hk, s5 k (hk w (List.mem_of_getElem? hi))]

/-- **C114** (full): the order in which different parts are worked on does not matter: programs with the same actions for each view, in the
same order for each, leave the same memory and get to know the same. -/
theorem C114_order (ws : List Window) (m : List Byte) (h : Parts ws m) (hm : m.length < 2 ^ 63) (p q : List (Nat × Act))
    (hp : InMachine p) (hq : InMachine q) (same : ∀ i, ofView i p = ofView i q) :
    (run ws p m).1 = (run ws q m).1 ∧ ∀ i w, ws[i]? = some w → seenBy i (run ws p m).2 = seenBy i (run ws q m).2 := by
  obtain ⟨lp, bp, op⟩ := C114_independent ws m h hm p hp
  obtain ⟨lq, bq, oq⟩ := C114_independent ws m h hm q hq
  have hb : ∀ i w, ws[i]? = some w → (w.bytes (run ws p m).1, seenBy i (run ws p m).2) = (w.bytes (run ws q m).1, seenBy i (run ws q m).2) := by
    intro i w hi; rw [bp i w hi, bq i w hi, same i]
  refine ⟨List.ext_getElem? fun k => ?_, fun i w hi => congrArg Prod.snd (hb i w hi)⟩
  by_cases hk : ∀ w ∈ ws, k < w.off ∨ w.off + w.size ≤ k
  · rw [op k hk, oq k hk]
  · have ⟨w, hw, hin⟩ : ∃ w ∈ ws, ¬ (k < w.off ∨ w.off + w.size ≤ k) := by
      apply Classical.byContradiction
      intro hno
      exact hk fun w hw => Classical.byContradiction fun hc => hno ⟨w, hw, hc⟩
    obtain ⟨i, hi⟩ := List.getElem?_of_mem hw
    have e := congrArg Prod.fst (hb i w hi)
    simp only at e
    have e2 := congrArg (fun l => l[k - w.off]?) e
    simp only [Window.bytes] at e2
    rw [List.getElem?_take_of_lt (by omega), List.getElem?_take_of_lt (by omega), List.getElem?_drop, List.getElem?_drop] at e2
    have ek : w.off + (k - w.off) = k := by omega
    rw [ek] at e2
    exact e2

/-- **C114** (full): cutting a view at increasing places gives parts that do not touch and lie inside of it; together they are the view. -/
theorem C114_cut (w : Window) (m : List Byte) (h : w.In m) (k : Nat) (hk : k ≤ w.size) :
    Parts [w.slice 0 k, w.slice k w.size] m ∧
    (w.slice 0 k).bytes m ++ (w.slice k w.size).bytes m = w.bytes m := by
  have key : ∀ f t, w.slice f t = if f = t then ⟨w.off, 0⟩ else ⟨w.off + min f w.size, min (max t (min f w.size)) w.size - min f w.size⟩ := by
    intro f t; unfold Window.slice MutableMemoryView.slice; split <;> rfl
  unfold Window.In at h
  have ha : Apart (w.slice 0 k) (w.slice k w.size) := by
    rw [key, key]; unfold Apart; split <;> split <;> simp only <;> omega
  refine ⟨⟨?_, ?_⟩, ?_⟩
  · intro u hu
    simp only [List.mem_cons, List.not_mem_nil, or_false] at hu
    rcases hu with rfl | rfl <;> rw [key] <;> unfold Window.In <;> split <;> simp only <;> omega
  · intro i j a b hij hi hj
    match i, j with
    | 0, 0 => exact absurd rfl hij
    | 0, 1 => simp at hi hj; subst hi hj; exact ha
    | 1, 0 => simp at hi hj; subst hi hj; exact ha.symm
    | 1, 1 => exact absurd rfl hij
    | i + 2, _ => simp at hi
    | 0, j + 2 => simp at hj
    | 1, j + 2 => simp at hj
  · rw [key, key]
    by_cases h0 : 0 = k
    · subst h0
      simp only [if_true]
      by_cases h1 : 0 = w.size
      · simp [Window.bytes, ← h1]
      · simp [Window.bytes, h1]
    · by_cases h1 : k = w.size
      · subst h1
        simp [Window.bytes, h0]
      · simp only [if_neg h0, if_neg h1, Window.bytes]
        have e1 : min (max k (min 0 w.size)) w.size - min 0 w.size = k := by omega
        have e2 : min (max w.size (min k w.size)) w.size - min k w.size = w.size - k := by omega
        have e3 : min k w.size = k := by omega
        rw [e1, e2, e3]
        simp only [Nat.zero_min, Nat.add_zero]
        rw [← List.drop_drop, ← List.take_add]
        congr 1; omega

/-- **C114**, why the views must not touch: with two views that share a byte the order matters. -/
theorem C114_overlap : ∃ (ws : List Window) (m : List Byte) (p q : List (Nat × Act)),
    (∀ w ∈ ws, w.In m) ∧ (∀ i, ofView i p = ofView i q) ∧ (run ws p m).1 ≠ (run ws q m).1 := by
  refine ⟨[⟨0, 2⟩, ⟨1, 2⟩], [0, 0, 0], [(0, .fill 1 0 2), (1, .fill 2 0 2)], [(1, .fill 2 0 2), (0, .fill 1 0 2)], ?_, ?_, by decide⟩
  · intro w hw; simp at hw; rcases hw with rfl | rfl <;> simp [Window.In]
  · intro i
    match i with
    | 0 => rfl
    | 1 => rfl
    | i + 2 => simp [ofView]

example : Parts [⟨0, 4⟩, ⟨4, 4⟩, ⟨9, 2⟩] (List.replicate 12 0#8) ∧
    (run [⟨0, 4⟩, ⟨4, 4⟩, ⟨9, 2⟩] [(0, .fill 1 1 3), (1, .put 0 2 [7, 8]), (0, .copy 2 4 1 3), (2, .look 2 0), (1, .put 0 2 [1, 2, 3])]
      (List.replicate 12 0#8)).1 = [0, 1, 1, 1, 7, 8, 0, 0, 0, 0, 0, 0] := by
  refine ⟨⟨fun w hw => ?_, fun i j a b hij hi hj => ?_⟩, by decide⟩
  · simp at hw; rcases hw with rfl | rfl | rfl <;> simp [Window.In]
  · match i, j with
    | 0, 0 => exact absurd rfl hij
    | 1, 1 => exact absurd rfl hij
    | 2, 2 => exact absurd rfl hij
    | 0, 1 => simp at hi hj; subst hi hj; simp [Apart]
    | 1, 0 => simp at hi hj; subst hi hj; simp [Apart]
    | 0, 2 => simp at hi hj; subst hi hj; simp [Apart]
    | 2, 0 => simp at hi hj; subst hi hj; simp [Apart]
    | 1, 2 => simp at hi hj; subst hi hj; simp [Apart]
    | 2, 1 => simp at hi hj; subst hi hj; simp [Apart]
    | i + 3, _ => simp at hi
    | 0, j + 3 => simp at hj
    | 1, j + 3 => simp at hj
    | 2, j + 3 => simp at hj

/-- What the owner of a view gets to know of its actions: copies fail and constructors raise exactly if the part of the view they
are given is too small. -/
theorem C114_seen (w : Window) (m : List Byte) (f t f' t' : Nat) (source : List Byte) (value : Byte) :
    (step w m (.fill value f t)).2 = .nothing ∧
    (step w m (.put f t source)).2 = .done (if source.length ≤ (w.slice f t).size then .ok () else .error .dom) ∧
    (step w m (.copy f t f' t')).2 = .done (if (w.slice f' t').size ≤ (w.slice f t).size then .ok () else .error .dom) ∧
    (step w m (.construct f t source)).2 = .made (if source.length ≤ (w.slice f t).size then .ok () else .throws) := by
  refine ⟨rfl, ?_, ?_, ?_⟩
  · rw [step]
    dsimp only
    rw [put]
    by_cases h : source.length ≤ (w.slice f t).size
    · rw [if_neg (by omega), if_pos h]
    · rw [if_pos (by omega), if_neg h]
  · rw [step]
    dsimp only
    rw [Window.write]
    by_cases h : (w.slice f' t').size ≤ (w.slice f t).size
    · rw [if_neg (by omega), if_pos h]
    · rw [if_pos (by omega), if_neg h]
  · rw [step, Window.construct]
    by_cases h : source.length ≤ (w.slice f t).size
    · rw [if_pos h, if_pos h]
    · rw [if_neg h, if_neg h]

example : (step ⟨0, 4⟩ [1, 2, 3, 4] (.construct 0 1 [5, 6])).2 = .made .throws := (C114_seen _ _ 0 1 0 0 [5, 6] 0).2.2.2

end Solace.Shared
