import Verif.Spec.Lifetime
/-
Lemmas about replaying logs.
-/
namespace Solace.Lifetime

theorem replay_append (s : State) (a b : List Event) :
    replay s (a ++ b) = (replay s a).bind fun s' => replay s' b := by
  induction a generalizing s with
  | nil => rfl
  | cons e es ih =>
    rw [List.cons_append, replay, replay]
    cases step s e with
    | none => rfl
    | some s' => exact ih s'

/-- The log is legal, uses numbers below `next` only, and leaves exactly these objects alive. -/
def Leaves (log : List Event) (next : Nat) (alive : List Nat) : Prop :=
  ∃ s, replay ⟨[], []⟩ log = some s ∧ (∀ i ∈ s.seen, i < next) ∧ s.alive.Perm alive

theorem Leaves.nil : Leaves [] 0 [] := ⟨⟨[], []⟩, rfl, by simp, .nil⟩

theorem Leaves.perm {log next a b} (h : Leaves log next a) (hp : a.Perm b) : Leaves log next b := by
  obtain ⟨s, h1, h2, h3⟩ := h
  exact ⟨s, h1, h2, h3.trans hp⟩

theorem Leaves.mono {log n m a} (h : Leaves log n a) (hm : n ≤ m) : Leaves log m a := by
  obtain ⟨s, h1, h2, h3⟩ := h
  exact ⟨s, h1, fun i hi => Nat.lt_of_lt_of_le (h2 i hi) hm, h3⟩

theorem Leaves.construct {log next a} (h : Leaves log next a) : Leaves (log ++ [.construct next]) (next + 1) (next :: a) := by
  obtain ⟨s, h1, h2, h3⟩ := h
  have hn : next ∉ s.seen := fun hc => Nat.lt_irrefl _ (h2 _ hc)
  refine ⟨⟨next :: s.seen, next :: s.alive⟩, ?_, ?_, h3.cons _⟩
  · rw [replay_append, h1, Option.bind_some, replay, step, if_neg hn]
    rfl
  · intro i hi
    rcases List.mem_cons.mp hi with rfl | hi
    · omega
    · have := h2 i hi; omega

theorem Leaves.destroy {log next a} {id : Nat} (h : Leaves log next (id :: a)) : Leaves (log ++ [.destroy id]) next a := by
  obtain ⟨s, h1, h2, h3⟩ := h
  have hm : id ∈ s.alive := h3.mem_iff.mpr (List.mem_cons_self ..)
  refine ⟨⟨s.seen, s.alive.erase id⟩, ?_, h2, ?_⟩
  · rw [replay_append, h1, Option.bind_some, replay, step, if_pos hm]
    rfl
  · have := h3.erase id
    rwa [List.erase_cons_head] at this

theorem Leaves.use {log next a} {id : Nat} (h : Leaves log next a) (hm : id ∈ a) : Leaves (log ++ [.use id]) next a := by
  obtain ⟨s, h1, h2, h3⟩ := h
  refine ⟨s, ?_, h2, h3⟩
  rw [replay_append, h1, Option.bind_some, replay, step, if_pos (h3.mem_iff.mpr hm)]
  rfl

theorem Leaves.destroyAll {next} (ids : List Nat) : ∀ {log a}, Leaves log next (ids ++ a) →
    Leaves (log ++ ids.map .destroy) next a := by
  induction ids with
  | nil => intro log a h; simpa using h
  | cons i is ih =>
    intro log a h
    have := ih (h.destroy)
    simpa using this

theorem Leaves.constructAll {log next a} (h : Leaves log next a) (k : Nat) :
    Leaves (log ++ (List.range k).map fun i => .construct (next + i)) (next + k) ((List.range k).map (next + ·) ++ a) := by
  induction k with
  | zero => simpa using h
  | succ k ih =>
    have := ih.construct
    rw [List.append_assoc] at this
    rw [List.range_succ, List.map_append, List.map_append, List.map_singleton, List.map_singleton]
    refine Leaves.perm this ?_
    rw [List.append_assoc]
    exact (List.perm_middle).symm

theorem Leaves.clean {log next} (h : Leaves log next []) : Clean log := by
  obtain ⟨s, h1, -, h3⟩ := h
  rw [Clean, aliveAfter, h1, Option.map_some, h3.eq_nil]

/-- The meaning of `Clean` in counts: an object is constructed at most once, and destroyed as often as it is constructed. -/
theorem replay_counts (id : Nat) (log : List Event) : ∀ s s' : State, replay s log = some s' → s.alive.Nodup →
    (∀ i ∈ s.alive, i ∈ s.seen) →
    s'.alive.Nodup ∧ (∀ i ∈ s'.alive, i ∈ s'.seen) ∧
    log.count (.destroy id) + s'.alive.count id = log.count (.construct id) + s.alive.count id ∧
    (id ∈ s.seen → log.count (.construct id) = 0) ∧ log.count (.construct id) ≤ 1 := by
  induction log with
  | nil =>
    rintro s s' h hn hs
    have : s = s' := by simpa [replay] using h
    subst this
    simp [hn]
    exact hs
  | cons e es ih =>
    intro s s' h hn hs
    rw [replay] at h
    cases hstep : step s e with
    | none => rw [hstep] at h; cases h
    | some s1 =>
      rw [hstep] at h
      cases e with
      | construct i =>
        rw [step] at hstep
        split at hstep
        · cases hstep
        · rename_i hi
          cases hstep
          have hi' : i ∉ s.alive := fun hc => hi (hs i hc)
          obtain ⟨g1, g2, g3, g4, g5⟩ := ih _ s' h (List.nodup_cons.mpr ⟨hi', hn⟩) (by
            intro j hj
            rcases List.mem_cons.mp hj with rfl | hj
            · simp
            · exact List.mem_cons_of_mem _ (hs j hj))
          refine ⟨g1, g2, ?_, ?_, ?_⟩
          · by_cases hid : i = id
            · subst hid
              simp only [List.count_cons] at g3 ⊢
              simp at g3 ⊢
              omega
            · simp only [List.count_cons] at g3 ⊢
              simp [hid] at g3 ⊢
              omega
          · intro hid
            have hne : i ≠ id := by rintro rfl; exact hi hid
            have := g4 (List.mem_cons_of_mem _ hid)
            simp [this, hne]
          · by_cases hid : i = id
            · subst hid
              have := g4 (List.mem_cons_self ..)
              simp [this]
            · simp [hid, g5]
      | destroy i =>
        rw [step] at hstep
        split at hstep
        · rename_i hi
          cases hstep
          obtain ⟨g1, g2, g3, g4, g5⟩ := ih _ s' h (hn.erase i) (fun j hj => hs j (List.mem_of_mem_erase hj))
          refine ⟨g1, g2, ?_, ?_, ?_⟩
          · by_cases hid : i = id
            · subst hid
              have h1 : 0 < s.alive.count i := List.count_pos_iff.mpr hi
              simp only [List.count_cons] at g3 ⊢
              rw [List.count_erase_self] at g3
              simp at g3 ⊢
              omega
            · simp only [List.count_cons] at g3 ⊢
              rw [List.count_erase_of_ne (by exact fun hh => hid hh.symm)] at g3
              simp [hid] at g3 ⊢
              omega
          · intro hid
            simpa [List.count_cons] using g4 hid
          · simpa [List.count_cons] using g5
        · cases hstep
      | use i =>
        rw [step] at hstep
        split at hstep
        · cases hstep
          simpa [List.count_cons] using ih _ s' h hn hs
        · cases hstep
      | destroyRaw => simp [step] at hstep

/-- In a clean log every object that is constructed is destroyed exactly once. -/
theorem Clean.counts {log : List Event} (h : Clean log) (id : Nat) :
    log.count (.construct id) ≤ 1 ∧ log.count (.destroy id) = log.count (.construct id) := by
  rw [Clean, aliveAfter] at h
  cases hr : replay ⟨[], []⟩ log with
  | none => rw [hr] at h; cases h
  | some s =>
    rw [hr, Option.map_some, Option.some.injEq] at h
    obtain ⟨-, -, h3, -, h5⟩ := replay_counts id log _ s hr .nil (by simp)
    rw [h] at h3
    simp at h3
    exact ⟨h5, h3⟩

/-- In a clean log an object is used only after its construction and before its destruction. -/
theorem Clean.use {pre post : List Event} {id : Nat} (h : Clean (pre ++ .use id :: post)) :
    .construct id ∈ pre ∧ .destroy id ∉ pre := by
  rw [Clean, aliveAfter, replay_append] at h
  cases hr : replay ⟨[], []⟩ pre with
  | none => rw [hr] at h; simp at h
  | some s =>
    rw [hr, Option.bind_some, replay] at h
    obtain ⟨h1, -, h3, -, h5⟩ := replay_counts id pre _ s hr .nil (by simp)
    by_cases hm : id ∈ s.alive
    · have hp : 0 < s.alive.count id := List.count_pos_iff.mpr hm
      simp only [List.count_nil, Nat.add_zero] at h3
      refine ⟨List.count_pos_iff.mp (by omega), fun hd => ?_⟩
      have := List.count_pos_iff.mpr hd
      omega
    · rw [step, if_neg hm] at h
      simp at h

end Solace.Lifetime
