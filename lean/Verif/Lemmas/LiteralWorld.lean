import Verif.Spec.LiteralWorld

/-
Lemmas for C127: what every statement keeps.
-/
namespace Solace.Literal

/-- Arrays stay where they are, with their storage and length; literals stay as they are. -/
def Ext (w w' : World) : Prop :=
  ∀ (i : Nat) (a : Arr), w.arrs[i]? = some a →
    ∃ a', w'.arrs[i]? = some a' ∧ a'.storage = a.storage ∧ a'.bytes.length = a.bytes.length ∧ (a.storage = .literal → a' = a)

/-- The view is inside its array. -/
def Inside (w : World) (v : View) : Prop :=
  (v.data = none → v.size = 0) ∧
  ∀ i off, v.data = some (i, off) → ∃ a, w.arrs[i]? = some a ∧ off + v.size ≤ a.bytes.length

/-- What holds in every program. -/
structure Inv (w : World) : Prop where
  live : ∀ (i : Nat) (a : Arr), w.arrs[i]? = some a → a.storage ≠ .automatic → a.live = true
  vars : ∀ u ∈ w.vars, Inside w u.view
  kept : ∀ v ∈ w.kept, Inside w v

theorem Ext.refl (w : World) : Ext w w := fun _ a h => ⟨a, h, rfl, rfl, fun _ => rfl⟩

theorem Ext.trans {a b c : World} (h : Ext a b) (h' : Ext b c) : Ext a c := by
  intro i x hx
  obtain ⟨y, hy, s1, l1, k1⟩ := h i x hx
  obtain ⟨z, hz, s2, l2, k2⟩ := h' i y hy
  refine ⟨z, hz, s2.trans s1, l2.trans l1, fun hl => ?_⟩
  have := k1 hl
  subst this
  exact k2 hl

theorem ext_of_arrs {w w' : World} (h : w'.arrs = w.arrs) : Ext w w' := by
  intro i a ha
  exact ⟨a, by rw [h]; exact ha, rfl, rfl, fun _ => rfl⟩

theorem ext_set {w w' : World} {i : Nat} {a b : Arr} (ha : w.arrs[i]? = some a) (h : w'.arrs = w.arrs.set i b)
    (hs : b.storage = a.storage) (hl : b.bytes.length = a.bytes.length) (hn : a.storage ≠ .literal) : Ext w w' := by
  intro j x hx
  rw [h]
  by_cases hj : i = j
  · subst hj
    have hxa : x = a := by rw [ha] at hx; exact (Option.some.inj hx).symm
    subst hxa
    have hlt : i < w.arrs.length := (List.getElem?_eq_some_iff.1 ha).1
    exact ⟨b, by simp [hlt], hs, hl, fun h => absurd h hn⟩
  · exact ⟨x, by rw [List.getElem?_set_ne hj]; exact hx, rfl, rfl, fun _ => rfl⟩

theorem step_ext (w : World) (op : Op) : Ext w (step w op) := by
  cases op with
  | array bytes s =>
    intro i a ha
    have hlt : i < w.arrs.length := (List.getElem?_eq_some_iff.1 ha).1
    exact ⟨a, by simp only [step]; rw [List.getElem?_append_left hlt]; exact ha, rfl, rfl, fun _ => rfl⟩
  | leave i =>
    simp only [step]
    cases h : w.arrs[i]? with
    | none => exact Ext.refl w
    | some a =>
      dsimp only
      split
      · rename_i hs
        exact ext_set h rfl rfl rfl (by rw [hs]; decide)
      · exact Ext.refl w
  | write i j b =>
    simp only [step]
    cases h : w.arrs[i]? with
    | none => exact Ext.refl w
    | some a =>
      dsimp only
      split
      · rename_i hs
        exact ext_set h rfl rfl (by simp) hs.1
      · exact Ext.refl w
  | default l => exact ext_of_arrs rfl
  | literal i => simp only [step]; split <;> (try split) <;> exact ext_of_arrs rfl
  | view i off n => simp only [step]; split <;> (try split) <;> exact ext_of_arrs rfl
  | sub x a b => simp only [step]; split <;> exact ext_of_arrs rfl
  | assign x y => simp only [step]; split <;> (try split) <;> exact ext_of_arrs rfl
  | swap x y => simp only [step]; split <;> exact ext_of_arrs rfl
  | keep x => simp only [step]; split <;> (try split) <;> exact ext_of_arrs rfl

theorem run_ext (w : World) (ops : List Op) : Ext w (run w ops) := by
  induction ops generalizing w with
  | nil => exact Ext.refl w
  | cons op rest ih => exact (step_ext w op).trans (ih (step w op))

theorem Inside.ext {w w' : World} {v : View} (h : Inside w v) (he : Ext w w') : Inside w' v := by
  refine ⟨h.1, fun i off hd => ?_⟩
  obtain ⟨a, ha, hl⟩ := h.2 i off hd
  obtain ⟨a', ha', _, hl', _⟩ := he i a ha
  exact ⟨a', ha', by omega⟩

theorem Lasting.ext {w w' : World} {v : View} (h : Lasting w v) (he : Ext w w') : Lasting w' v := by
  intro i off hd
  obtain ⟨a, ha, hs⟩ := h i off hd
  obtain ⟨a', ha', hs', _, _⟩ := he i a ha
  exact ⟨a', ha', hs'.trans hs⟩

/-- Whether a view of an existing array lasts is settled. -/
theorem lasting_iff {w w' : World} {v : View} (h : Inside w v) (he : Ext w w') : Lasting w' v ↔ Lasting w v := by
  refine ⟨fun hl i off hd => ?_, fun hl => hl.ext he⟩
  obtain ⟨a, ha, _⟩ := h.2 i off hd
  obtain ⟨a', ha', hs', _, _⟩ := he i a ha
  obtain ⟨b, hb, hs⟩ := hl i off hd
  rw [ha'] at hb
  cases hb
  exact ⟨a, ha, hs'.symm.trans hs⟩

theorem inside_substring {w : World} {v : View} (h : Inside w v) (a b : Nat) : Inside w (substring v a b) := by
  obtain ⟨h1, h2⟩ := h
  cases hd : v.data with
  | none =>
    have h0 := h1 hd
    refine ⟨fun _ => ?_, fun i off he => by simp [substring, hd] at he⟩
    simp only [substring, h0]
    omega
  | some p =>
    obtain ⟨i, off⟩ := p
    obtain ⟨x, hx, hl⟩ := h2 i off hd
    refine ⟨fun he => by simp [substring, hd] at he, fun j o he => ?_⟩
    simp only [substring, hd, Option.map_some, Option.some.injEq, Prod.mk.injEq] at he
    obtain ⟨rfl, rfl⟩ := he
    refine ⟨x, hx, ?_⟩
    simp only [substring]
    omega

theorem mem_set {α} {l : List α} {i : Nat} {a x : α} (h : x ∈ l.set i a) : x ∈ l ∨ x = a := List.mem_or_eq_of_mem_set h

theorem mem_of_get {α} {l : List α} {i : Nat} {x : α} (h : l[i]? = some x) : x ∈ l := List.mem_of_getElem? h

theorem step_inv {w : World} (h : Inv w) (op : Op) : Inv (step w op) := by
  have he := step_ext w op
  have hv : ∀ u ∈ w.vars, Inside (step w op) u.view := fun u hu => (h.vars u hu).ext he
  have hk : ∀ v ∈ w.kept, Inside (step w op) v := fun v hx => (h.kept v hx).ext he
  cases op with
  | array bytes s =>
    refine ⟨fun i a ha hs => ?_, hv, hk⟩
    simp only [step] at ha
    rw [List.getElem?_append] at ha
    split at ha
    · exact h.live i a ha hs
    · have := List.mem_singleton.1 (mem_of_get ha)
      rw [this]
  | leave i =>
    refine ⟨?_, ?_, ?_⟩
    · intro j a ha hs
      simp only [step] at ha
      cases hi : w.arrs[i]? with
      | none => rw [hi] at ha; exact h.live j a ha hs
      | some x =>
        rw [hi] at ha
        dsimp only at ha
        split at ha
        · rename_i hx
          rcases mem_set (mem_of_get ha) with hm | rfl
          · obtain ⟨k, hk'⟩ := List.getElem?_of_mem hm
            exact h.live k a hk' hs
          · exact absurd hx hs
        · exact h.live j a ha hs
    · have : (step w (.leave i)).vars = w.vars := by simp only [step]; split <;> (try split) <;> rfl
      rw [this]; exact hv
    · have : (step w (.leave i)).kept = w.kept := by simp only [step]; split <;> (try split) <;> rfl
      rw [this]; exact hk
  | write i j b =>
    refine ⟨?_, ?_, ?_⟩
    · intro k a ha hs
      simp only [step] at ha
      cases hi : w.arrs[i]? with
      | none => rw [hi] at ha; exact h.live k a ha hs
      | some x =>
        rw [hi] at ha
        dsimp only at ha
        split at ha
        · rename_i hx
          rcases mem_set (mem_of_get ha) with hm | rfl
          · obtain ⟨k, hk'⟩ := List.getElem?_of_mem hm
            exact h.live k a hk' hs
          · exact hx.2
        · exact h.live k a ha hs
    · have : (step w (.write i j b)).vars = w.vars := by simp only [step]; split <;> (try split) <;> rfl
      rw [this]; exact hv
    · have : (step w (.write i j b)).kept = w.kept := by simp only [step]; split <;> (try split) <;> rfl
      rw [this]; exact hk
  | default l =>
    refine ⟨h.live, fun u hu => ?_, hk⟩
    simp only [step, List.mem_append, List.mem_singleton] at hu
    rcases hu with hu | rfl
    · exact hv u hu
    · exact ⟨fun _ => rfl, fun i off hd => by simp at hd⟩
  | literal i =>
    cases hi : w.arrs[i]? with
    | none => simpa only [step, hi] using h
    | some x =>
      by_cases hl : x.live = true
      · simp only [step, hi, hl, if_true] at hv hk ⊢
        refine ⟨h.live, fun u hu => ?_, hk⟩
        simp only [List.mem_append, List.mem_singleton] at hu
        rcases hu with hu | rfl
        · exact hv u hu
        · refine ⟨fun hd => by simp at hd, fun j off hd => ?_⟩
          simp only [Option.some.injEq, Prod.mk.injEq] at hd
          obtain ⟨rfl, rfl⟩ := hd
          exact ⟨x, hi, by simp⟩
      · simpa [step, hi, hl] using h
  | view i off n =>
    cases hi : w.arrs[i]? with
    | none => simpa only [step, hi] using h
    | some x =>
      by_cases hl : x.live ∧ off + n ≤ x.bytes.length
      · simp only [step, hi] at hv hk ⊢
        rw [if_pos hl] at hv hk ⊢
        refine ⟨h.live, fun u hu => ?_, hk⟩
        simp only [List.mem_append, List.mem_singleton] at hu
        rcases hu with hu | rfl
        · exact hv u hu
        · refine ⟨fun hd => by simp at hd, fun j o hd => ?_⟩
          simp only [Option.some.injEq, Prod.mk.injEq] at hd
          obtain ⟨rfl, rfl⟩ := hd
          exact ⟨x, hi, hl.2⟩
      · simp only [step, hi]
        rw [if_neg hl]
        exact h
  | sub x a b =>
    cases hx : w.vars[x]? with
    | none => simpa only [step, hx] using h
    | some u =>
      simp only [step, hx] at hv hk ⊢
      refine ⟨h.live, fun v hm => ?_, hk⟩
      simp only [List.mem_append, List.mem_singleton] at hm
      rcases hm with hm | rfl
      · exact hv v hm
      · exact inside_substring (hv u (mem_of_get hx)) a b
  | assign x y =>
    cases hx : w.vars[x]? with
    | none => simpa only [step, hx] using h
    | some u =>
      cases hy : w.vars[y]? with
      | none => simpa only [step, hx, hy] using h
      | some v =>
        simp only [step, hx, hy] at hv hk ⊢
        split at hv <;> rename_i hc
        · rw [if_pos hc]; exact h
        · rw [if_neg hc] at hk ⊢
          refine ⟨h.live, fun z hz => ?_, hk⟩
          rcases mem_set hz with hz | rfl
          · exact hv z hz
          · exact hv v (mem_of_get hy)
  | swap x y =>
    cases hx : w.vars[x]? with
    | none => simpa only [step, hx] using h
    | some u =>
      cases hy : w.vars[y]? with
      | none => simpa only [step, hx, hy] using h
      | some v =>
        simp only [step, hx, hy] at hv hk ⊢
        refine ⟨h.live, fun z hz => ?_, hk⟩
        rcases mem_set hz with hz | rfl
        · rcases mem_set hz with hz | rfl
          · exact hv z hz
          · exact hv v (mem_of_get hy)
        · exact hv u (mem_of_get hx)
  | keep x =>
    cases hx : w.vars[x]? with
    | none => simpa only [step, hx] using h
    | some u =>
      by_cases hl : u.literal = true
      · simp only [step, hx, hl, if_true] at hv hk ⊢
        refine ⟨h.live, hv, fun z hz => ?_⟩
        simp only [List.mem_append, List.mem_singleton] at hz
        rcases hz with hz | rfl
        · exact hk z hz
        · exact hv u (mem_of_get hx)
      · simpa [step, hx, hl] using h

theorem inv_empty : Inv World.empty := ⟨fun i a h => by simp [World.empty] at h, fun u h => by simp [World.empty] at h,
  fun u h => by simp [World.empty] at h⟩

theorem run_inv {w : World} (h : Inv w) (ops : List Op) : Inv (run w ops) := by
  induction ops generalizing w with
  | nil => exact h
  | cons op rest ih => exact ih (step_inv h op)

/-- A lasting view inside its array shows the same characters for ever. -/
theorem read_lasting {w w' : World} {v : View} (hi : Inv w) (hv : Inside w v) (hl : Lasting w v) (he : Ext w w') :
    read w' v = read w v ∧ ∃ s, read w v = .ok s := by
  unfold read
  by_cases h0 : v.size = 0
  · simp [h0]
  · rw [if_neg h0, if_neg h0]
    cases hd : v.data with
    | none => exact absurd (hv.1 hd) h0
    | some p =>
      obtain ⟨i, off⟩ := p
      obtain ⟨a, ha, hs⟩ := hl i off hd
      obtain ⟨b, hb, hlen⟩ := hv.2 i off hd
      rw [ha] at hb
      cases hb
      obtain ⟨a', ha', _, _, hk⟩ := he i a ha
      have hk := hk hs
      subst hk
      have hlive := hi.live i a' ha (by rw [hs]; decide)
      simp only [ha, ha']
      rw [if_pos ⟨hlive, hlen⟩]
      exact ⟨trivial, _, rfl⟩

end Solace.Literal
