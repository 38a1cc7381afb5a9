import Verif.Spec.ResultRef
/- Helper lemmas for C149. -/
namespace Solace.ResRef

theorem upd_same (f : Nat → α) (i : Nat) (x : α) : upd f i x i = x := by simp [upd]
theorem upd_other (f : Nat → α) {i j : Nat} (x : α) (h : j ≠ i) : upd f i x j = f j := by simp [upd, h]

theorem elems_of_holds {w : World} {i b : Nat} (h : w.Holds i b) : w.elems i = (w.bufs b).getD [] := by
  unfold World.Holds at h
  rw [World.elems, h]; rfl

theorem holds_or_empty (w : World) (i : Nat) : (∃ b, w.Holds i b) ∨ (w.vecs i).buf = none := by
  unfold World.Holds
  cases h : (w.vecs i).buf with
  | none => exact .inr rfl
  | some b => exact .inl ⟨b, rfl⟩

theorem setElems_of_holds {w : World} {i b : Nat} (h : w.Holds i b) (es : List Nat) :
    w.setElems i es = { w with bufs := upd w.bufs b (some es) } := by
  unfold World.Holds at h
  rw [World.setElems, h]

theorem setElems_of_none {w : World} {i : Nat} (h : (w.vecs i).buf = none) (es : List Nat) : w.setElems i es = w := by
  rw [World.setElems, h]

theorem drop_of_holds {w : World} {i b : Nat} (h : w.Holds i b) :
    w.drop i = { w with bufs := upd w.bufs b none, vecs := upd w.vecs i ⟨none, 0⟩ } := by
  unfold World.Holds at h
  rw [World.drop, h]

theorem drop_of_none {w : World} {i : Nat} (h : (w.vecs i).buf = none) : w.drop i = { w with vecs := upd w.vecs i ⟨none, 0⟩ } := by
  rw [World.drop, h]

theorem emplace_of_none {w : World} {i : Nat} (h : (w.vecs i).buf = none) (v : Nat) : w.emplace i v = (w, .error overflow) := by
  rw [World.emplace, h]

theorem emplace_full {w : World} {i : Nat} (h : (w.vecs i).cap ≤ (w.elems i).length) (v : Nat) : w.emplace i v = (w, .error overflow) := by
  rw [World.emplace]
  split
  · rfl
  · rw [if_pos h]

theorem emplace_room {w : World} {i b : Nat} (hb : w.Holds i b) (h : (w.elems i).length < (w.vecs i).cap) (v : Nat) :
    w.emplace i v = ({ w with bufs := upd w.bufs b (some (w.elems i ++ [v])) }, .ok (.slot b (w.elems i).length)) := by
  rw [World.emplace, show (w.vecs i).buf = some b from hb]
  dsimp only
  rw [if_neg (by omega), setElems_of_holds hb]

/-- The three cases of `emplace_back`. -/
theorem emplace_cases (w : World) (i v : Nat) :
    w.emplace i v = (w, .error overflow) ∨
    ∃ b, w.Holds i b ∧ (w.elems i).length < (w.vecs i).cap ∧
      w.emplace i v = ({ w with bufs := upd w.bufs b (some (w.elems i ++ [v])) }, .ok (.slot b (w.elems i).length)) := by
  rcases holds_or_empty w i with ⟨b, hb⟩ | hn
  · by_cases h : (w.elems i).length < (w.vecs i).cap
    · exact .inr ⟨b, hb, h, emplace_room hb h v⟩
    · exact .inl (emplace_full (by omega) v)
  · exact .inl (emplace_of_none hn v)

/-! Sane states -/

theorem sane_init : Sane init where
  alone := by intro i j b h; cases h
  there := by intro i b h; cases h
  later := by intro b _; rfl

/-- Objects and results do not matter. -/
theorem Sane.same {w w' : World} (h : Sane w) (hv : w'.vecs = w.vecs) (hb : w'.bufs = w.bufs) (hn : w'.next = w.next) : Sane w' where
  alone := by
    intro i j b hi hj
    unfold World.Holds at hi hj
    rw [hv] at hi hj
    exact h.alone i j b hi hj
  there := by
    intro i b hi
    unfold World.Holds at hi
    rw [hv] at hi
    rw [hv, hb, hn]
    exact h.there i b hi
  later := by
    intro b hbn
    rw [hn] at hbn
    rw [hb]
    exact h.later b hbn

theorem Sane.setBuf {w : World} (h : Sane w) {i b : Nat} (hb : w.Holds i b) (es : List Nat) (hl : es.length ≤ (w.vecs i).cap) :
    Sane { w with bufs := upd w.bufs b (some es) } where
  alone := h.alone
  there := by
    intro j c hj
    obtain ⟨h1, es', h2, h3⟩ := h.there j c hj
    refine ⟨h1, ?_⟩
    by_cases hc : c = b
    · subst hc
      have := h.alone i j c hb hj
      subst this
      exact ⟨es, upd_same _ _ _, hl⟩
    · exact ⟨es', by dsimp only; rw [upd_other _ _ hc]; exact h2, h3⟩
  later := by
    intro c hc
    have : c ≠ b := by have := (h.there i b hb).1; simp at hc; omega
    dsimp only
    rw [upd_other _ _ this]
    exact h.later c hc

theorem Sane.length_le {w : World} (h : Sane w) (i : Nat) {b : Nat} (hb : w.Holds i b) : (w.elems i).length ≤ (w.vecs i).cap := by
  obtain ⟨_, es, h2, h3⟩ := h.there i b hb
  rw [elems_of_holds hb, h2]
  exact h3

theorem Sane.setElems {w : World} (h : Sane w) (i : Nat) (es : List Nat) (hl : es.length ≤ (w.elems i).length) : Sane (w.setElems i es) := by
  rcases holds_or_empty w i with ⟨b, hb⟩ | hn
  · rw [setElems_of_holds hb]
    exact h.setBuf hb es (Nat.le_trans hl (h.length_le i hb))
  · rw [setElems_of_none hn]
    exact h

theorem Sane.emplace {w : World} (h : Sane w) (i v : Nat) : Sane (w.emplace i v).1 := by
  rcases emplace_cases w i v with e | ⟨b, hb, hl, e⟩
  · rw [e]; exact h
  · rw [e]
    exact h.setBuf hb _ (by simp; omega)

theorem Sane.drop {w : World} (h : Sane w) (i : Nat) : Sane (w.drop i) := by
  rcases holds_or_empty w i with ⟨b, hb⟩ | hn
  · rw [drop_of_holds hb]
    constructor
    · intro j l c hj hl
      unfold World.Holds at hj hl
      dsimp only at hj hl
      by_cases e1 : j = i
      · subst e1; rw [upd_same] at hj; cases hj
      · by_cases e2 : l = i
        · subst e2; rw [upd_same] at hl; cases hl
        · rw [upd_other _ _ e1] at hj
          rw [upd_other _ _ e2] at hl
          exact h.alone j l c hj hl
    · intro j c hj
      unfold World.Holds at hj
      dsimp only at hj ⊢
      by_cases e1 : j = i
      · subst e1; rw [upd_same] at hj; cases hj
      · rw [upd_other _ _ e1] at hj ⊢
        have : c ≠ b := fun e => e1 (h.alone j i c hj (e ▸ hb))
        rw [upd_other _ _ this]
        exact h.there j c hj
    · intro c hc
      dsimp only at hc ⊢
      by_cases e : c = b
      · subst e; rw [upd_same]
      · rw [upd_other _ _ e]; exact h.later c hc
  · rw [drop_of_none hn]
    constructor
    · intro j l c hj hl
      unfold World.Holds at hj hl
      dsimp only at hj hl
      by_cases e1 : j = i
      · subst e1; rw [upd_same] at hj; cases hj
      · by_cases e2 : l = i
        · subst e2; rw [upd_same] at hl; cases hl
        · rw [upd_other _ _ e1] at hj
          rw [upd_other _ _ e2] at hl
          exact h.alone j l c hj hl
    · intro j c hj
      unfold World.Holds at hj
      dsimp only at hj ⊢
      by_cases e1 : j = i
      · subst e1; rw [upd_same] at hj; cases hj
      · rw [upd_other _ _ e1] at hj ⊢
        exact h.there j c hj
    · exact h.later

theorem drop_vecs (w : World) (i : Nat) : (w.drop i).vecs = upd w.vecs i ⟨none, 0⟩ := by
  rw [World.drop]; split <;> rfl
theorem drop_next (w : World) (i : Nat) : (w.drop i).next = w.next := by
  rw [World.drop]; split <;> rfl
theorem drop_objs (w : World) (i : Nat) : (w.drop i).objs = w.objs := by
  rw [World.drop]; split <;> rfl
theorem drop_ress (w : World) (i : Nat) : (w.drop i).ress = w.ress := by
  rw [World.drop]; split <;> rfl
theorem setElems_vecs (w : World) (i : Nat) (es : List Nat) : (w.setElems i es).vecs = w.vecs := by
  rw [World.setElems]; split <;> rfl
theorem setElems_objs (w : World) (i : Nat) (es : List Nat) : (w.setElems i es).objs = w.objs := by
  rw [World.setElems]; split <;> rfl
theorem setElems_ress (w : World) (i : Nat) (es : List Nat) : (w.setElems i es).ress = w.ress := by
  rw [World.setElems]; split <;> rfl
theorem emplace_vecs (w : World) (i v : Nat) : (w.emplace i v).1.vecs = w.vecs := by
  rcases emplace_cases w i v with e | ⟨b, _, _, e⟩ <;> rw [e]
theorem emplace_objs (w : World) (i v : Nat) : (w.emplace i v).1.objs = w.objs := by
  rcases emplace_cases w i v with e | ⟨b, _, _, e⟩ <;> rw [e]
theorem emplace_ress (w : World) (i v : Nat) : (w.emplace i v).1.ress = w.ress := by
  rcases emplace_cases w i v with e | ⟨b, _, _, e⟩ <;> rw [e]

theorem drop_bufs {w : World} (i c : Nat) : (w.drop i).bufs c = if w.Holds i c then none else w.bufs c := by
  rcases holds_or_empty w i with ⟨b, hb⟩ | hn
  · rw [drop_of_holds hb]
    dsimp only
    by_cases h : c = b
    · subst h; rw [upd_same, if_pos hb]
    · rw [upd_other _ _ h, if_neg]
      intro hc
      unfold World.Holds at hb hc
      rw [hb] at hc
      cases hc
      exact h rfl
  · rw [drop_of_none hn, if_neg]
    intro hc
    unfold World.Holds at hc
    rw [hn] at hc
    cases hc

theorem setElems_bufs {w : World} (i c : Nat) (es : List Nat) : (w.setElems i es).bufs c = if w.Holds i c then some es else w.bufs c := by
  rcases holds_or_empty w i with ⟨b, hb⟩ | hn
  · rw [setElems_of_holds hb]
    dsimp only
    by_cases h : c = b
    · subst h; rw [upd_same, if_pos hb]
    · rw [upd_other _ _ h, if_neg]
      intro hc
      unfold World.Holds at hb hc
      rw [hb] at hc
      cases hc
      exact h rfl
  · rw [setElems_of_none hn, if_neg]
    intro hc
    unfold World.Holds at hc
    rw [hn] at hc
    cases hc

theorem Sane.moved {w : World} (h : Sane w) {i j : Nat} (hij : i ≠ j) :
    Sane { w.drop i with vecs := upd (upd w.vecs i (w.vecs j)) j ⟨none, 0⟩ } := by
  -- the variable that has the memory of variable `l` after the statement
  have who : ∀ l c, ({ w.drop i with vecs := upd (upd w.vecs i (w.vecs j)) j ⟨none, 0⟩ } : World).Holds l c →
      l ≠ j ∧ (if l = i then w.Holds j c else w.Holds l c) ∧ ¬ w.Holds i c ∧
      ((({ w.drop i with vecs := upd (upd w.vecs i (w.vecs j)) j ⟨none, 0⟩ } : World).vecs l).cap = (w.vecs (if l = i then j else l)).cap) := by
    intro l c hl
    unfold World.Holds at hl
    dsimp only at hl
    have hlj : l ≠ j := by
      intro e
      subst e
      rw [upd_same] at hl
      cases hl
    rw [upd_other _ _ hlj] at hl
    by_cases hli : l = i
    · subst hli
      rw [upd_same] at hl
      refine ⟨hlj, by rw [if_pos rfl]; exact hl, fun hc => hij (h.alone l j c hc hl), ?_⟩
      dsimp only
      rw [upd_other _ _ hlj, upd_same, if_pos rfl]
    · rw [upd_other _ _ hli] at hl
      refine ⟨hlj, by rw [if_neg hli]; exact hl, fun hc => hli (h.alone l i c hl hc), ?_⟩
      dsimp only
      rw [upd_other _ _ hlj, upd_other _ _ hli, if_neg hli]
  constructor
  · intro l m c hl hm
    obtain ⟨l1, l2, _⟩ := who l c hl
    obtain ⟨m1, m2, _⟩ := who m c hm
    by_cases e1 : l = i <;> by_cases e2 : m = i
    · omega
    · rw [if_pos e1] at l2; rw [if_neg e2] at m2; exact absurd (h.alone m j c m2 l2) m1
    · rw [if_neg e1] at l2; rw [if_pos e2] at m2; exact absurd (h.alone l j c l2 m2) l1
    · rw [if_neg e1] at l2; rw [if_neg e2] at m2; exact h.alone l m c l2 m2
  · intro l c hl
    obtain ⟨l1, l2, l3, l4⟩ := who l c hl
    rw [l4]
    show c < (w.drop i).next ∧ ∃ es, (w.drop i).bufs c = some es ∧ _
    rw [drop_bufs, if_neg l3, drop_next]
    by_cases e1 : l = i
    · rw [if_pos e1] at l2 ⊢; exact h.there j c l2
    · rw [if_neg e1] at l2 ⊢; exact h.there l c l2
  · intro c hc
    exact (h.drop i).later c hc

theorem exchange_inj {i j l m : Nat}
    (h : (if l = j then i else if l = i then j else l) = (if m = j then i else if m = i then j else m)) : l = m := by
  by_cases a1 : l = j
  · rw [if_pos a1] at h
    by_cases b1 : m = j
    · omega
    · rw [if_neg b1] at h
      by_cases b2 : m = i
      · rw [if_pos b2] at h; omega
      · rw [if_neg b2] at h; omega
  · rw [if_neg a1] at h
    by_cases a2 : l = i
    · rw [if_pos a2] at h
      by_cases b1 : m = j
      · rw [if_pos b1] at h; omega
      · rw [if_neg b1] at h
        by_cases b2 : m = i
        · omega
        · rw [if_neg b2] at h; omega
    · rw [if_neg a2] at h
      by_cases b1 : m = j
      · rw [if_pos b1] at h; omega
      · rw [if_neg b1] at h
        by_cases b2 : m = i
        · rw [if_pos b2] at h; omega
        · rw [if_neg b2] at h; exact h

theorem Sane.swapped {w : World} (h : Sane w) (i j : Nat) :
    Sane { w with vecs := upd (upd w.vecs i (w.vecs j)) j (w.vecs i) } := by
  have who : ∀ l, ∃ l', upd (upd w.vecs i (w.vecs j)) j (w.vecs i) l = w.vecs l' ∧
      l' = if l = j then i else if l = i then j else l := by
    intro l
    by_cases e1 : l = j
    · exact ⟨i, by rw [e1, upd_same], by rw [if_pos e1]⟩
    · by_cases e2 : l = i
      · exact ⟨j, by rw [upd_other _ _ e1, e2, upd_same], by rw [if_neg e1, if_pos e2]⟩
      · exact ⟨l, by rw [upd_other _ _ e1, upd_other _ _ e2], by rw [if_neg e1, if_neg e2]⟩
  constructor
  · intro l m c hl hm
    obtain ⟨l', e1, e2⟩ := who l
    obtain ⟨m', f1, f2⟩ := who m
    unfold World.Holds at hl hm
    dsimp only at hl hm
    rw [e1] at hl
    rw [f1] at hm
    have := h.alone l' m' c hl hm
    rw [e2, f2] at this
    exact exchange_inj this
  · intro l c hl
    obtain ⟨l', e1, e2⟩ := who l
    unfold World.Holds at hl
    dsimp only at hl ⊢
    rw [e1] at hl ⊢
    exact h.there l' c hl
  · exact h.later

theorem Sane.fresh {w : World} (h : Sane w) (i cap : Nat) :
    Sane { w.drop i with bufs := upd (w.drop i).bufs w.next (some []), vecs := upd (w.drop i).vecs i ⟨some w.next, cap⟩, next := w.next + 1 } := by
  have hd := h.drop i
  have lt : ∀ l c, (w.drop i).Holds l c → c < w.next := fun l c hl => by
    have := (hd.there l c hl).1
    rwa [drop_next] at this
  constructor
  · intro l m c hl hm
    unfold World.Holds at hl hm
    dsimp only at hl hm
    by_cases e1 : l = i <;> by_cases e2 : m = i
    · omega
    · subst e1
      rw [upd_same] at hl
      cases hl
      rw [upd_other _ _ e2] at hm
      exact absurd (lt m _ hm) (by omega)
    · subst e2
      rw [upd_same] at hm
      cases hm
      rw [upd_other _ _ e1] at hl
      exact absurd (lt l _ hl) (by omega)
    · rw [upd_other _ _ e1] at hl
      rw [upd_other _ _ e2] at hm
      exact hd.alone l m c hl hm
  · intro l c hl
    unfold World.Holds at hl
    dsimp only at hl ⊢
    by_cases e1 : l = i
    · subst e1
      rw [upd_same] at hl ⊢
      cases hl
      exact ⟨by omega, [], upd_same _ _ _, by simp⟩
    · rw [upd_other _ _ e1] at hl ⊢
      have := lt l c hl
      rw [upd_other _ _ (by omega : c ≠ w.next)]
      exact ⟨by omega, (hd.there l c hl).2⟩
  · intro c hc
    dsimp only at hc ⊢
    rw [upd_other _ _ (by omega : c ≠ w.next)]
    exact hd.later c (by rw [drop_next]; omega)

theorem Sane.assign {w : World} (h : Sane w) (p : Place) (v : Nat) : Sane (w.assign p v) := by
  cases p with
  | obj a => exact h.same rfl rfl rfl
  | slot b k =>
    rw [World.assign]
    constructor
    · exact h.alone
    · intro i c hi
      obtain ⟨h1, es, h2, h3⟩ := h.there i c hi
      refine ⟨h1, ?_⟩
      dsimp only
      by_cases e : c = b
      · subst e
        exact ⟨es.set k v, by rw [upd_same, h2]; rfl, by simpa using h3⟩
      · exact ⟨es, by rw [upd_other _ _ e]; exact h2, h3⟩
    · intro c hc
      dsimp only at hc ⊢
      by_cases e : c = b
      · subst e
        rw [upd_same, h.later c hc]; rfl
      · rw [upd_other _ _ e]; exact h.later c hc

end Solace.ResRef
