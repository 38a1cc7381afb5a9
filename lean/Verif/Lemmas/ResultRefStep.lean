import Verif.Lemmas.ResultRef
/- Helper lemmas for C149: what one statement does to an object and to a result. -/
namespace Solace.ResRef

theorem valueAt_holds {w : World} {i b : Nat} (h : w.Holds i b) (k : Nat) : w.valueAt (.slot b k) = (w.elems i)[k]? := by
  rw [elems_of_holds h, World.valueAt]
  cases w.bufs b with
  | none => rfl
  | some es => rfl

theorem valueAt_assign {w : World} {p : Place} {x : Nat} (h : w.valueAt p = some x) (q : Place) (v : Nat) :
    (w.assign q v).valueAt p = some (if q = p then v else x) := by
  cases q with
  | obj a =>
    cases p with
    | obj a' =>
      rw [World.assign, World.valueAt]
      dsimp only
      by_cases e : a' = a
      · subst e; rw [upd_same, if_pos rfl]
      · rw [upd_other _ _ e, if_neg (by intro e'; cases e'; exact e rfl)]; exact h
    | slot b k => rw [if_neg (by intro e; cases e)]; exact h
  | slot b k =>
    cases p with
    | obj a' => rw [if_neg (by intro e; cases e)]; exact h
    | slot b' k' =>
      rw [World.assign, World.valueAt]
      dsimp only
      by_cases e : b' = b
      · subst e
        rw [upd_same]
        rw [World.valueAt] at h
        cases hb : w.bufs b' with
        | none => rw [hb] at h; cases h
        | some es =>
          rw [hb] at h
          change es[k']? = some x at h
          change (es.set k v)[k']? = _
          by_cases ek : k = k'
          · subst ek
            rw [if_pos rfl, List.getElem?_set_self (by
              rcases Nat.lt_or_ge k es.length with hk | hk
              · exact hk
              · rw [List.getElem?_eq_none hk] at h; cases h)]
          · rw [if_neg (by intro e'; cases e'; exact ek rfl), List.getElem?_set_ne ek]
            exact h
      · rw [upd_other _ _ e, if_neg (by intro e'; cases e'; exact e rfl)]; exact h

theorem valueAt_setElems {w : World} (i b k : Nat) (es : List Nat) :
    (w.setElems i es).valueAt (.slot b k) = if w.Holds i b then es[k]? else w.valueAt (.slot b k) := by
  rw [World.valueAt, setElems_bufs]
  split
  · rfl
  · rw [World.valueAt]

theorem valueAt_setElems_obj {w : World} (i a : Nat) (es : List Nat) : (w.setElems i es).valueAt (.obj a) = w.valueAt (.obj a) := by
  rw [World.valueAt, setElems_objs, World.valueAt]

theorem valueAt_drop {w : World} (i b k : Nat) : (w.drop i).valueAt (.slot b k) = if w.Holds i b then none else w.valueAt (.slot b k) := by
  rw [World.valueAt, drop_bufs]
  split
  · rfl
  · rw [World.valueAt]

theorem valueAt_drop_obj {w : World} (i a : Nat) : (w.drop i).valueAt (.obj a) = w.valueAt (.obj a) := by
  rw [World.valueAt, drop_objs, World.valueAt]

theorem valueAt_emplace {w : World} (i v : Nat) {p : Place} {x : Nat} (h : w.valueAt p = some x) : (w.emplace i v).1.valueAt p = some x := by
  rcases emplace_cases w i v with e | ⟨b, hb, hl, e⟩
  · rw [e]; exact h
  · rw [e]
    cases p with
    | obj a => exact h
    | slot b' k =>
      rw [World.valueAt]
      dsimp only
      by_cases eb : b' = b
      · subst eb
        rw [upd_same]
        rw [valueAt_holds hb] at h
        change (w.elems i ++ [v])[k]? = some x
        rw [List.getElem?_append_left (by
          rcases Nat.lt_or_ge k (w.elems i).length with hk | hk
          · exact hk
          · rw [List.getElem?_eq_none hk] at h; cases h)]
        exact h
      · rw [upd_other _ _ eb]; exact h

theorem valueAt_ress (w : World) (f : Nat → Except Nat Place) (p : Place) : ({ w with ress := f } : World).valueAt p = w.valueAt p := by
  cases p <;> rfl

/-- What one statement does to the object at a place, and that it leads to sane states. -/
theorem step_value {w w' : World} {s : Stmt} {o : Seen} (hs : Sane w) (h : step w s = .ok (w', o)) (p : Place) (x : Nat)
    (hp : w.valueAt p = some x) : (Ends w p s → w'.valueAt p = none) ∧ (¬ Ends w p s → w'.valueAt p = some ((written w p s).getD x)) := by
  have none_of : ∀ {P : Prop}, ¬ P → w'.valueAt p = some ((written w p s).getD x) →
      (P → w'.valueAt p = none) ∧ (¬ P → w'.valueAt p = some ((written w p s).getD x)) :=
    fun hn hv => ⟨fun h => absurd h hn, fun _ => hv⟩
  cases s with
  | setObj a v =>
    refine none_of (fun h => h) ?_
    rw [step] at h
    cases ha : w.objs a with
    | none => rw [ha] at h; cases h
    | some y =>
      rw [ha] at h
      cases h
      rw [valueAt_assign hp, written]
      by_cases e : p = .obj a
      · rw [if_pos e.symm, if_pos e]; rfl
      · rw [if_neg (fun h => e h.symm), if_neg e]; rfl
  | readObj a =>
    refine none_of (fun h => h) ?_
    rw [step] at h
    cases ha : w.objs a with
    | none => rw [ha] at h; cases h
    | some y => rw [ha] at h; cases h; exact hp
  | endObj a =>
    cases h
    constructor
    · intro e
      have e : p = .obj a := e
      subst e
      rw [World.valueAt]
      exact upd_same _ _ _
    · intro e
      have e : p ≠ .obj a := e
      cases p with
      | obj a' =>
        rw [World.valueAt]
        dsimp only
        rw [upd_other _ _ (fun h => e (by rw [h]))]
        exact hp
      | slot b k => exact hp
  | bind r a =>
    refine none_of (fun h => h) ?_
    rw [step] at h
    cases ha : w.objs a with
    | none => rw [ha] at h; cases h
    | some y => rw [ha] at h; cases h; rw [valueAt_ress]; exact hp
  | fail r e => cases h; refine none_of (fun h => h) ?_; rw [valueAt_ress]; exact hp
  | moveNew r t =>
    refine none_of (fun h => h) ?_
    rw [step] at h
    split at h
    · cases h
    · cases h; rw [valueAt_ress]; exact hp
  | swap r t => cases h; refine none_of (fun h => h) ?_; rw [valueAt_ress]; exact hp
  | read r =>
    refine none_of (fun h => h) ?_
    rw [step] at h
    cases hr : w.ress r with
    | error e => rw [hr] at h; cases h; exact hp
    | ok q =>
      rw [hr] at h
      dsimp only at h
      cases hq : w.valueAt q with
      | none => rw [hq] at h; cases h
      | some y => rw [hq] at h; cases h; exact hp
  | write r v =>
    refine none_of (fun h => h) ?_
    rw [step] at h
    rw [written]
    cases hr : w.ress r with
    | error e => rw [hr] at h; cases h; exact hp
    | ok q =>
      rw [hr] at h
      dsimp only at h ⊢
      cases hq : w.valueAt q with
      | none => rw [hq] at h; cases h
      | some y =>
        rw [hq] at h
        cases h
        rw [valueAt_assign hp]
        split <;> rfl
  | error r =>
    refine none_of (fun h => h) ?_
    rw [step] at h
    cases hr : w.ress r with
    | error e => rw [hr] at h; cases h; exact hp
    | ok q => rw [hr] at h; cases h; exact hp
  | thenSet t r v =>
    refine none_of (fun h => h) ?_
    rw [step] at h
    rw [written]
    cases hr : w.ress r with
    | error e => rw [hr] at h; cases h; rw [valueAt_ress]; exact hp
    | ok q =>
      rw [hr] at h
      dsimp only at h ⊢
      cases hq : w.valueAt q with
      | none => rw [hq] at h; cases h
      | some y =>
        rw [hq] at h
        cases h
        rw [valueAt_ress, valueAt_assign hp]
        split <;> rfl
  | mapError t r k =>
    refine none_of (fun h => h) ?_
    rw [step] at h
    cases hr : w.ress r with
    | error e => rw [hr] at h; cases h; rw [valueAt_ress]; exact hp
    | ok q => rw [hr] at h; cases h; rw [valueAt_ress]; exact hp
  | orElse t r a =>
    refine none_of (fun h => h) ?_
    rw [step] at h
    cases hr : w.ress r with
    | ok q => rw [hr] at h; cases h; rw [valueAt_ress]; exact hp
    | error e =>
      rw [hr] at h
      dsimp only at h
      cases ha : w.objs a with
      | none => rw [ha] at h; cases h
      | some y => rw [ha] at h; cases h; rw [valueAt_ress]; exact hp
  | vec i cap =>
    cases h
    have dead : ∀ b k, w.valueAt (.slot b k) = some x → b < w.next := by
      intro b k hb
      rcases Nat.lt_or_ge b w.next with hl | hl
      · exact hl
      · rw [World.valueAt, hs.later b hl] at hb; cases hb
    constructor
    · rintro ⟨b, k, rfl, hh⟩
      rw [World.valueAt]
      dsimp only
      rw [upd_other _ _ (by have := dead b k hp; omega), drop_bufs, if_pos hh]
      rfl
    · intro hn
      cases p with
      | obj a => rw [World.valueAt]; dsimp only; rw [drop_objs]; exact hp
      | slot b k =>
        rw [World.valueAt]
        dsimp only
        rw [upd_other _ _ (by have := dead b k hp; omega), drop_bufs, if_neg (fun hh => hn ⟨b, k, rfl, hh⟩)]
        exact hp
  | push r i v =>
    cases h
    refine none_of (fun h => h) ?_
    rw [valueAt_ress, valueAt_emplace i v hp]
    rfl
  | pop i =>
    cases h
    have key : ∀ b k, p = .slot b k → w.Holds i b → (w.elems i)[k]? = some x := by
      intro b k e hh
      subst e
      rw [← valueAt_holds hh]; exact hp
    constructor
    · rintro ⟨b, k, rfl, hh, hl⟩
      rw [valueAt_setElems, if_pos hh, List.getElem?_eq_none (by simp; omega)]
    · intro hn
      cases p with
      | obj a => rw [valueAt_setElems_obj]; exact hp
      | slot b k =>
        rw [valueAt_setElems]
        by_cases hh : w.Holds i b
        · have hk := key b k rfl hh
          have hlt : k < (w.elems i).length := by
            rcases Nat.lt_or_ge k (w.elems i).length with h | h
            · exact h
            · rw [List.getElem?_eq_none h] at hk; cases hk
          have hne : (w.elems i).length ≠ k + 1 := fun e => hn ⟨b, k, rfl, hh, e⟩
          rw [if_pos hh, List.getElem?_dropLast, if_pos (by omega)]
          exact hk
        · rw [if_neg hh]; exact hp
  | clear i =>
    cases h
    constructor
    · rintro ⟨b, k, rfl, hh⟩
      rw [valueAt_setElems, if_pos hh]; rfl
    · intro hn
      cases p with
      | obj a => rw [valueAt_setElems_obj]; exact hp
      | slot b k => rw [valueAt_setElems, if_neg (fun hh => hn ⟨b, k, rfl, hh⟩)]; exact hp
  | readAt i k =>
    refine none_of (fun h => h) ?_
    rw [step] at h
    split at h <;> cases h <;> exact hp
  | setAt i k v =>
    refine none_of (fun h => h) ?_
    rw [step] at h
    rw [written.eq_def]
    cases hk : (w.elems i)[k]? with
    | none =>
      rw [hk] at h
      cases h
      cases p with
      | obj a => exact hp
      | slot b k' =>
        dsimp only
        rw [if_neg]
        · exact hp
        · rintro ⟨hh, rfl⟩
          rw [valueAt_holds hh, hk] at hp
          cases hp
    | some y =>
      rw [hk] at h
      cases h
      cases p with
      | obj a => rw [valueAt_setElems_obj]; exact hp
      | slot b k' =>
        rw [valueAt_setElems]
        dsimp only
        by_cases hh : w.Holds i b
        · rw [if_pos hh]
          rw [valueAt_holds hh] at hp
          by_cases e : k' = k
          · subst e
            rw [if_pos ⟨hh, rfl⟩, List.getElem?_set_self (by
              rcases Nat.lt_or_ge k' (w.elems i).length with h | h
              · exact h
              · rw [List.getElem?_eq_none h] at hp; cases hp)]
            rfl
          · rw [if_neg (fun h => e h.2), List.getElem?_set_ne (fun h => e h.symm)]
            exact hp
        · rw [if_neg hh, if_neg (fun h => hh h.1)]; exact hp
  | moveVec i j =>
    rw [step] at h
    split at h
    · cases h
    · cases h
      constructor
      · rintro ⟨b, k, rfl, hh⟩
        show (w.drop i).valueAt (.slot b k) = none
        rw [valueAt_drop, if_pos hh]
      · intro hn
        cases p with
        | obj a =>
          show (w.drop i).valueAt (.obj a) = _
          rw [valueAt_drop_obj]; exact hp
        | slot b k =>
          show (w.drop i).valueAt (.slot b k) = _
          rw [valueAt_drop, if_neg (fun hh => hn ⟨b, k, rfl, hh⟩)]; exact hp
  | swapVec i j =>
    cases h
    refine none_of (fun h => h) ?_
    cases p <;> exact hp
  | dropVec i =>
    cases h
    constructor
    · rintro ⟨b, k, rfl, hh⟩
      rw [valueAt_drop, if_pos hh]
    · intro hn
      cases p with
      | obj a => rw [valueAt_drop_obj]; exact hp
      | slot b k => rw [valueAt_drop, if_neg (fun hh => hn ⟨b, k, rfl, hh⟩)]; exact hp
  | put r ki vi key v =>
    refine none_of (fun h => h) ?_
    rw [step] at h
    split at h
    · cases h
    · rename_i hne
      have e1 := valueAt_emplace vi v hp
      rcases hm : w.emplace vi v with ⟨w1, q⟩
      rw [hm] at h e1
      cases q with
      | error e => cases h; rw [valueAt_ress]; exact e1
      | ok q =>
        dsimp only at h
        have e2 := valueAt_emplace ki key e1
        rcases hm2 : w1.emplace ki key with ⟨w2, q2⟩
        rw [hm2] at h e2
        cases q2 with
        | ok q2 => cases h; rw [valueAt_ress]; exact e2
        | error e =>
          cases h
          rw [valueAt_ress]
          -- the failed second insertion changes nothing; the value put first is removed again
          have hw2 : w2 = w1 := by
            rcases emplace_cases w1 ki key with e' | ⟨b, _, _, e'⟩
            · rw [e'] at hm2; cases hm2; rfl
            · rw [e'] at hm2; cases hm2
          subst hw2
          rcases emplace_cases w vi v with e' | ⟨b, hb, hl, e'⟩
          · rw [e'] at hm; cases hm
          · rw [e'] at hm
            cases hm
            cases p with
            | obj a => rw [valueAt_setElems_obj]; exact e2
            | slot b' k =>
              rw [valueAt_setElems]
              by_cases hh : World.Holds { w with bufs := upd w.bufs b (some (w.elems vi ++ [v])) } vi b'
              · rw [if_pos hh]
                have hh' : w.Holds vi b' := hh
                have hbb : b' = b := by
                  unfold World.Holds at hh' hb
                  rw [hb] at hh'
                  cases hh'; rfl
                subst hbb
                rw [elems_of_holds hh]
                dsimp only
                rw [upd_same]
                show ((w.elems vi ++ [v]).dropLast)[k]? = _
                rw [List.dropLast_concat, ← valueAt_holds hb]
                exact hp
              · rw [if_neg hh]; exact e2
  | lookup ki vi key =>
    refine none_of (fun h => h) ?_
    rw [step] at h
    split at h
    · split at h
      · cases h; exact hp
      · cases h
    · cases h; exact hp

theorem step_sane {w w' : World} {s : Stmt} {o : Seen} (hs : Sane w) (h : step w s = .ok (w', o)) : Sane w' := by
  cases s with
  | setObj a v =>
    rw [step] at h
    split at h
    · cases h; exact hs.assign _ _
    · cases h
  | readObj a => rw [step] at h; split at h <;> cases h; exact hs
  | endObj a => cases h; exact hs.same rfl rfl rfl
  | bind r a => rw [step] at h; split at h <;> cases h; exact hs.same rfl rfl rfl
  | fail r e => cases h; exact hs.same rfl rfl rfl
  | moveNew r t => rw [step] at h; split at h <;> cases h; exact hs.same rfl rfl rfl
  | swap r t => cases h; exact hs.same rfl rfl rfl
  | read r =>
    rw [step] at h
    split at h
    · cases h; exact hs
    · split at h <;> cases h; exact hs
  | write r v =>
    rw [step] at h
    split at h
    · cases h; exact hs
    · split at h <;> cases h; exact hs.assign _ _
  | error r => rw [step] at h; split at h <;> cases h <;> exact hs
  | thenSet t r v =>
    rw [step] at h
    split at h
    · cases h; exact hs.same rfl rfl rfl
    · split at h <;> cases h; exact (hs.assign _ _).same rfl rfl rfl
  | mapError t r k => rw [step] at h; split at h <;> cases h <;> exact hs.same rfl rfl rfl
  | orElse t r a =>
    rw [step] at h
    split at h
    · cases h; exact hs.same rfl rfl rfl
    · split at h <;> cases h; exact hs.same rfl rfl rfl
  | vec i cap => cases h; exact hs.fresh i cap
  | push r i v => cases h; exact (hs.emplace i v).same rfl rfl rfl
  | pop i => cases h; exact hs.setElems i _ (by simp)
  | clear i => cases h; exact hs.setElems i _ (by simp)
  | readAt i k => rw [step] at h; split at h <;> cases h <;> exact hs
  | setAt i k v =>
    rw [step] at h
    split at h
    · cases h; exact hs.setElems i _ (by simp)
    · cases h; exact hs
  | moveVec i j =>
    rw [step] at h
    split at h
    · cases h
    · rename_i hij; cases h; exact hs.moved hij
  | swapVec i j => cases h; exact hs.swapped i j
  | dropVec i => cases h; exact hs.drop i
  | put r ki vi key v =>
    rw [step] at h
    split at h
    · cases h
    · have h1 := hs.emplace vi v
      rcases hm : w.emplace vi v with ⟨w1, q⟩
      rw [hm] at h h1
      cases q with
      | error e => cases h; exact h1.same rfl rfl rfl
      | ok q =>
        dsimp only at h
        have h2 := h1.emplace ki key
        rcases hm2 : w1.emplace ki key with ⟨w2, q2⟩
        rw [hm2] at h h2
        cases q2 with
        | ok q2 => cases h; exact h2.same rfl rfl rfl
        | error e => cases h; exact (h2.setElems vi _ (by simp)).same rfl rfl rfl
  | lookup ki vi key =>
    rw [step] at h
    split at h
    · split at h <;> cases h; exact hs
    · cases h; exact hs

theorem assign_ress (w : World) (p : Place) (v : Nat) : (w.assign p v).ress = w.ress := by cases p <;> rfl

theorem step_ress {w w' : World} {s : Stmt} {o : Seen} (h : step w s = .ok (w', o)) (r : Nat) (hr : r ∉ targets s) : w'.ress r = w.ress r := by
  cases s with
  | setObj a v =>
    rw [step] at h
    split at h
    · cases h; rw [assign_ress]
    · cases h
  | readObj a => rw [step] at h; split at h <;> cases h; rfl
  | endObj a => cases h; rfl
  | bind t a =>
    have hr : r ≠ t := by simpa [targets] using hr
    rw [step] at h; split at h <;> cases h; exact upd_other _ _ hr
  | fail t e =>
    have hr : r ≠ t := by simpa [targets] using hr
    cases h; exact upd_other _ _ hr
  | moveNew t u =>
    have hr : r ≠ t := by simpa [targets] using hr
    rw [step] at h; split at h <;> cases h; exact upd_other _ _ hr
  | swap t u =>
    have hr : r ≠ t ∧ r ≠ u := by simpa [targets] using hr
    cases h
    dsimp only
    rw [upd_other _ _ hr.2, upd_other _ _ hr.1]
  | read t =>
    rw [step] at h
    split at h
    · cases h; rfl
    · split at h <;> cases h; rfl
  | write t v =>
    rw [step] at h
    split at h
    · cases h; rfl
    · split at h <;> cases h; rw [assign_ress]
  | error t => rw [step] at h; split at h <;> cases h <;> rfl
  | thenSet t u v =>
    have hr : r ≠ t := by simpa [targets] using hr
    rw [step] at h
    split at h
    · cases h; exact upd_other _ _ hr
    · split at h <;> cases h; exact upd_other _ _ hr
  | mapError t u k =>
    have hr : r ≠ t := by simpa [targets] using hr
    rw [step] at h; split at h <;> cases h <;> exact upd_other _ _ hr
  | orElse t u a =>
    have hr : r ≠ t := by simpa [targets] using hr
    rw [step] at h
    split at h
    · cases h; exact upd_other _ _ hr
    · split at h <;> cases h; exact upd_other _ _ hr
  | vec i cap => cases h; dsimp only; rw [drop_ress]
  | push t i v =>
    have hr : r ≠ t := by simpa [targets] using hr
    cases h; exact upd_other _ _ hr
  | pop i => cases h; rw [setElems_ress]
  | clear i => cases h; rw [setElems_ress]
  | readAt i k => rw [step] at h; split at h <;> cases h <;> rfl
  | setAt i k v =>
    rw [step] at h
    split at h
    · cases h; rw [setElems_ress]
    · cases h; rfl
  | moveVec i j =>
    rw [step] at h
    split at h
    · cases h
    · cases h; dsimp only; rw [drop_ress]
  | swapVec i j => cases h; rfl
  | dropVec i => cases h; rw [drop_ress]
  | put t ki vi key v =>
    have hr : r ≠ t := by simpa [targets] using hr
    rw [step] at h
    split at h
    · cases h
    · split at h
      · cases h; exact upd_other _ _ hr
      · split at h
        · cases h; exact upd_other _ _ hr
        · cases h; exact upd_other _ _ hr
  | lookup ki vi key =>
    rw [step] at h
    split at h
    · split at h <;> cases h; rfl
    · cases h; rfl

theorem elems_eq {w : World} {i b : Nat} {es : List Nat} (h : w.Holds i b) (hb : w.bufs b = some es) : w.elems i = es := by
  rw [elems_of_holds h, hb]; rfl

theorem lookup_last {w : World} {ki vi key v : Nat} {ks vs : List Nat} (hk : w.elems ki = ks ++ [key]) (hv : w.elems vi = vs ++ [v])
    (hl : ks.length = vs.length) (hn : key ∉ ks) : step w (.lookup ki vi key) = .ok (w, .value v) := by
  simp only [step, hk, hv]
  have idx : (ks ++ [key]).idxOf key = vs.length := by
    rw [List.idxOf_append, if_neg hn]
    simp [hl]
  rw [if_pos (by simp), idx]
  simp

end Solace.ResRef
