import Verif.Spec.DtorThrow
/-
C152: elements whose destructors throw.
-/
namespace Solace.DtorThrow
open Lifetime

/-! ### Logs -/

theorem replay_append (as : List Event) : ∀ (s : State) (bs : List Event), replay s (as ++ bs) = (replay s as).bind fun s' => replay s' bs := by
  induction as with
  | nil => intro s bs; rfl
  | cons a as ih =>
    intro s bs
    rw [List.cons_append, replay, replay]
    cases Lifetime.step s a with
    | none => rfl
    | some s' => exact ih s' bs

theorem replay_destroys (xs : List Nat) : ∀ (s : State), s.alive.Nodup → (∀ id, xs.count id ≤ s.alive.count id) →
    ∃ s', replay s (xs.map .destroy) = some s' ∧ s'.seen = s.seen ∧ s'.alive.Nodup ∧ ∀ id, s'.alive.count id + xs.count id = s.alive.count id := by
  induction xs with
  | nil => intro s hn _; exact ⟨s, rfl, rfl, hn, fun id => rfl⟩
  | cons x xs ih =>
    intro s hn h
    have hx : x ∈ s.alive := by
      have := h x
      rw [List.count_cons_self] at this
      exact List.count_pos_iff.mp (by omega)
    obtain ⟨s', h1, h2, h3, h4⟩ := ih ⟨s.seen, s.alive.erase x⟩ (hn.erase x) fun id => by
      have := h id
      rw [List.count_cons] at this
      rw [List.count_erase]
      split at this <;> simp_all <;> omega
    refine ⟨s', ?_, h2, h3, fun id => ?_⟩
    · rw [List.map_cons, replay, Lifetime.step, if_pos hx]
      exact h1
    · have := h4 id
      rw [List.count_erase] at this
      rw [List.count_cons]
      have hc := List.count_pos_iff.mpr hx
      by_cases he : x = id
      · subst he
        simp at this ⊢
        omega
      · have : (x == id) = false := by simpa using he
        simp_all

theorem replay_constructs (n : Nat) : ∀ (base : Nat) (s : State), s.alive.Nodup → (∀ id ∈ s.seen, id < base) → (∀ id ∈ s.alive, id < base) →
    ∃ s', replay s ((List.range' base n).map .construct) = some s' ∧ (∀ id ∈ s'.seen, id < base + n) ∧ (∀ id ∈ s'.alive, id < base + n) ∧
      s'.alive.Nodup ∧ ∀ id, s'.alive.count id = s.alive.count id + (List.range' base n).count id := by
  induction n with
  | zero => intro base s hn h h'; exact ⟨s, rfl, h, h', hn, fun id => rfl⟩
  | succ n ih =>
    intro base s hn h ha
    have hf : base ∉ s.seen := fun hb => Nat.lt_irrefl _ (h base hb)
    have hfa : base ∉ s.alive := fun hb => Nat.lt_irrefl _ (ha base hb)
    obtain ⟨s', h1, h2, h2', h3, h4⟩ := ih (base + 1) ⟨base :: s.seen, base :: s.alive⟩ (List.nodup_cons.mpr ⟨hfa, hn⟩)
      (fun id hid => by
        rcases List.mem_cons.mp hid with rfl | hid
        · omega
        · have := h id hid; omega)
      (fun id hid => by
        rcases List.mem_cons.mp hid with rfl | hid
        · omega
        · have := ha id hid; omega)
    refine ⟨s', ?_, fun id hid => by have := h2 id hid; omega, fun id hid => by have := h2' id hid; omega, h3, fun id => ?_⟩
    · rw [List.range'_succ, List.map_cons, replay, Lifetime.step, if_neg hf]
      exact h1
    · rw [h4 id, List.range'_succ, List.count_cons, List.count_cons]
      omega

/-! ### Destructors one after the other -/

section
variable {nothrow : Bool} {bad : Nat → Bool}

theorem dtor_returns {x : Nat} : dtor nothrow bad x = .returns ↔ bad x = false := by
  unfold dtor
  cases bad x <;> cases nothrow <;> simp [End.spec]

theorem dtor_bad {x : Nat} (h : bad x = true) : dtor nothrow bad x = if nothrow then .terminates else .throws (.dtor x) := by
  unfold dtor
  rw [if_pos h]
  rfl

theorem destroyAll_prefix (xs : List Nat) : ∃ rest, xs = (destroyAll nothrow bad xs).1 ++ rest ∧
    ((destroyAll nothrow bad xs).2 = .returns → rest = []) := by
  induction xs with
  | nil => exact ⟨[], rfl, fun _ => rfl⟩
  | cons x xs ih =>
    obtain ⟨rest, h1, h2⟩ := ih
    rw [destroyAll]
    split
    · exact ⟨rest, by conv => lhs; rw [h1]
                      rfl, h2⟩
    · rename_i hne
      exact ⟨xs, rfl, fun h => absurd h hne⟩

/-- Without a destructor that throws, all are called. -/
theorem destroyAll_good (xs : List Nat) (h : ∀ x ∈ xs, bad x = false) : destroyAll nothrow bad xs = (xs, .returns) := by
  induction xs with
  | nil => rfl
  | cons x xs ih =>
    rw [destroyAll, dtor_returns.mpr (h x List.mem_cons_self), ih fun y hy => h y (List.mem_cons_of_mem _ hy)]

/-- Otherwise those up to the first one that throws. -/
theorem destroyAll_bad (as : List Nat) (x : Nat) (bs : List Nat) (h : ∀ y ∈ as, bad y = false) (hx : bad x = true) :
    destroyAll nothrow bad (as ++ x :: bs) = (as ++ [x], if nothrow then .terminates else .throws (.dtor x)) := by
  induction as with
  | nil =>
    rw [List.nil_append, destroyAll, dtor_bad hx]
    cases nothrow <;> rfl
  | cons a as ih =>
    rw [List.cons_append, destroyAll, dtor_returns.mpr (h a List.mem_cons_self), ih fun y hy => h y (List.mem_cons_of_mem _ hy)]
    rfl

/-- The first of several that throws. -/
theorem first_bad (xs : List Nat) : (∀ x ∈ xs, bad x = false) ∨ ∃ as x bs, xs = as ++ x :: bs ∧ (∀ y ∈ as, bad y = false) ∧ bad x = true := by
  induction xs with
  | nil => exact .inl fun _ h => by cases h
  | cons x xs ih =>
    cases hx : bad x with
    | true => exact .inr ⟨[], x, xs, rfl, fun _ h => (by cases h), hx⟩
    | false =>
      rcases ih with h | ⟨as, y, bs, rfl, h2, h3⟩
      · exact .inl fun y hy => by
          rcases List.mem_cons.mp hy with rfl | hy
          · exact hx
          · exact h y hy
      · exact .inr ⟨x :: as, y, bs, rfl, fun z hz => by
          rcases List.mem_cons.mp hz with rfl | hz
          · exact hx
          · exact h2 z hz, h3⟩

theorem last_bad (xs : List Nat) : (∀ x ∈ xs, bad x = false) ∨ ∃ as x bs, xs = as ++ x :: bs ∧ (∀ y ∈ bs, bad y = false) ∧ bad x = true := by
  rcases first_bad (bad := bad) xs.reverse with h | ⟨as, x, bs, h1, h2, h3⟩
  · exact .inl fun x hx => h x (List.mem_reverse.mpr hx)
  · refine .inr ⟨bs.reverse, x, as.reverse, ?_, fun y hy => h2 y (List.mem_reverse.mp hy), h3⟩
    rw [← List.reverse_reverse xs, h1, List.reverse_append, List.reverse_cons, List.append_assoc, List.singleton_append]

/-! ### `pop_back` and `clear` -/

theorem popBack_eq (xs : List Nat) (x : Nat) : popBack nothrow bad (xs ++ [x]) = (xs, [x], dtor nothrow bad x) := by
  rw [popBack, List.getLast?_concat, List.dropLast_concat]
  dsimp only
  unfold dtor
  cases bad x <;> cases nothrow <;> rfl

theorem clearLoop_good (n : Nat) : ∀ (es : List Nat), es.length = n → (∀ x ∈ es, bad x = false) →
    clearLoop nothrow bad (n + 1) es = some ([], es.reverse, .returns) := by
  induction n with
  | zero =>
    intro es hl _
    have := List.length_eq_zero_iff.mp hl
    subst this
    rfl
  | succ n ih =>
    intro es hl h
    obtain ⟨xs, x, rfl⟩ : ∃ xs x, es = xs ++ [x] := by
      have hne : es ≠ [] := by intro h; rw [h] at hl; cases hl
      exact ⟨_, _, (List.dropLast_concat_getLast hne).symm⟩
    rw [clearLoop, if_pos (by omega), popBack_eq, dtor_returns.mpr (h x (by simp))]
    dsimp only
    rw [ih xs (by simpa using hl) fun y hy => h y (by simp [hy])]
    simp

theorem clearLoop_bad (as : List Nat) (x : Nat) (hx : bad x = true) (n : Nat) : ∀ (bs : List Nat), bs.length = n → (∀ y ∈ bs, bad y = false) →
    clearLoop nothrow bad (as.length + n + 2) (as ++ x :: bs) = some (as, bs.reverse ++ [x], if nothrow then .terminates else .throws (.dtor x)) := by
  induction n with
  | zero =>
    intro bs hl _
    have := List.length_eq_zero_iff.mp hl
    subst this
    rw [clearLoop, if_pos (by simp), popBack_eq, dtor_bad hx]
    cases nothrow <;> rfl
  | succ n ih =>
    intro bs hl h
    obtain ⟨ys, y, rfl⟩ : ∃ ys y, bs = ys ++ [y] := by
      have hne : bs ≠ [] := by intro h; rw [h] at hl; cases hl
      exact ⟨_, _, (List.dropLast_concat_getLast hne).symm⟩
    have e : as ++ x :: (ys ++ [y]) = (as ++ x :: ys) ++ [y] := by simp
    rw [e, clearLoop, if_pos (by simp only [List.length_append, List.length_singleton]; omega), popBack_eq, dtor_returns.mpr (h y (by simp))]
    dsimp only
    rw [show as.length + (n + 1) + 1 = as.length + n + 2 from by omega, ih ys (by simpa using hl) fun z hz => h z (by simp [hz])]
    simp

theorem clearLoop_conserves (es : List Nat) : ∃ r, clearLoop nothrow bad (es.length + 1) es = some r ∧ es = r.1 ++ r.2.1.reverse := by
  rcases last_bad (bad := bad) es with h | ⟨as, x, bs, rfl, h2, h3⟩
  · exact ⟨_, clearLoop_good _ es rfl h, by simp⟩
  · refine ⟨(as, bs.reverse ++ [x], if nothrow then .terminates else .throws (.dtor x)), ?_, ?_⟩
    · rw [show (as ++ x :: bs).length + 1 = as.length + bs.length + 2 from by simp; omega]
      exact clearLoop_bad as x h3 _ bs rfl h2
    · simp

/-! ### The loop under a guard -/

theorem guardLoop_ok (throwsAt : Nat → Bool) (base left : Nat) : ∀ (pos : Nat), (∀ j, pos ≤ j → j < pos + left → throwsAt j = false) →
    guardLoop nothrow bad throwsAt base left pos = ((List.range' (base + pos) left).map .construct, .returns) := by
  induction left with
  | zero =>
    intro pos _
    have : Guard.dtor pos pos = [] := by cases pos <;> simp [Guard.dtor]
    rw [guardLoop, this]
    rfl
  | succ left ih =>
    intro pos h
    have hp : throwsAt pos = false := h pos (Nat.le_refl _) (by omega)
    rw [guardLoop, hp, ih (pos + 1) fun j h1 h2 => h j (by omega) (by omega), List.range'_succ]
    rfl

theorem guard_dtor_zero (p : Nat) : Guard.dtor 0 p = (List.range p).reverse := by
  induction p with
  | zero => rfl
  | succ p ih => rw [Guard.dtor, if_pos (by omega), ih, List.range_succ, List.reverse_append]; rfl

theorem guardLoop_throws (throwsAt : Nat → Bool) (base : Nat) (k : Nat) : ∀ (left pos : Nat), k < left → throwsAt (pos + k) = true →
    (∀ j, pos ≤ j → j < pos + k → throwsAt j = false) →
    guardLoop nothrow bad throwsAt base left pos =
      ((List.range' (base + pos) k).map .construct ++
        (unwind nothrow bad (((List.range (pos + k)).reverse).map (base + ·)) .ctor).1.map .destroy,
      (unwind nothrow bad (((List.range (pos + k)).reverse).map (base + ·)) .ctor).2) := by
  induction k with
  | zero =>
    intro left pos hl ht _
    obtain ⟨l, rfl⟩ : ∃ l, left = l + 1 := ⟨left - 1, by omega⟩
    rw [Nat.add_zero] at ht
    rw [guardLoop, if_pos ht, guard_dtor_zero]
    rfl
  | succ k ih =>
    intro left pos hl ht h
    obtain ⟨l, rfl⟩ : ∃ l, left = l + 1 := ⟨left - 1, by omega⟩
    have hp : throwsAt pos = false := h pos (Nat.le_refl _) (by omega)
    have e : pos + 1 + k = pos + (k + 1) := by omega
    rw [guardLoop, hp, ih l (pos + 1) (by omega) (by rw [e]; exact ht) fun j h1 h2 => h j (by omega) (by omega), e, List.range'_succ]
    rfl

theorem first_throw (throwsAt : Nat → Bool) (n : Nat) : (∀ j, j < n → throwsAt j = false) ∨
    ∃ k, k < n ∧ throwsAt k = true ∧ ∀ j, j < k → throwsAt j = false := by
  induction n with
  | zero => exact .inl fun j h => by omega
  | succ n ih =>
    rcases ih with h | ⟨k, h1, h2, h3⟩
    · cases hn : throwsAt n with
      | true => exact .inr ⟨n, by omega, hn, h⟩
      | false =>
        refine .inl fun j hj => ?_
        by_cases he : j = n
        · subst he; exact hn
        · exact h j (by omega)
    · exact .inr ⟨k, by omega, h2, h3⟩

end

/-! ### The variables -/

theorem get_eq {w : World} {v : Nat} {x : Var} (h : w.get v = some x) : w.vars[v]? = some (some x) := by
  unfold World.get at h
  cases hv : w.vars[v]? with
  | none => rw [hv] at h; cases h
  | some y => rw [hv] at h; cases h; rfl

theorem owned_set (vars : List (Option Var)) : ∀ (v : Nat) (x : Var) (y : Option Var) (id : Nat), vars[v]? = some (some x) →
    (owned (vars.set v y)).count id + x.owned.count id = (owned vars).count id + (ownedBy y).count id := by
  induction vars with
  | nil => intro v x y id h; simp at h
  | cons o vars ih =>
    intro v x y id h
    cases v with
    | zero =>
      cases h
      show (ownedBy y ++ owned vars).count id + _ = (x.owned ++ owned vars).count id + _
      rw [List.count_append, List.count_append]
      omega
    | succ v =>
      have := ih v x y id h
      show (ownedBy o ++ owned (vars.set v y)).count id + _ = (ownedBy o ++ owned vars).count id + _
      rw [List.count_append, List.count_append]
      omega

theorem owned_append (vars : List (Option Var)) (y : Var) (id : Nat) :
    (owned (vars ++ [some y])).count id = (owned vars).count id + y.owned.count id := by
  unfold owned
  rw [List.flatMap_append, List.count_append]
  simp [ownedBy]

theorem owned_le {w : World} {v : Nat} {x : Var} (h : w.get v = some x) (id : Nat) : x.owned.count id ≤ (owned w.vars).count id := by
  have := owned_set w.vars v x none id (get_eq h)
  simp only [ownedBy, List.count_nil] at this
  omega

/-! ### Legal steps -/

def Legal (log : List Event) : Prop := ∃ s, replay ⟨[], []⟩ log = some s

theorem alive_seen (log : List Event) : ∀ (s s' : State), (∀ id ∈ s.alive, id ∈ s.seen) → replay s log = some s' → ∀ id ∈ s'.alive, id ∈ s'.seen := by
  induction log with
  | nil => intro s s' h e; cases e; exact h
  | cons a log ih =>
    intro s s' h e
    rw [replay] at e
    cases ha : Lifetime.step s a with
    | none => rw [ha] at e; cases e
    | some t =>
      rw [ha] at e
      refine ih t s' ?_ e
      cases a <;> rw [Lifetime.step] at ha
      · split at ha
        · cases ha
        · cases ha
          intro id hid
          rcases List.mem_cons.mp hid with rfl | hid
          · exact List.mem_cons_self
          · exact List.mem_cons_of_mem _ (h id hid)
      · split at ha
        · cases ha
          exact fun id hid => h id (List.mem_of_mem_erase hid)
        · cases ha
      · split at ha
        · cases ha; exact h
        · cases ha
      · cases ha

/-- Destructor calls, then constructor calls, then destructor calls. -/
theorem sound_events {w : World} (h : Sound w) (d1 : List Nat) (n : Nat) (d2 : List Nat) (h1 : ∀ id, d1.count id ≤ (owned w.vars).count id)
    (h2 : ∀ id, d1.count id + d2.count id ≤ (owned w.vars).count id + (List.range' w.next n).count id) :
    ∃ s, replay ⟨[], []⟩ (w.log ++ (d1.map .destroy ++ ((List.range' w.next n).map .construct ++ d2.map .destroy))) = some s ∧
      (∀ id ∈ s.seen, id < w.next + n) ∧ s.alive.Nodup ∧
      ∀ id, s.alive.count id + d1.count id + d2.count id = (owned w.vars).count id + (List.range' w.next n).count id := by
  obtain ⟨s, e, hs, hn, hc⟩ := h
  obtain ⟨s1, e1, b1, c1, k1⟩ := replay_destroys d1 s hn fun id => by rw [← hc]; exact h1 id
  have hal : ∀ id ∈ s1.alive, id < w.next := fun id hid => hs id (b1 ▸ alive_seen (w.log ++ d1.map .destroy) ⟨[], []⟩ s1 (fun _ h => by cases h)
    (by rw [replay_append, e]; exact e1) id hid)
  obtain ⟨s2, e2, b2, _, c2, k2⟩ := replay_constructs n w.next s1 c1 (by rw [b1]; exact hs) hal
  obtain ⟨s3, e3, b3, c3, k3⟩ := replay_destroys d2 s2 c2 fun id => by
    have := h2 id; have := k2 id; have := k1 id; have := hc id; omega
  refine ⟨s3, ?_, by rw [b3]; exact b2, c3, fun id => ?_⟩
  · rw [replay_append, e]
    show replay s _ = _
    rw [replay_append, e1]
    show replay s1 _ = _
    rw [replay_append, e2]
    exact e3
  · have := k3 id; have := k2 id; have := k1 id; have := hc id; omega

theorem sound_step {w : World} (h : Sound w) {vars : List (Option Var)} (d1 : List Nat) (n : Nat) (d2 : List Nat)
    (h1 : ∀ id, d1.count id ≤ (owned w.vars).count id)
    (h2 : ∀ id, (owned vars).count id + d1.count id + d2.count id = (owned w.vars).count id + (List.range' w.next n).count id) :
    Sound ⟨vars, w.log ++ (d1.map .destroy ++ ((List.range' w.next n).map .construct ++ d2.map .destroy)), w.next + n⟩ := by
  obtain ⟨s, e, a, b, c⟩ := sound_events h d1 n d2 h1 fun id => by have := h2 id; omega
  exact ⟨s, e, a, b, fun id => by have := h2 id; have := c id; show (owned vars).count id = _; omega⟩

/-- Destructor calls alone. -/
theorem sound_destroys {w : World} (h : Sound w) {vars : List (Option Var)} (ds : List Nat)
    (h2 : ∀ id, (owned vars).count id + ds.count id = (owned w.vars).count id) : Sound ⟨vars, w.log ++ ds.map .destroy, w.next⟩ := by
  have := sound_step h (vars := vars) [] 0 ds (fun id => Nat.zero_le _) fun id => by
    have := h2 id; simp only [List.count_nil, List.range'_zero]; omega
  simpa using this

theorem legal_destroys {w : World} (h : Sound w) (ds : List Nat) (h2 : ∀ id, ds.count id ≤ (owned w.vars).count id) :
    Legal (w.log ++ ds.map .destroy) := by
  obtain ⟨s, e, _⟩ := sound_events h [] 0 ds (fun id => Nat.zero_le _) fun id => by
    have := h2 id; simp only [List.count_nil, List.range'_zero]; omega
  exact ⟨s, by simpa using e⟩

/-- Only the variables change hands. -/
theorem sound_moved {w : World} (h : Sound w) {vars : List (Option Var)} (h2 : ∀ id, (owned vars).count id = (owned w.vars).count id) :
    Sound ⟨vars, w.log, w.next⟩ := by
  have := sound_destroys h (vars := vars) [] fun id => by rw [h2 id]; rfl
  simpa using this

theorem sound_construct {w : World} (h : Sound w) {vars : List (Option Var)}
    (h2 : ∀ id, (owned vars).count id = (owned w.vars).count id + [w.next].count id) :
    Sound ⟨vars, w.log ++ [.construct w.next], w.next + 1⟩ := by
  have := sound_step h (vars := vars) [] 1 [] (fun id => Nat.zero_le _) fun id => by
    have := h2 id; simp only [List.count_nil, List.range'_one] at this ⊢; omega
  simpa using this

theorem sound_replace {w : World} (h : Sound w) {vars : List (Option Var)} (x : Nat) (h1 : ∀ id, [x].count id ≤ (owned w.vars).count id)
    (h2 : ∀ id, (owned vars).count id + [x].count id = (owned w.vars).count id + [w.next].count id) :
    Sound ⟨vars, w.log ++ [.destroy x, .construct w.next], w.next + 1⟩ := by
  have := sound_step h (vars := vars) [x] 1 [] h1 fun id => by
    have := h2 id; simp only [List.count_nil, List.range'_one] at this ⊢; omega
  simpa using this

/-- An object that a variable owns is used. -/
theorem sound_use {w : World} (h : Sound w) {x : Nat} (hx : x ∈ owned w.vars) : Sound ⟨w.vars, w.log ++ [.use x], w.next⟩ := by
  obtain ⟨s, e, h1, h2, h3⟩ := h
  have : x ∈ s.alive := List.count_pos_iff.mp (by rw [← h3 x]; exact List.count_pos_iff.mpr hx)
  exact ⟨s, by rw [replay_append, e]; show replay s _ = _; rw [replay, Lifetime.step, if_pos this]; rfl, h1, h2, h3⟩

theorem owned_mem {vars : List (Option Var)} {v : Nat} {y : Var} {x : Nat} (h : vars[v]? = some (some y)) (hx : x ∈ y.owned) : x ∈ owned vars :=
  List.mem_flatMap.mpr ⟨some y, List.mem_of_getElem? h, hx⟩

theorem Sound.legal {w : World} (h : Sound w) : Legal w.log := by obtain ⟨s, e, _⟩ := h; exact ⟨s, e⟩

/-! ### Every statement -/

theorem count_set_nat (es : List Nat) : ∀ (i x y id : Nat), es[i]? = some x →
    (es.set i y).count id + [x].count id = es.count id + [y].count id := by
  induction es with
  | nil => intro i x y id h; simp at h
  | cons a es ih =>
    intro i x y id h
    cases i with
    | zero =>
      cases h
      rw [List.set_cons_zero]
      simp only [List.count_cons, List.count_nil]
      omega
    | succ i =>
      have := ih i x y id h
      rw [List.set_cons_succ]
      simp only [List.count_cons, List.count_nil] at this ⊢
      omega

theorem count_mem (es : List Nat) {i x : Nat} (h : es[i]? = some x) (id : Nat) : [x].count id ≤ es.count id := by
  rw [List.count_singleton]
  split
  · rename_i he
    have : x = id := by simpa using he
    subst this
    exact List.count_pos_iff.mpr (List.mem_of_getElem? h)
  · omega

section
variable {nothrow : Bool} {bad : Nat → Bool}

theorem destroyAll_le (xs : List Nat) (id : Nat) : (destroyAll nothrow bad xs).1.count id ≤ xs.count id := by
  obtain ⟨rest, h, _⟩ := destroyAll_prefix (nothrow := nothrow) (bad := bad) xs
  conv => rhs; rw [h]
  rw [List.count_append]
  omega

theorem destroyAll_eq {xs : List Nat} (h : (destroyAll nothrow bad xs).2 = .returns) : (destroyAll nothrow bad xs).1 = xs := by
  obtain ⟨rest, h1, h2⟩ := destroyAll_prefix (nothrow := nothrow) (bad := bad) xs
  rw [h2 h, List.append_nil] at h1
  exact h1.symm

/-- What is proved of every statement. -/
def Fine (nothrow : Bool) (bad : Nat → Bool) (w : World) (o : Op) (r : World × End) : Prop :=
  Legal r.1.log ∧ (¬ Hazard nothrow bad w o → r.2 ≠ .terminates → Sound r.1)

theorem fine_sound {w : World} {o : Op} {r : World × End} (h : Sound r.1) : Fine nothrow bad w o r := ⟨h.legal, fun _ _ => h⟩

theorem range_reverse (base k : Nat) : ((List.range k).reverse).map (base + ·) = (List.range' base k).reverse := by
  rw [List.map_reverse, List.range_eq_range', List.map_add_range', Nat.add_zero]

theorem build_fine {w : World} (h : Sound w) (o : Op) (mk : List Nat → Var) (hmk : ∀ es, (mk es).owned = es) (n : Nat) (t : List Nat) :
    Fine nothrow bad w o (build nothrow bad w mk n t) := by
  unfold build
  rcases first_throw (fun i => t.contains i) n with ht | ⟨k, h1, h2, h3⟩
  · rw [guardLoop_ok (fun i => t.contains i) w.next n 0 fun j _ hj => ht j (by omega)]
    dsimp only
    refine fine_sound ?_
    have := sound_step h (vars := w.vars ++ [some (mk (List.range' w.next n))]) [] n [] (fun id => Nat.zero_le _) fun id => by
      rw [owned_append, hmk]; simp
    simpa using this
  · have hu : ∀ id, (unwind nothrow bad ((List.range' w.next k).reverse) .ctor).1.count id ≤ (List.range' w.next k).count id := by
      intro id
      have := destroyAll_le (nothrow := nothrow) (bad := bad) (List.range' w.next k).reverse id
      rw [List.count_reverse] at this
      unfold unwind
      split <;> simp_all
    rw [guardLoop_throws (fun i => t.contains i) w.next k n 0 h1 (by rw [Nat.zero_add]; exact h2) fun j _ hj => h3 j (by omega)]
    rw [Nat.zero_add, Nat.add_zero, range_reverse]
    have hend : (unwind nothrow bad ((List.range' w.next k).reverse) .ctor).2 = .returns → False := by
      unfold unwind; split <;> simp
    split
    · rename_i e; exact (hend (congrArg Prod.snd e)).elim
    · rename_i log e _ he
      have e1 := congrArg Prod.fst he
      have e2 := congrArg Prod.snd he
      dsimp only at e1 e2
      subst e1 e2
      obtain ⟨s, r1, r2, r3, r4⟩ := sound_events h [] k (unwind nothrow bad ((List.range' w.next k).reverse) .ctor).1 (fun id => Nat.zero_le _)
        fun id => by have := hu id; simp only [List.count_nil]; omega
      rw [List.map_nil, List.nil_append] at r1
      refine ⟨⟨s, r1⟩, fun _ hne => ⟨s, r1, fun id hid => by have := r2 id hid; show id < w.next + n; omega, r3, fun id => ?_⟩⟩
      have := r4 id
      have hd : (unwind nothrow bad ((List.range' w.next k).reverse) .ctor).1 = (List.range' w.next k).reverse := by
        revert hne
        unfold unwind
        split
        · rename_i d e
          intro _
          have e2 := congrArg Prod.snd e
          have := destroyAll_eq e2
          rw [e] at this
          exact this
        · intro hne; exact absurd rfl hne
      rw [hd, List.count_reverse, List.count_nil] at this
      show (owned w.vars).count id = _
      omega

theorem set_count {w : World} {v : Nat} {x : Var} (hv : w.get v = some x) (y : Var) (id : Nat) :
    (owned (w.vars.set v (some y))).count id + x.owned.count id = (owned w.vars).count id + y.owned.count id :=
  owned_set w.vars v x (some y) id (get_eq hv)

theorem two_get {w : World} {a b : Nat} {y : Var} (hb : w.get b = some y) (x' : Var) (hne : a ≠ b) :
    (w.vars.set a (some x'))[b]? = some (some y) := by
  rw [List.getElem?_set, if_neg hne]
  exact get_eq hb

theorem swap_count {w : World} {a b : Nat} {x y : Var} (ha : w.get a = some x) (hb : w.get b = some y) (id : Nat) :
    (owned ((w.vars.set a (some y)).set b (some x))).count id = (owned w.vars).count id := by
  by_cases hne : a = b
  · subst hne
    rw [ha] at hb
    cases hb
    rw [List.set_set]
    have := set_count ha x id
    omega
  · have h1 := owned_set (w.vars.set a (some y)) b y (some x) id (two_get hb y hne)
    have h2 := set_count ha y id
    have h3 : ownedBy (some x) = x.owned := rfl
    rw [h3] at h1
    omega

theorem two_count {w : World} {a b : Nat} {x y x' y' : Var} (ha : w.get a = some x) (hb : w.get b = some y) (hne : a ≠ b) (id : Nat) :
    (owned ((w.vars.set a (some x')).set b (some y'))).count id + x.owned.count id + y.owned.count id =
      (owned w.vars).count id + x'.owned.count id + y'.owned.count id := by
  have h1 := owned_set (w.vars.set a (some x')) b y (some y') id (two_get hb x' hne)
  have h2 := set_count ha x' id
  have h3 : ownedBy (some y') = y'.owned := rfl
  rw [h3] at h1
  omega

/-- The element that is replaced, in a vector or an array. -/
theorem emplace_fine {w : World} (h : Sound w) (v i x : Nat) (throws : Bool) (es : List Nat) (mk : List Nat → Var) (hmk : ∀ fs, (mk fs).owned = fs)
    (hv : w.get v = some (mk es)) (hk : (∃ c, w.get v = some (.vec c es)) ∨ w.get v = some (.arr es)) (hx : es[i]? = some x) :
    Fine nothrow bad w (.emplaceAt v i throws) (match dtor nothrow bad x with
      | .returns =>
        if throws then (w.set v (mk es) [.destroy x] w.next, .throws .ctor)
        else (w.set v (mk (es.set i w.next)) [.destroy x, .construct w.next] (w.next + 1), .returns)
      | e => (w.set v (mk es) [.destroy x] w.next, e)) := by
  have hle : ∀ id, [x].count id ≤ (owned w.vars).count id := fun id => by
    have h1 := count_mem es hx id
    have h2 := owned_le hv id
    rw [hmk] at h2
    omega
  have hl : Legal (w.log ++ [.destroy x]) := legal_destroys h [x] hle
  split
  · rename_i hd
    split
    · rename_i ht
      exact ⟨hl, fun hz => absurd ⟨es, x, hk, hx, .inr ⟨dtor_returns.mp hd, ht⟩⟩ hz⟩
    · refine fine_sound (sound_replace h x hle fun id => ?_)
      have h1 := set_count hv (mk (es.set i w.next)) id
      rw [hmk, hmk] at h1
      have h2 := count_set_nat es i x w.next id hx
      omega
  · rename_i hd
    refine ⟨hl, fun hz hne => ?_⟩
    cases hb : bad x with
    | false => exact absurd (dtor_returns.mpr hb) hd
    | true =>
      cases hn : nothrow with
      | false => exact absurd ⟨es, x, hk, hx, .inl ⟨hb, hn⟩⟩ hz
      | true =>
        rw [dtor_bad hb, hn] at hne
        exact absurd rfl hne

theorem step_fine (w : World) (h : Sound w) (o : Op) : Fine nothrow bad w o (step nothrow bad w o) := by
  cases o with
  | vector n =>
    rw [step]
    exact fine_sound (sound_moved h fun id => by rw [owned_append]; rfl)
  | vectorOf n t => rw [step]; exact build_fine h _ (.vec n) (fun _ => rfl) n t
  | array n t => rw [step]; exact build_fine h _ .arr (fun _ => rfl) n t
  | push v throws =>
    rw [step]
    split
    · rename_i c es hv
      split
      · exact fine_sound h
      · split
        · exact fine_sound h
        · refine fine_sound (sound_construct h fun id => ?_)
          have := set_count hv (.vec c (es ++ [w.next])) id
          simp only [Var.owned, List.count_append] at this
          omega
    · exact fine_sound h
  | pop v =>
    rw [step]
    split
    · rename_i c es hv
      refine fine_sound (sound_destroys h _ fun id => ?_)
      have := set_count hv (.vec c (popBack nothrow bad es).1) id
      have hp : es.count id = (popBack nothrow bad es).1.count id + (popBack nothrow bad es).2.1.count id := by
        by_cases hne : es = []
        · subst hne; rfl
        · obtain ⟨xs, x, rfl⟩ : ∃ xs x, es = xs ++ [x] := ⟨_, _, (List.dropLast_concat_getLast hne).symm⟩
          rw [popBack_eq, List.count_append]
      simp only [Var.owned] at this
      omega
    · exact fine_sound h
  | clear v =>
    rw [step]
    split
    · rename_i c es hv
      obtain ⟨r, hr, he⟩ := clearLoop_conserves (nothrow := nothrow) (bad := bad) es
      rw [hr]
      dsimp only
      refine fine_sound (sound_destroys h _ fun id => ?_)
      have := set_count hv (.vec c r.1) id
      have hc := congrArg (List.count id) he
      rw [List.count_append, List.count_reverse] at hc
      simp only [Var.owned] at this
      omega
    · exact fine_sound h
  | null v =>
    rw [step]
    split
    · rename_i c es hv
      have hle : ∀ id, (destroyAll nothrow bad es).1.count id ≤ (owned w.vars).count id := fun id =>
        Nat.le_trans (destroyAll_le es id) (owned_le hv id)
      unfold dispose
      split
      · rename_i d hd
        have hd1 : (destroyAll nothrow bad es).1 = d := by rw [hd]
        have hd2 : (destroyAll nothrow bad es).2 = .returns := by rw [hd]
        refine fine_sound (sound_destroys h _ fun id => ?_)
        have := set_count hv (.vec c []) id
        rw [← hd1, destroyAll_eq hd2]
        simp only [Var.owned, List.count_nil] at this
        omega
      · rename_i d e hne hd
        have hd1 : (destroyAll nothrow bad es).1 = d := by rw [hd]
        refine ⟨by rw [← hd1]; exact legal_destroys h _ hle, fun hz hter => ?_⟩
        exfalso
        rcases first_bad (bad := bad) es with hg | ⟨as, x, bs, rfl, ha, hx⟩
        · rw [destroyAll_good es hg] at hd
          cases hd
          exact hne rfl
        · cases hn : nothrow with
          | false => exact hz (.inl ⟨c, _, hv, hn, x, by simp, hx⟩)
          | true =>
            rw [destroyAll_bad as x bs ha hx, hn] at hd
            cases hd
            exact hter rfl
    · rename_i es hv
      have hle : ∀ id, (destroyAll nothrow bad es).1.count id ≤ (owned w.vars).count id := fun id =>
        Nat.le_trans (destroyAll_le es id) (owned_le hv id)
      refine ⟨legal_destroys h _ hle, fun hz hter => ?_⟩
      unfold dispose at hter ⊢
      by_cases hes : es = []
      · subst hes
        exact sound_destroys h [] fun id => by
          have := set_count hv (.arr []) id
          simp only [List.count_nil]
          omega
      · exfalso
        rcases first_bad (bad := bad) es with hg | ⟨as, x, bs, rfl, ha, hx⟩
        · exact hz (.inr ⟨es, hv, hes, .inr hg⟩)
        · cases hn : nothrow with
          | false => exact hz (.inr ⟨_, hv, hes, .inl hn⟩)
          | true =>
            rw [destroyAll_bad as x bs ha hx, hn] at hter
            exact hter rfl
    · exact fine_sound h
  | swap a b =>
    rw [step]
    split
    · rename_i ha hb; exact fine_sound (sound_moved h fun id => swap_count ha hb id)
    · rename_i ha hb; exact fine_sound (sound_moved h fun id => swap_count ha hb id)
    · exact fine_sound h
  | moveCtor a =>
    rw [step]
    split
    · rename_i c es ha
      exact fine_sound (sound_moved h fun id => by
        have := set_count ha (.vec 0 []) id
        rw [owned_append]
        simp only [Var.owned, List.count_nil] at this ⊢
        omega)
    · rename_i es ha
      exact fine_sound (sound_moved h fun id => by
        have := set_count ha (.arr []) id
        rw [owned_append]
        simp only [Var.owned, List.count_nil] at this ⊢
        omega)
    · exact fine_sound h
  | toArray a =>
    rw [step]
    split
    · rename_i c es ha
      exact fine_sound (sound_moved h fun id => by
        have := set_count ha (.vec 0 []) id
        rw [owned_append]
        simp only [Var.owned, List.count_nil] at this ⊢
        omega)
    · exact fine_sound h
  | emplaceAt v i throws =>
    rw [step]
    split
    · rename_i c es hv
      split
      · exact fine_sound h
      · rename_i x hx
        exact emplace_fine h v i x throws es (.vec c) (fun _ => rfl) hv (.inl ⟨c, hv⟩) hx
    · rename_i es hv
      split
      · exact fine_sound h
      · rename_i x hx
        exact emplace_fine h v i x throws es .arr (fun _ => rfl) hv (.inr hv) hx
    · exact fine_sound h
  | optNone => rw [step]; exact fine_sound (sound_moved h fun id => by rw [owned_append]; rfl)
  | optSome throws =>
    rw [step]
    split
    · exact fine_sound h
    · exact fine_sound (sound_construct h fun id => by rw [owned_append]; rfl)
  | optAssign v throws =>
    rw [step]
    split
    · rename_i hv
      split
      · exact fine_sound h
      · refine fine_sound (sound_construct h fun id => ?_)
        have := set_count hv (.opt (some w.next)) id
        simp only [Var.owned, Option.toList_none, Option.toList_some, List.count_nil] at this
        omega
    · rename_i x hv
      have h0 : Sound (w.set v (.opt none) [.destroy x] w.next) := sound_destroys h [x] fun id => by
        have := set_count hv (.opt none) id
        simp only [Var.owned, Option.toList_none, Option.toList_some, List.count_nil] at this
        omega
      split
      · split
        · exact fine_sound h0
        · refine fine_sound (sound_replace h x (fun id => owned_le hv id) fun id => ?_)
          have := set_count hv (.opt (some w.next)) id
          simp only [Var.owned, Option.toList_some] at this
          omega
      · exact fine_sound h0
    · exact fine_sound h
  | optReset v =>
    rw [step]
    split
    · rename_i x hv
      exact fine_sound (sound_destroys h [x] fun id => by
        have := set_count hv (.opt none) id
        simp only [Var.owned, Option.toList_none, Option.toList_some, List.count_nil] at this
        omega)
    · exact fine_sound h
  | optSwap a b =>
    rw [step]
    split
    · rename_i x y ha hb
      refine fine_sound ?_
      have hx : x ∈ owned w.vars := owned_mem (get_eq ha) (by simp [Var.owned])
      have hy : y ∈ owned w.vars := owned_mem (get_eq hb) (by simp [Var.owned])
      have hle : ∀ z, z ∈ owned w.vars → z ∈ owned (w.vars ++ [some (.opt (some w.next))]) := fun z hz => by
        unfold owned at hz ⊢; rw [List.flatMap_append]; exact List.mem_append_left _ hz
      have hn : w.next ∈ owned (w.vars ++ [some (.opt (some w.next))]) := by
        unfold owned; rw [List.flatMap_append]; exact List.mem_append_right _ (by simp [ownedBy, Var.owned])
      have s1 := sound_use h hx
      have s2 := sound_construct s1 (vars := w.vars ++ [some (.opt (some w.next))]) fun id => by rw [owned_append]; rfl
      have s3 := sound_use s2 (hle y hy)
      have s4 := sound_use s3 (hle x hx)
      have s5 := sound_use s4 hn
      have s6 := sound_use s5 (hle y hy)
      have s7 := sound_destroys s6 (vars := w.vars) [w.next] fun id => by rw [owned_append]; rfl
      simpa using s7
    · rename_i x ha hb
      refine fine_sound ?_
      have hne : a ≠ b := by rintro rfl; rw [ha] at hb; cases hb
      have s1 := sound_use h (owned_mem (get_eq ha) (x := x) (by simp [Var.owned]))
      have s2 := sound_step s1 (vars := (w.vars.set a (some (.opt none))).set b (some (.opt (some w.next)))) [] 1 [x] (fun id => Nat.zero_le _)
        fun id => by
          have := two_count ha hb (x' := .opt none) (y' := .opt (some w.next)) hne id
          simp only [Var.owned, Option.toList_none, Option.toList_some, List.count_nil, List.range'_one] at this ⊢
          omega
      simpa using s2
    · rename_i y ha hb
      refine fine_sound ?_
      have hne : a ≠ b := by rintro rfl; rw [ha] at hb; cases hb
      have s1 := sound_use h (owned_mem (get_eq hb) (x := y) (by simp [Var.owned]))
      have s2 := sound_step s1 (vars := (w.vars.set a (some (.opt (some w.next)))).set b (some (.opt none))) [] 1 [y] (fun id => Nat.zero_le _)
        fun id => by
          have := two_count ha hb (x' := .opt (some w.next)) (y' := .opt none) hne id
          simp only [Var.owned, Option.toList_none, Option.toList_some, List.count_nil, List.range'_one] at this ⊢
          omega
      simpa using s2
    · exact fine_sound h
  | optMove a =>
    rw [step]
    split
    · rename_i x ha
      refine fine_sound ?_
      have s1 := sound_use h (owned_mem (get_eq ha) (x := x) (by simp [Var.owned]))
      have s2 := sound_construct s1 (vars := w.vars ++ [some (.opt (some w.next))]) fun id => by rw [owned_append]; rfl
      simpa using s2
    · exact fine_sound (sound_moved h fun id => by rw [owned_append]; rfl)
    · exact fine_sound h
  | destroy v unwinding =>
    rw [step]
    split
    · rename_i c es hv
      have hle : ∀ id, (destroyAll nothrow bad es).1.count id ≤ (owned w.vars).count id := fun id =>
        Nat.le_trans (destroyAll_le es id) (owned_le hv id)
      refine ⟨legal_destroys h _ hle, fun _ hne => ?_⟩
      dsimp only [dispose] at hne ⊢
      cases he : (destroyAll nothrow bad es).2 with
      | returns =>
        exact sound_destroys h _ fun id => by
          have := owned_set w.vars v _ none id (get_eq hv)
          rw [destroyAll_eq he]
          simp only [Var.owned, ownedBy, List.count_nil] at this
          omega
      | throws s => rw [he] at hne; exact absurd rfl hne
      | terminates => rw [he] at hne; exact absurd rfl hne
    · rename_i es hv
      have hle : ∀ id, (destroyAll nothrow bad es).1.count id ≤ (owned w.vars).count id := fun id =>
        Nat.le_trans (destroyAll_le es id) (owned_le hv id)
      refine ⟨legal_destroys h _ hle, fun _ hne => ?_⟩
      dsimp only [dispose] at hne ⊢
      cases he : (destroyAll nothrow bad es).2 with
      | returns =>
        exact sound_destroys h _ fun id => by
          have := owned_set w.vars v _ none id (get_eq hv)
          rw [destroyAll_eq he]
          simp only [Var.owned, ownedBy, List.count_nil] at this
          omega
      | throws s => rw [he] at hne; exact absurd rfl hne
      | terminates => rw [he] at hne; exact absurd rfl hne
    · rename_i x hv
      exact fine_sound (sound_destroys h [x] fun id => by
        have := owned_set w.vars v _ none id (get_eq hv)
        simp only [Var.owned, ownedBy, List.count_nil, Option.toList_some] at this
        omega)
    · rename_i hv
      exact fine_sound (sound_moved h fun id => by
        have := owned_set w.vars v _ none id (get_eq hv)
        simp only [Var.owned, ownedBy, List.count_nil, Option.toList_none] at this
        omega)
    · exact fine_sound h

end

/-! ## The theorems -/

/-- **C152** (full): `pop_back()` of a vector with elements takes the last one out and destroys it, whether its destructor throws or not; the exception
leaves unless the destructor is declared `noexcept`. -/
theorem C152_pop (nothrow : Bool) (bad : Nat → Bool) (w : World) (v c : Nat) (es : List Nat) (x : Nat) (hv : w.get v = some (.vec c (es ++ [x]))) :
    step nothrow bad w (.pop v) = (⟨w.vars.set v (some (.vec c es)), w.log ++ [.destroy x], w.next⟩,
      if bad x then (if nothrow then .terminates else .throws (.dtor x)) else .returns) := by
  rw [step, hv]
  dsimp only
  rw [popBack_eq]
  cases hb : bad x with
  | false => rw [dtor_returns.mpr hb]; rfl
  | true => rw [dtor_bad hb]; rfl

/-- **C152** (full): `clear()` without throwing destructors destroys all elements, the last one first. -/
theorem C152_clear_good (nothrow : Bool) (bad : Nat → Bool) (w : World) (v c : Nat) (es : List Nat) (hv : w.get v = some (.vec c es))
    (h : ∀ x ∈ es, bad x = false) :
    step nothrow bad w (.clear v) = (⟨w.vars.set v (some (.vec c [])), w.log ++ es.reverse.map .destroy, w.next⟩, .returns) := by
  rw [step, hv]
  dsimp only
  rw [clearLoop_good _ es rfl h]
  cases nothrow <;> rfl

/-- **C152** (full): otherwise `clear()` stops at the last element whose destructor throws: this one and those behind it are destroyed and gone, the
others are still there and alive, and the exception leaves. -/
theorem C152_clear_throws (bad : Nat → Bool) (w : World) (v c : Nat) (es : List Nat) (x : Nat) (fs : List Nat)
    (hv : w.get v = some (.vec c (es ++ x :: fs))) (hx : bad x = true) (h : ∀ y ∈ fs, bad y = false) :
    step false bad w (.clear v) = (⟨w.vars.set v (some (.vec c es)), w.log ++ (fs.reverse ++ [x]).map .destroy, w.next⟩, .throws (.dtor x)) := by
  rw [step, hv]
  dsimp only
  rw [show (es ++ x :: fs).length + 1 = es.length + fs.length + 2 from by simp; omega, clearLoop_bad es x hx _ fs rfl h]
  rfl

/-- The ends of the calls of a sequence of statements that does not end the program. -/
def ends (nothrow : Bool) (bad : Nat → Bool) : World → List Op → List End
  | _, [] => []
  | w, o :: os => (step nothrow bad w o).2 :: ends nothrow bad (step nothrow bad w o).1 os

theorem getElem_set_self {w : World} {v : Nat} {x : Var} (hv : w.get v = some x) (y : Var) (log : List Event) (n : Nat) :
    (World.mk (w.vars.set v (some y)) log n).get v = some y := by
  have hl := (List.getElem?_eq_some_iff.mp (get_eq hv)).1
  unfold World.get
  rw [List.getElem?_set]
  simp [hl]

/-- **C152** (full): after an exception `clear()` may be called again. As many calls throw as there are elements whose destructor does, the next one
returns; altogether every element is destroyed once, the last one first. -/
theorem C152_clear_again (bad : Nat → Bool) (n : Nat) : ∀ (w : World) (v c : Nat) (es : List Nat), w.get v = some (.vec c es) → es.countP bad = n →
    run false bad w (List.replicate (n + 1) (.clear v)) = (⟨w.vars.set v (some (.vec c [])), w.log ++ es.reverse.map .destroy, w.next⟩, false) ∧
    ends false bad w (List.replicate (n + 1) (.clear v)) = (es.reverse.filter bad).map (fun x => .throws (.dtor x)) ++ [.returns] := by
  induction n with
  | zero =>
    intro w v c es hv hn
    have hg : ∀ x ∈ es, bad x = false := fun x hx => by
      have := List.countP_eq_zero.mp hn x hx
      simpa using this
    have e := C152_clear_good false bad w v c es hv hg
    have hf : es.reverse.filter bad = [] := List.filter_eq_nil_iff.mpr fun x hx => by simp [hg x (List.mem_reverse.mp hx)]
    constructor
    · rw [List.replicate_one, run, e]; rfl
    · rw [List.replicate_one, ends, e, hf]; rfl
  | succ n ih =>
    intro w v c es hv hn
    rcases last_bad (bad := bad) es with hg | ⟨as, x, bs, rfl, hbs, hx⟩
    · exfalso
      have : es.countP bad = 0 := List.countP_eq_zero.mpr fun x hx => by simp [hg x hx]
      omega
    · have e := C152_clear_throws bad w v c as x bs hv hx hbs
      have hb0 : bs.countP bad = 0 := List.countP_eq_zero.mpr fun y hy => by simp [hbs y hy]
      have ha : as.countP bad = n := by
        rw [List.countP_append, List.countP_cons, hb0, hx] at hn
        simp at hn
        exact hn
      have hf : bs.reverse.filter bad = [] := List.filter_eq_nil_iff.mpr fun x hx => by simp [hbs x (List.mem_reverse.mp hx)]
      obtain ⟨i1, i2⟩ := ih ⟨w.vars.set v (some (.vec c as)), w.log ++ (bs.reverse ++ [x]).map .destroy, w.next⟩ v c as
        (getElem_set_self hv _ _ _) ha
      constructor
      · rw [List.replicate_succ, run, e]
        dsimp only
        rw [i1, List.set_set]
        simp
      · rw [List.replicate_succ, ends, e]
        dsimp only
        rw [i2]
        simp [List.filter_append, hf, hx]

/-- **C152** (full): the end of a vector or an array with an element whose destructor throws is the end of the program - also where that destructor is
declared to throw, and `clear()` would let the exception out; without such an element all are destroyed in order. -/
theorem C152_end (nothrow : Bool) (bad : Nat → Bool) (w : World) (v : Nat) (u : Bool) (es : List Nat)
    (hv : (∃ c, w.get v = some (.vec c es)) ∨ w.get v = some (.arr es)) :
    ((step nothrow bad w (.destroy v u)).2 = .terminates ↔ ∃ x ∈ es, bad x = true) ∧
    ((∀ x ∈ es, bad x = false) → step nothrow bad w (.destroy v u) = (⟨w.vars.set v none, w.log ++ es.map .destroy, w.next⟩, .returns)) := by
  have hs : step nothrow bad w (.destroy v u) =
      (⟨w.vars.set v none, w.log ++ (destroyAll nothrow bad es).1.map .destroy, w.next⟩, End.spec true (destroyAll nothrow bad es).2) := by
    rcases hv with ⟨c, hv⟩ | hv <;> rw [step, hv] <;> rfl
  constructor
  · rw [hs]
    rcases first_bad (bad := bad) es with hg | ⟨as, x, bs, rfl, ha, hx⟩
    · rw [destroyAll_good es hg]
      constructor
      · intro h; cases h
      · rintro ⟨x, h1, h2⟩; rw [hg x h1] at h2; cases h2
    · rw [destroyAll_bad as x bs ha hx]
      refine ⟨fun _ => ⟨x, by simp, hx⟩, fun _ => ?_⟩
      cases nothrow <;> rfl
  · intro hg
    rw [hs, destroyAll_good es hg]
    rfl

/-- **C152** (full): `v = nullptr` of a vector with an element whose destructor throws: those up to the first such element are destroyed, and the
exception leaves a vector that still has all of them. -/
theorem C152_null (bad : Nat → Bool) (w : World) (v c : Nat) (es : List Nat) (x : Nat) (fs : List Nat)
    (hv : w.get v = some (.vec c (es ++ x :: fs))) (hx : bad x = true) (h : ∀ y ∈ es, bad y = false) :
    step false bad w (.null v) =
      (⟨w.vars.set v (some (.vec c (es ++ x :: fs))), w.log ++ (es ++ [x]).map .destroy, w.next⟩, .throws (.dtor x)) := by
  rw [step, hv]
  dsimp only [dispose]
  rw [destroyAll_bad es x fs h hx]
  rfl

/-- **C152** (violation): so the end of that vector's life destroys objects that are destroyed already. -/
theorem C152_null_twice (bad : Nat → Bool) (w : World) (hw : Sound w) (v c : Nat) (es : List Nat) (hv : w.get v = some (.vec c es))
    (hb : ∃ x ∈ es, bad x = true) (u : Bool) :
    ¬ Legal (step false bad (step false bad w (.null v)).1 (.destroy v u)).1.log := by
  obtain ⟨x, hxm, hx⟩ := hb
  rcases first_bad (bad := bad) es with hg | ⟨as, y, bs, rfl, ha, hy⟩
  · rw [hg x hxm] at hx; cases hx
  · rw [C152_null bad w v c as y bs hv hy ha]
    dsimp only
    have hg := getElem_set_self hv (.vec c (as ++ y :: bs)) (w.log ++ (as ++ [y]).map .destroy) w.next
    rw [step, hg]
    dsimp only [dispose]
    rw [destroyAll_bad as y bs ha hy]
    dsimp only
    rintro ⟨s, e⟩
    obtain ⟨s0, e0, _, n0, c0⟩ := hw
    have hle : ∀ id, (as ++ [y]).count id ≤ s0.alive.count id := fun id => by
      rw [← c0 id]
      refine Nat.le_trans ?_ (owned_le hv id)
      simp only [Var.owned, List.count_append, List.count_cons, List.count_nil]
      omega
    obtain ⟨s1, e1, _, _, k1⟩ := replay_destroys (as ++ [y]) s0 n0 hle
    obtain ⟨z, zs, hz⟩ : ∃ z zs, as ++ [y] = z :: zs := by
      cases as with
      | nil => exact ⟨y, [], rfl⟩
      | cons a as => exact ⟨a, as ++ [y], rfl⟩
    have hz1 : z ∉ s1.alive := by
      have h1 := k1 z
      have h2 := List.nodup_iff_count.mp n0 z
      rw [hz, List.count_cons_self] at h1
      intro hmem
      have := List.count_pos_iff.mpr hmem
      omega
    rw [replay_append, replay_append, e0] at e
    change (replay s0 _).bind _ = _ at e
    rw [e1] at e
    change replay s1 _ = _ at e
    rw [hz, List.map_cons, replay, Lifetime.step, if_neg hz1] at e
    cases e

/-- **C152** (full): a constructor that throws in the guarded loops of `makeVectorOf`, `makeVector(ArrayView)` and `makeArray`: the elements made so far
are destroyed in reverse order, and that exception leaves, unless one of their destructors throws as well, which ends the program. No exception of a
destructor leaves such a call, although the destructors of the guards are `noexcept(false)`. -/
theorem C152_guard (nothrow : Bool) (bad : Nat → Bool) (throwsAt : Nat → Bool) (base n : Nat) :
    ((∀ j, j < n → throwsAt j = false) ∧ (guardLoop nothrow bad throwsAt base n 0).2 = .returns) ∨
    ∃ k, k < n ∧ throwsAt k = true ∧ (∀ j, j < k → throwsAt j = false) ∧
      (((∀ j, j < k → bad (base + j) = false) ∧ guardLoop nothrow bad throwsAt base n 0 =
          ((List.range' base k).map .construct ++ (List.range' base k).reverse.map .destroy, .throws .ctor)) ∨
        ((∃ j, j < k ∧ bad (base + j) = true) ∧ (guardLoop nothrow bad throwsAt base n 0).2 = .terminates)) := by
  rcases first_throw throwsAt n with h | ⟨k, h1, h2, h3⟩
  · exact .inl ⟨h, by rw [guardLoop_ok throwsAt base n 0 fun j _ hj => h j (by omega)]⟩
  · refine .inr ⟨k, h1, h2, h3, ?_⟩
    rw [guardLoop_throws throwsAt base k n 0 h1 (by rw [Nat.zero_add]; exact h2) fun j _ hj => h3 j (by omega)]
    rw [Nat.zero_add, Nat.add_zero, range_reverse]
    rcases first_bad (bad := bad) (List.range' base k).reverse with hg | ⟨as, x, bs, he, ha, hx⟩
    · refine .inl ⟨fun j hj => hg _ ?_, ?_⟩
      · rw [List.mem_reverse, List.mem_range'_1]; omega
      · rw [unwind, destroyAll_good _ hg]
    · refine .inr ⟨?_, ?_⟩
      · have hm : x ∈ (List.range' base k).reverse := by rw [he]; simp
        rw [List.mem_reverse, List.mem_range'_1] at hm
        exact ⟨x - base, by omega, by rw [show base + (x - base) = x from by omega]; exact hx⟩
      · rw [he, unwind, destroyAll_bad as x bs ha hx]
        cases nothrow <;> rfl

/-- **C152** (full): an optional whose payload's destructor throws: assigning a value lets the exception out and leaves an empty optional, without the
new value; so does the end of the optional, but for stack unwinding. Assigning `none`, exchanging with an empty optional and moving into one, all
`noexcept`, end the program. -/
theorem C152_optional (bad : Nat → Bool) (w : World) (v x : Nat) (hv : w.get v = some (.opt (some x))) (hx : bad x = true) :
    (∀ t, step false bad w (.optAssign v t) = (⟨w.vars.set v (some (.opt none)), w.log ++ [.destroy x], w.next⟩, .throws (.dtor x))) ∧
    step false bad w (.destroy v false) = (⟨w.vars.set v none, w.log ++ [.destroy x], w.next⟩, .throws (.dtor x)) ∧
    (step false bad w (.destroy v true)).2 = .terminates ∧
    (step false bad w (.optReset v)).2 = .terminates ∧
    ∀ b, w.get b = some (.opt none) → (step false bad w (.optSwap v b)).2 = .terminates ∧ (step false bad w (.optSwap b v)).2 = .terminates := by
  have hd : dtor false bad x = .throws (.dtor x) := dtor_bad hx
  refine ⟨fun t => ?_, ?_, ?_, ?_, fun b hb => ⟨?_, ?_⟩⟩
  · rw [step, hv]; dsimp only; rw [hd]; rfl
  · rw [step, hv]; dsimp only; rw [hd]; rfl
  · rw [step, hv]; dsimp only; rw [hd]; rfl
  · rw [step, hv]; dsimp only; rw [hd]; rfl
  · rw [step, hv, hb]; dsimp only; rw [hd]; rfl
  · rw [step, hv, hb]; dsimp only; rw [hd]; rfl

/-- **C152** (full): every call, whatever throws in it, destroys only objects that are alive; and unless it ends the program or is one of the two kinds
of `Hazard`, the variables then own exactly the objects that are alive. -/
theorem C152_step_partial (nothrow : Bool) (bad : Nat → Bool) (w : World) (h : Sound w) (o : Op) :
    Legal (step nothrow bad w o).1.log ∧
    (¬ Hazard nothrow bad w o → (step nothrow bad w o).2 ≠ .terminates → Sound (step nothrow bad w o).1) := step_fine w h o

theorem init_sound : Sound .init := ⟨⟨[], []⟩, rfl, fun _ h => (by cases h), List.nodup_nil, fun _ => rfl⟩

/-- **C152** (partial: the two kinds of `Hazard` are excluded, where the statement does not hold, `C152_hazard`): in every program that catches what is
thrown, every destructor call is for an object that is alive, and as long as the program is not ended by an exception, the variables own exactly the
objects that are alive. -/
theorem C152_program_partial (nothrow : Bool) (bad : Nat → Bool) (ops : List Op) : ∀ (w : World), Sound w →
    (∀ before o after, ops = before ++ o :: after → (run nothrow bad w before).2 = false → ¬ Hazard nothrow bad (run nothrow bad w before).1 o) →
    Legal (run nothrow bad w ops).1.log ∧ ((run nothrow bad w ops).2 = false → Sound (run nothrow bad w ops).1) := by
  induction ops with
  | nil => intro w h _; exact ⟨h.legal, fun _ => h⟩
  | cons o os ih =>
    intro w h hz
    obtain ⟨h1, h2⟩ := C152_step_partial nothrow bad w h o
    have hz0 := hz [] o os rfl rfl
    rw [run]
    cases hs : step nothrow bad w o with
    | mk w' e =>
      rw [hs] at h1 h2
      have hnext : e ≠ .terminates → ∀ before, run nothrow bad w (o :: before) = run nothrow bad w' before := by
        intro he before
        rw [run, hs]
        cases e with
        | terminates => exact absurd rfl he
        | returns => rfl
        | throws s => rfl
      cases e with
      | terminates => exact ⟨h1, fun h => by cases h⟩
      | returns =>
        refine ih w' (h2 hz0 (by simp)) fun before p after he hr => ?_
        have := hz (o :: before) p after (by rw [he]; rfl)
        rw [hnext (by simp)] at this
        exact this hr
      | throws s =>
        refine ih w' (h2 hz0 (by simp)) fun before p after he hr => ?_
        have := hz (o :: before) p after (by rw [he]; rfl)
        rw [hnext (by simp)] at this
        exact this hr

theorem dtor_throws {nothrow : Bool} {bad : Nat → Bool} {x y : Nat} (h : dtor nothrow bad y = .throws (.dtor x)) :
    nothrow = false ∧ bad x = true ∧ y = x := by
  unfold dtor at h
  split at h
  · rename_i hb
    cases nothrow
    · cases h; exact ⟨rfl, hb, rfl⟩
    · cases h
  · cases h

theorem spec_throws {b : Bool} {e : End} {s : Source} (h : End.spec b e = .throws s) : b = false ∧ e = .throws s := by
  cases e with
  | returns => cases h
  | terminates => cases h
  | throws t =>
    cases b
    · exact ⟨rfl, h⟩
    · cases h

theorem destroyAll_throws {nothrow : Bool} {bad : Nat → Bool} {xs : List Nat} {x : Nat} (h : (destroyAll nothrow bad xs).2 = .throws (.dtor x)) :
    nothrow = false ∧ bad x = true ∧ x ∈ xs := by
  rcases first_bad (bad := bad) xs with hg | ⟨as, y, bs, rfl, ha, hy⟩
  · rw [destroyAll_good xs hg] at h; cases h
  · rw [destroyAll_bad as y bs ha hy] at h
    cases nothrow
    · cases h; exact ⟨rfl, hy, by simp⟩
    · cases h

theorem build_throws {nothrow : Bool} {bad : Nat → Bool} {w : World} {mk : List Nat → Var} {n : Nat} {t : List Nat} {x : Nat}
    (h : (build nothrow bad w mk n t).2 = .throws (.dtor x)) : False := by
  unfold build at h
  have hg := C152_guard nothrow bad (fun i => t.contains i) w.next n
  split at h
  · cases h
  · rename_i log e hne he
    dsimp only at h
    subst h
    rw [he] at hg
    rcases hg with ⟨_, h⟩ | ⟨k, _, _, _, ⟨_, h⟩ | ⟨_, h⟩⟩ <;> cases h

/-- **C152** (full): with destructors that are declared `noexcept` no exception of a destructor leaves a call; otherwise it leaves only the calls of
`LetsOut`. -/
theorem C152_lets_out (nothrow : Bool) (bad : Nat → Bool) (w : World) (o : Op) (x : Nat) (h : (step nothrow bad w o).2 = .throws (.dtor x)) :
    nothrow = false ∧ bad x = true ∧ LetsOut w x o := by
  cases o with
  | vector n => cases h
  | vectorOf n t => exact (build_throws h).elim
  | array n t => exact (build_throws h).elim
  | push v t =>
    rw [step] at h
    split at h
    · split at h
      · cases h
      · split at h <;> cases h
    · cases h
  | pop v =>
    rw [step] at h
    split at h
    · rename_i c es hv
      by_cases hne : es = []
      · subst hne; cases h
      · obtain ⟨ys, y, rfl⟩ : ∃ ys y, es = ys ++ [y] := ⟨_, _, (List.dropLast_concat_getLast hne).symm⟩
        rw [popBack_eq] at h
        obtain ⟨h1, h2, rfl⟩ := dtor_throws h
        exact ⟨h1, h2, c, ys, hv⟩
    · cases h
  | clear v =>
    rw [step] at h
    split at h
    · rename_i c es hv
      rcases last_bad (bad := bad) es with hg | ⟨as, y, bs, rfl, hb, hy⟩
      · rw [clearLoop_good _ es rfl hg] at h
        dsimp only at h
        cases (spec_throws h).2
      · rw [show (as ++ y :: bs).length + 1 = as.length + bs.length + 2 from by simp; omega, clearLoop_bad as y hy _ bs rfl hb] at h
        dsimp only at h
        obtain ⟨h1, h2⟩ := spec_throws h
        subst h1
        cases h2
        exact ⟨rfl, hy, c, as, bs, hv⟩
    · cases h
  | null v =>
    rw [step] at h
    split at h
    · rename_i c es hv
      unfold dispose at h
      split at h
      · cases h
      · rename_i d e hne he
        dsimp only at h
        subst h
        obtain ⟨h1, h2, h3⟩ := destroyAll_throws (x := x) (congrArg Prod.snd he)
        exact ⟨h1, h2, _, hv, h3, fun o => by simp⟩
    · rename_i es hv
      obtain ⟨h1, h2, h3⟩ := destroyAll_throws h
      exact ⟨h1, h2, _, hv, h3, fun o => by simp⟩
    · cases h
  | swap a b => rw [step] at h; split at h <;> cases h
  | moveCtor a => rw [step] at h; split at h <;> cases h
  | toArray a => rw [step] at h; split at h <;> cases h
  | emplaceAt v i t =>
    rw [step] at h
    split at h
    · rename_i c es hv
      split at h
      · cases h
      · rename_i y hy
        split at h
        · split at h <;> cases h
        · obtain ⟨h1, h2, rfl⟩ := dtor_throws h
          exact ⟨h1, h2, es, .inl ⟨c, hv⟩, hy⟩
    · rename_i es hv
      split at h
      · cases h
      · rename_i y hy
        split at h
        · split at h <;> cases h
        · obtain ⟨h1, h2, rfl⟩ := dtor_throws h
          exact ⟨h1, h2, es, .inr hv, hy⟩
    · cases h
  | optNone => cases h
  | optSome t => rw [step] at h; split at h <;> cases h
  | optAssign v t =>
    rw [step] at h
    split at h
    · split at h <;> cases h
    · rename_i y hv
      split at h
      · split at h <;> cases h
      · obtain ⟨h1, h2, rfl⟩ := dtor_throws h
        exact ⟨h1, h2, hv⟩
    · cases h
  | optReset v =>
    rw [step] at h
    split at h
    · cases (spec_throws h).1
    · cases h
  | optSwap a b =>
    rw [step] at h
    split at h
    · cases (spec_throws h).1
    · cases (spec_throws h).1
    · cases (spec_throws h).1
    · cases h
  | optMove a => rw [step] at h; split at h <;> cases h
  | destroy v u =>
    rw [step] at h
    split at h
    · cases (spec_throws h).1
    · cases (spec_throws h).1
    · rename_i y hv
      obtain ⟨h0, h⟩ := spec_throws h
      obtain ⟨_, h⟩ := spec_throws h
      obtain ⟨h1, h2, rfl⟩ := dtor_throws h
      exact ⟨h1, h2, hv, h0⟩
    · cases h
    · cases h

/-- Destroyed, but still owned. -/
theorem dead_owned {w : World} (hw : Sound w) {v : Nat} {y : Var} (hv : w.get v = some y) (ds : List Nat) (hle : ∀ id, ds.count id ≤ y.owned.count id)
    {x : Nat} (hx : x ∈ ds) :
    ∃ x s, replay ⟨[], []⟩ (w.log ++ ds.map .destroy) = some s ∧ x ∈ owned (w.vars.set v (some y)) ∧ x ∉ s.alive := by
  obtain ⟨s0, e0, _, n0, c0⟩ := hw
  have hb : ∀ id, ds.count id ≤ s0.alive.count id := fun id => by rw [← c0 id]; exact Nat.le_trans (hle id) (owned_le hv id)
  obtain ⟨s, e, _, _, k⟩ := replay_destroys ds s0 n0 hb
  have hc := List.count_pos_iff.mpr hx
  refine ⟨x, s, by rw [replay_append, e0]; exact e, List.count_pos_iff.mp ?_, fun hm => ?_⟩
  · have := set_count hv y x
    have := hle x
    have := owned_le hv x
    omega
  · have h1 := List.count_pos_iff.mpr hm
    have h2 := k x
    have h3 := List.nodup_iff_count.mp n0 x
    omega

theorem destroyAll_ne {nothrow : Bool} {bad : Nat → Bool} {es : List Nat} (h : es ≠ []) : ∃ x, x ∈ (destroyAll nothrow bad es).1 := by
  cases es with
  | nil => exact absurd rfl h
  | cons a es =>
    rw [destroyAll]
    split
    · exact ⟨a, List.mem_cons_self⟩
    · exact ⟨a, List.mem_cons_self⟩

/-- **C152** (violation): after a `Hazard` a variable owns an object that is not alive. -/
theorem C152_hazard (nothrow : Bool) (bad : Nat → Bool) (w : World) (hw : Sound w) (o : Op) (h : Hazard nothrow bad w o) :
    ∃ x s, replay ⟨[], []⟩ (step nothrow bad w o).1.log = some s ∧ x ∈ owned (step nothrow bad w o).1.vars ∧ x ∉ s.alive := by
  cases o with
  | null v =>
    rcases h with ⟨c, es, hv, hn, x, hxm, hx⟩ | ⟨es, hv, hne, _⟩
    · subst hn
      rcases first_bad (bad := bad) es with hg | ⟨as, y, bs, rfl, ha, hy⟩
      · rw [hg x hxm] at hx; cases hx
      · rw [C152_null bad w v c as y bs hv hy ha]
        refine dead_owned hw hv (as ++ [y]) (fun id => ?_) (x := y) (by simp)
        simp only [Var.owned, List.count_append, List.count_cons, List.count_nil]
        omega
    · rw [step, hv]
      dsimp only [dispose]
      obtain ⟨x, hx⟩ := destroyAll_ne (nothrow := nothrow) (bad := bad) hne
      exact dead_owned hw hv _ (fun id => destroyAll_le es id) hx
  | emplaceAt v i t =>
    obtain ⟨es, x, hk, hx, hcase⟩ := h
    have hle : ∀ id, [x].count id ≤ es.count id := fun id => count_mem es hx id
    rcases hk with ⟨c, hv⟩ | hv
    · have hd := dead_owned hw hv [x] hle (x := x) (by simp)
      rw [step, hv]
      dsimp only
      rw [hx]
      dsimp only
      rcases hcase with ⟨hb, rfl⟩ | ⟨hb, rfl⟩
      · rw [dtor_bad hb]; exact hd
      · rw [dtor_returns.mpr hb]; exact hd
    · have hd := dead_owned hw hv [x] hle (x := x) (by simp)
      rw [step, hv]
      dsimp only
      rw [hx]
      dsimp only
      rcases hcase with ⟨hb, rfl⟩ | ⟨hb, rfl⟩
      · rw [dtor_bad hb]; exact hd
      · rw [dtor_returns.mpr hb]; exact hd
  | _ => exact h.elim

/-! ### Examples -/

/-- A vector of three, the destructor of the second throws: `clear()` throws once, then returns; the program goes on. -/
example : run false (fun i => i == 1) .init [.vectorOf 3 [], .clear 0, .clear 0, .destroy 0 false] =
    (⟨[none], [.construct 0, .construct 1, .construct 2, .destroy 2, .destroy 1, .destroy 0], 3⟩, false) := by decide +kernel

/-- The hypotheses of `C152_pop`, `C152_clear_throws`, `C152_clear_again`, `C152_null`, `C152_null_twice`, `C152_end` and `C152_hazard` are met after the first
statement, those of `C152_optional` after the second. -/
example : (run false (fun i => i == 1) .init [.vectorOf 3 []]).1.get 0 = some (.vec 3 ([0] ++ 1 :: [2])) ∧
    Sound (run false (fun i => i == 1) .init [.vectorOf 3 []]).1 ∧
    Hazard false (fun i => i == 1) (run false (fun i => i == 1) .init [.vectorOf 3 []]).1 (.null 0) ∧
    (run false (fun i => i == 0) .init [.optSome false]).1.get 0 = some (.opt (some 0)) := by
  have hv : (run false (fun i => i == 1) .init [.vectorOf 3 []]).1.get 0 = some (.vec 3 ([0] ++ 1 :: [2])) := by decide +kernel
  refine ⟨hv, ?_, .inl ⟨3, _, hv, rfl, 1, by simp, rfl⟩, by decide +kernel⟩
  refine (C152_program_partial false (fun i => i == 1) [.vectorOf 3 []] .init init_sound fun before o after he _ => ?_).2 (by decide +kernel)
  have : o ∈ [Op.vectorOf 3 []] := by rw [he]; simp
  cases List.mem_singleton.mp this
  exact id

/-- Destroyed twice. -/
example : aliveAfter (run false (fun i => i == 1) .init [.vectorOf 3 [], .null 0, .destroy 0 false]).1.log = none := by decide +kernel

/-- Two exceptions at once. -/
example : (run false (fun i => i == 0) .init [.array 3 [2]]).2 = true ∧ (run false (fun i => i == 5) .init [.array 3 [2], .vector 1]).2 = false := by
  decide +kernel

/-- **C152** (full): an element added at the end: a full vector refuses it without making an object, a constructor that throws leaves the vector as it was, and
otherwise the new object is the last element. -/
theorem C152_push (nothrow : Bool) (bad : Nat → Bool) (w : World) (v c : Nat) (es : List Nat) (t : Bool) (hv : w.get v = some (.vec c es)) :
    (c ≤ es.length → step nothrow bad w (.push v t) = (w, .returns)) ∧
    (es.length < c → step nothrow bad w (.push v t) =
      if t then (w, .throws .ctor) else (⟨w.vars.set v (some (.vec c (es ++ [w.next]))), w.log ++ [.construct w.next], w.next + 1⟩, .returns)) := by
  constructor
  · intro h
    simp only [step, hv, if_pos h]
  · intro h
    simp only [step, hv, if_neg (Nat.not_le.mpr h)]
    rfl

example : (run false (fun _ => false) .init [.vector 1, .push 0 false, .push 0 false]).1.get 0 = some (.vec 1 [0]) := by decide +kernel

end Solace.DtorThrow
