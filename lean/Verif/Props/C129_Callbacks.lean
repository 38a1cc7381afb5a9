import Verif.Model.Callbacks
import Verif.Spec.Callbacks
/-
C129: functions given to the library that have effects and may throw.
-/
namespace Solace.Calls
open Spec
variable {σ α β : Type}

theorem after_visit {f : Fn σ α Unit} {s : σ} {x : α} {xs : List α} :
    after (f s x) (fun s' _ => visit f s' xs) = visit f s (x :: xs) := by
  rw [visit]
  rcases h : f s x with ⟨s', _ | _ | _ | _⟩ <;> simp [after]

theorem visit_append (f : Fn σ α Unit) (xs ys : List α) : ∀ s, visit f s (xs ++ ys) = after (visit f s xs) fun s' _ => visit f s' ys := by
  induction xs with
  | nil => intro s; rfl
  | cons x xs ih =>
    intro s
    rw [List.cons_append, visit, visit]
    split
    · exact ih _
    · next h => rcases e : f s x with ⟨s', _ | _ | _ | _⟩ <;> rw [e] at h <;> first | rfl | exact (h rfl).elim

theorem after_assoc {γ δ : Type} {ρ : Type} (r : γ × Outcome α) (k : γ → α → γ × Outcome δ) (l : γ → δ → γ × Outcome ρ) :
    after (after r k) l = after r fun s a => after (k s a) l := by
  rcases r with ⟨s, _ | _ | _ | _⟩ <;> rfl

/-- **C129**, what visiting is: the calls are made on the first `n` elements in order, on each once; `n` is the number of elements, or
the last call is the one that did not return, and its state and outcome are those of the whole. -/
theorem C129_visit (f : Fn σ α Unit) (xs : List α) : ∀ (l : List α) (s : σ), ∃ n, n ≤ xs.length ∧
    visit (logged f) (l, s) xs = ((l ++ xs.take n, (visit f s xs).1), (visit f s xs).2) ∧
    ((visit f s xs).2 = .ok () → n = xs.length) ∧
    ((visit f s xs).2 ≠ .ok () → ∃ k x s0, n = k + 1 ∧ xs[k]? = some x ∧ f s0 x = visit f s xs ∧
      visit f s (xs.take k) = (s0, .ok ())) := by
  induction xs with
  | nil => intro l s; exact ⟨0, by simp, by simp [visit], by simp, by simp [visit]⟩
  | cons x xs ih =>
    intro l s
    by_cases h : (f s x).2 = .ok ()
    · obtain ⟨n, h1, h2, h3, h4⟩ := ih (l ++ [x]) (f s x).1
      refine ⟨n + 1, by simp; omega, ?_, ?_, ?_⟩
      · have hl : (logged f (l, s) x).2 = .ok () := h
        rw [visit, if_pos hl, visit, if_pos h]
        have : (logged f (l, s) x).1 = (l ++ [x], (f s x).1) := rfl
        rw [this, h2]
        simp
      · rw [visit, if_pos h]
        intro hk
        rw [h3 hk, List.length_cons]
      · rw [visit, if_pos h]
        intro hk
        obtain ⟨k, y, s0, e1, e2, e3, e4⟩ := h4 hk
        refine ⟨k + 1, y, s0, by omega, by simpa using e2, e3, ?_⟩
        rw [List.take_succ_cons, visit, if_pos h, e4]
    · refine ⟨1, by simp, ?_, ?_, ?_⟩
      · have hl : ¬ (logged f (l, s) x).2 = .ok () := h
        rw [visit, if_neg hl, visit, if_neg h]
        rfl
      · rw [visit, if_neg h]
        intro hk
        exact (h hk).elim
      · rw [visit, if_neg h]
        intro _
        exact ⟨0, x, s, rfl, rfl, rfl, rfl⟩

/-- **C129**, `forEach` of constant arrays, vectors, strings and paths: visits the elements. -/
theorem C129_forEachConst (f : Fn σ α Unit) (s : σ) (cells : List α) : forEachConst f s cells = visit f s cells := by
  suffices ∀ (post pre : List α) (s : σ), forEachConstLoop f (pre ++ post) post.length pre.length s = visit f s post from this cells [] s
  intro post
  induction post with
  | nil => intro pre s; rfl
  | cons x post ih =>
    intro pre s
    rw [List.length_cons, forEachConstLoop, List.getElem?_append_right (Nat.le_refl _), Nat.sub_self, List.getElem?_cons_zero]
    dsimp only
    rw [← after_visit]
    congr 1
    funext s' _
    have := ih (pre ++ [x]) s'
    rw [List.append_assoc, List.singleton_append, List.length_append] at this
    exact this

theorem set_middle (pre post : List α) (x y : α) : (pre ++ x :: post).set pre.length y = pre ++ y :: post := by
  rw [List.set_append_right _ _ (Nat.le_refl _), Nat.sub_self, List.set_cons_zero]

/-- **C129**, `forEach` of arrays with a function that takes references, and of a path given away: visits the elements, and leaves the
rest of the array as it was when a call throws. -/
theorem C129_forEach (f : RefFn σ α Unit) (s : σ) (cells : List α) : forEach f s cells = visitRef f s cells := by
  suffices ∀ (post pre : List α) (s : σ), forEachLoop f post.length pre.length s (pre ++ post) =
      (((visitRef f s post).1.1, pre ++ (visitRef f s post).1.2), (visitRef f s post).2) by
    have := this cells [] s
    rw [forEach]
    exact this
  intro post
  induction post with
  | nil => intro pre s; simp [forEachLoop, visitRef]
  | cons x post ih =>
    intro pre s
    rw [List.length_cons, forEachLoop, List.getElem?_append_right (Nat.le_refl _), Nat.sub_self, List.getElem?_cons_zero]
    dsimp only
    rw [visitRef]
    rcases h : f s x with ⟨⟨s', x'⟩, _ | _ | _ | _⟩
    · dsimp only
      rw [if_pos rfl, set_middle]
      have := ih (pre ++ [x']) s'
      rw [List.append_assoc, List.singleton_append, List.length_append] at this
      rw [List.length_singleton] at this
      rw [this, List.append_assoc, List.singleton_append]
    all_goals dsimp only; rw [if_neg (by intro h; cases h), set_middle]

/-- **C129**, `forEach` with an index: the function is called with 0, 1, ... and the elements — copies of them, so that what it leaves in
its argument is lost. -/
theorem C129_forEachIndexed (copy : α → Outcome α) (hc : ∀ x, copy x = .ok x) (f : RefFn σ (Nat × α) Unit) (s : σ) (cells : List α) :
    forEachIndexed copy f s cells = visit (fun s p => ((f s p).1.1, (f s p).2)) s (cells.zipIdx.map fun p => (p.2, p.1)) := by
  suffices ∀ (post pre : List α) (s : σ), forEachIndexedLoop copy f (pre ++ post) post.length pre.length s =
      visit (fun s p => ((f s p).1.1, (f s p).2)) s ((post.zipIdx pre.length).map fun p => (p.2, p.1)) from this cells [] s
  intro post
  induction post with
  | nil => intro pre s; rfl
  | cons x post ih =>
    intro pre s
    rw [List.length_cons, forEachIndexedLoop, List.getElem?_append_right (Nat.le_refl _), Nat.sub_self, List.getElem?_cons_zero]
    dsimp only
    rw [hc, List.zipIdx_cons, List.map_cons, ← after_visit]
    dsimp only
    congr 1
    funext s' _
    have := ih (pre ++ [x]) s'
    rw [List.append_assoc, List.singleton_append, List.length_append] at this
    exact this

/-- **C129**, `forEach` with an index, for copies that may end in any way: as if each call began with the copy. -/
theorem C129_copies (copy : α → Outcome α) (f : RefFn σ (Nat × α) Unit) (s : σ) (cells : List α) :
    forEachIndexed copy f s cells = visit (fun s p => match copy p.2 with
      | .ok item => ((f s (p.1, item)).1.1, (f s (p.1, item)).2)
      | .throws => (s, .throws)
      | .terminate => (s, .terminate)
      | .ub => (s, .ub)) s (cells.zipIdx.map fun p => (p.2, p.1)) := by
  suffices ∀ (post pre : List α) (s : σ), forEachIndexedLoop copy f (pre ++ post) post.length pre.length s =
      visit (fun s p => match copy p.2 with
        | .ok item => ((f s (p.1, item)).1.1, (f s (p.1, item)).2)
        | .throws => (s, .throws)
        | .terminate => (s, .terminate)
        | .ub => (s, .ub)) s ((post.zipIdx pre.length).map fun p => (p.2, p.1)) from this cells [] s
  intro post
  induction post with
  | nil => intro pre s; rfl
  | cons x post ih =>
    intro pre s
    rw [List.length_cons, forEachIndexedLoop, List.getElem?_append_right (Nat.le_refl _), Nat.sub_self, List.getElem?_cons_zero]
    dsimp only
    rw [List.zipIdx_cons, List.map_cons, ← after_visit]
    dsimp only
    cases hx : copy x with
    | ok item =>
      dsimp only
      congr 1
      funext s' _
      have := ih (pre ++ [x]) s'
      rw [List.append_assoc, List.singleton_append, List.length_append] at this
      exact this
    | throws => rfl
    | terminate => rfl
    | ub => rfl

/-- **C129**, `forEach` with an index when a copy throws: nothing more is called. -/
theorem C129_copy_throws (copy : α → Outcome α) (f : RefFn σ (Nat × α) Unit) (s : σ) (x : α) (cells : List α) (h : copy x = .throws) :
    forEachIndexed copy f s (x :: cells) = (s, .throws) := by
  rw [forEachIndexed, List.length_cons, forEachIndexedLoop, List.getElem?_cons_zero]
  dsimp only
  rw [h]

/-- **C129**, `set`: the function is not called for an index outside; an exception of it leaves the array as it was. -/
theorem C129_set (index : Nat) (f : Fn σ Unit α) (s : σ) (cells : List α) :
    (cells.length ≤ index → set index f s cells = ((s, cells), .throws)) ∧
    (index < cells.length → (f s ()).2 = .throws → set index f s cells = (((f s ()).1, cells), .throws)) ∧
    (∀ x, index < cells.length → (f s ()).2 = .ok x → set index f s cells = (((f s ()).1, cells.set index x), .ok ())) := by
  refine ⟨fun h => by rw [set, if_pos h], fun h e => ?_, fun x h e => ?_⟩
  · rw [set, if_neg (by omega)]
    rcases g : f s () with ⟨s', _ | _ | _ | _⟩ <;> rw [g] at e <;> cases e <;> rfl
  · rw [set, if_neg (by omega)]
    rcases g : f s () with ⟨s', _ | _ | _ | _⟩ <;> rw [g] at e <;> cases e <;> rfl

theorem fillLoop_eq (f : Fn σ Nat α) : ∀ (post pre : List α) (s : σ), fillLoop f post.length pre.length s (pre ++ post) =
    (((replace f s pre.length post).1.1, pre ++ (replace f s pre.length post).1.2), (replace f s pre.length post).2) := by
  intro post
  induction post with
  | nil => intro pre s; simp [fillLoop, replace]
  | cons x post ih =>
    intro pre s
    rw [List.length_cons, fillLoop, replace]
    rcases h : f s pre.length with ⟨s', y | _ | _ | _⟩
    · dsimp only
      rw [if_pos (by simp), set_middle]
      have := ih (pre ++ [y]) s'
      rw [List.append_assoc, List.singleton_append, List.length_append] at this
      rw [List.length_singleton] at this
      rw [this, List.append_assoc, List.singleton_append]
    all_goals rfl

/-- **C129**, `fill`: the elements become the answers for 0, 1, ..., but an exception does not leave the call: it ends the program. -/
theorem C129_fill (f : Fn σ Nat α) (s : σ) (cells : List α) :
    fill f s cells = ((replace f s 0 cells).1, (replace f s 0 cells).2.noexcept) := by
  have := fillLoop_eq f cells [] s
  rw [List.nil_append, List.length_nil] at this
  rw [fill, this]
  rfl

theorem indexOfLoop_eq (eq : Fn σ (α × α) Bool) (value : α) : ∀ (post pre : List α) (s : σ),
    indexOfLoop eq value (pre ++ post) post.length pre.length s =
      ((first (fun s x => eq s (value, x)) s post).1, (first (fun s x => eq s (value, x)) s post).2 >>= fun r =>
        pure (r.map (pre.length + ·))) := by
  intro post
  induction post with
  | nil => intro pre s; rfl
  | cons x post ih =>
    intro pre s
    rw [List.length_cons, indexOfLoop, List.getElem?_append_right (Nat.le_refl _), Nat.sub_self, List.getElem?_cons_zero, first]
    dsimp only
    rcases h : eq s (value, x) with ⟨s', b | _ | _ | _⟩
    · cases b
      · have := ih (pre ++ [x]) s'
        rw [List.append_assoc, List.singleton_append, List.length_append, List.length_singleton] at this
        simp only [after, Bool.false_eq_true, if_false]
        rw [this]
        rcases (first (fun s x => eq s (value, x)) s' post).2 with r | _ | _ | _
        · cases r with
          | none => rfl
          | some n => simp only [Outcome.bind_ok, Outcome.pure_def, Option.map_some]; congr 3; omega
        all_goals rfl
      · rfl
    all_goals rfl

/-- **C129**, `indexOf` and `contains`: elements are compared from the first on until one is equal; an exception of `==` ends the
program. -/
theorem C129_indexOf (eq : Fn σ (α × α) Bool) (value : α) (s : σ) (cells : List α) :
    indexOf eq value s cells = ((first (fun s x => eq s (value, x)) s cells).1, (first (fun s x => eq s (value, x)) s cells).2.noexcept) ∧
    contains eq value s cells = ((first (fun s x => eq s (value, x)) s cells).1,
      (first (fun s x => eq s (value, x)) s cells).2.noexcept >>= fun r => pure r.isSome) := by
  have h := indexOfLoop_eq eq value cells [] s
  rw [List.nil_append, List.length_nil] at h
  have e : indexOf eq value s cells =
      ((first (fun s x => eq s (value, x)) s cells).1, (first (fun s x => eq s (value, x)) s cells).2.noexcept) := by
    rw [indexOf, h, sealed]
    rcases (first (fun s x => eq s (value, x)) s cells) with ⟨s', r | _ | _ | _⟩
    · cases r <;> simp
    all_goals rfl
  refine ⟨e, ?_⟩
  rw [contains, e]
  rcases (first (fun s x => eq s (value, x)) s cells) with ⟨s', r | _ | _ | _⟩ <;> rfl

theorem equalsLoop_eq (eq : Fn σ (α × α) Bool) : ∀ (as bs pa pb : List α) (s : σ), as.length = bs.length → pa.length = pb.length →
    equalsLoop eq (pa ++ as) (pb ++ bs) as.length pa.length s =
      ((first (fun s p => ((eq s p).1, (eq s p).2 >>= fun b => pure (!b))) s (as.zip bs)).1,
       (first (fun s p => ((eq s p).1, (eq s p).2 >>= fun b => pure (!b))) s (as.zip bs)).2 >>= fun r => pure r.isNone) := by
  intro as
  induction as with
  | nil => intro bs pa pb s h hp; rfl
  | cons a as ih =>
    intro bs pa pb s h hp
    cases bs with
    | nil => cases h
    | cons b bs =>
      rw [List.length_cons, equalsLoop, List.getElem?_append_right (Nat.le_refl _), Nat.sub_self, List.getElem?_cons_zero, hp,
        List.getElem?_append_right (Nat.le_refl _), Nat.sub_self, List.getElem?_cons_zero, List.zip_cons_cons, first]
      dsimp only
      rcases g : eq s (a, b) with ⟨s', e | _ | _ | _⟩
      · cases e
        · rfl
        · have := ih bs (pa ++ [a]) (pb ++ [b]) s' (Nat.succ.inj h) (by simp [hp])
          rw [List.append_assoc, List.singleton_append, List.append_assoc, List.singleton_append, List.length_append,
            List.length_singleton, hp] at this
          simp only [after, if_true]
          rw [this]
          dsimp only [Outcome.bind_ok, Outcome.pure_def, Bool.not_true]
          simp only [Bool.not_true]
          rcases (first (fun s p => ((eq s p).1, (eq s p).2 >>= fun b => Outcome.ok (!b))) s' (as.zip bs)).2 with r | _ | _ | _
          · cases r <;> rfl
          all_goals rfl
      all_goals rfl

/-- **C129**, `equals` of arrays: nothing is compared when the lengths differ or the two are one; else the pairs are compared from the
first on until two differ; an exception of `==` ends the program. -/
theorem C129_equals (eq : Fn σ (α × α) Bool) (same : Bool) (as bs : List α) (s : σ) :
    (as.length ≠ bs.length → equals eq same as bs s = (s, .ok false)) ∧
    (as.length = bs.length → same = true → equals eq same as bs s = (s, .ok true)) ∧
    (as.length = bs.length → same = false → equals eq same as bs s =
      ((first (fun s p => ((eq s p).1, (eq s p).2 >>= fun b => pure (!b))) s (as.zip bs)).1,
       ((first (fun s p => ((eq s p).1, (eq s p).2 >>= fun b => pure (!b))) s (as.zip bs)).2 >>= fun r => pure r.isNone).noexcept)) := by
  refine ⟨fun h => by rw [equals, if_pos h]; rfl, fun h hs => by rw [equals, if_neg (by simp [h]), if_pos hs]; rfl, fun h hs => ?_⟩
  have := equalsLoop_eq eq as bs [] [] s h rfl
  rw [List.nil_append, List.nil_append, List.length_nil] at this
  rw [equals, if_neg (by simp [h]), if_neg (by simp [hs]), this]
  rfl

/-! ### Splitting -/

theorem split1Loop_acc (s d : List Byte) : ∀ (fuel to' from' count : Nat) (acc : List (List Byte)),
    StringView.split1Loop s d fuel to' from' count acc =
      (StringView.split1Loop s d fuel to' from' count []).map fun r => (acc ++ r.1, r.2) := by
  intro fuel
  induction fuel with
  | zero => intros; rfl
  | succ fuel ih =>
    intro to' from' count acc
    rw [StringView.split1Loop, StringView.split1Loop]
    split
    · split
      · rw [ih, ih _ _ _ ([] ++ _)]
        rw [Option.map_map]
        congr 1
        funext r
        simp
      · exact ih _ _ _ _
    · simp

theorem splitLoop_eq (f : Fn σ (List Byte) Unit) (s d : List Byte) : ∀ (fuel to' from' count : Nat) (st : σ) (ps : List (List Byte))
    (n : Nat), StringView.split1Loop s d fuel to' from' count [] = some (ps, n) →
    splitLoop f s d fuel to' from' count st = some (after (visit f st ps) fun st' _ => (st', .ok n)) := by
  intro fuel
  induction fuel with
  | zero => intro _ _ _ _ _ _ h; cases h
  | succ fuel ih =>
    intro to' from' count st ps n h
    rw [StringView.split1Loop] at h
    rw [splitLoop]
    split at h
    · next h1 =>
      rw [if_pos h1]
      split at h
      · next h2 =>
        rw [if_pos h2]
        rw [split1Loop_acc] at h
        cases hr : StringView.split1Loop s d fuel (wrap16 (wrap16 (to' + (d.length - 1)) + 1))
          (wrap16 (wrap16 (to' + (d.length - 1)) + 1)) (wrap16 (count + 1)) [] with
        | none => rw [hr] at h; cases h
        | some r =>
          rw [hr] at h
          cases h
          have := fun st' => ih _ _ _ st' r.1 r.2 hr
          rw [List.nil_append, List.singleton_append, ← after_visit, after_assoc]
          rcases g : f st (StringView.substring s from' to') with ⟨st', u | _ | _ | _⟩
          · exact this st'
          all_goals rfl
      · next h2 =>
        rw [if_neg h2]
        exact ih _ _ _ _ _ _ h
    · next h1 =>
      rw [if_neg h1]
      cases h
      rw [List.nil_append, visit, visit]
      rcases g : f st (StringView.substring s from' s.length) with ⟨st', u | _ | _ | _⟩ <;> rfl

theorem splitEach_eq (f : Fn σ (List Byte) Unit) (s : List Byte) : ∀ (left to' : Nat) (st : σ),
    splitEach f s left to' st =
      after (visit f st ((List.range' to' left).map fun i => StringView.substring s i (wrap16 (i + 1)))) fun st' _ => (st', .ok s.length) := by
  intro left
  induction left with
  | zero => intros; rfl
  | succ left ih =>
    intro to' st
    rw [splitEach, List.range'_succ, List.map_cons, ← after_visit, after_assoc]
    congr 1
    funext st' _
    exact ih _ _

/-- **C129**, `split` with a string: whenever the loop ends (C28), the function is called with the pieces C27 is about, and their
number is returned if all calls return. -/
theorem C129_split (f : Fn σ (List Byte) Unit) (fuel : Nat) (s d : List Byte) (st : σ) (ps : List (List Byte)) (n : Nat)
    (h : StringView.split1 fuel s d = some (ps, n)) :
    split f fuel s d st = some (after (visit f st ps) fun st' _ => (st', .ok n)) := by
  rw [StringView.split1] at h
  rw [split]
  split at h
  · next h1 =>
    rw [if_pos h1]
    cases h
    rw [visit, visit]
    rcases g : f st s with ⟨st', u | _ | _ | _⟩ <;> rfl
  · next h1 =>
    rw [if_neg h1]
    split at h
    · next h2 =>
      rw [if_pos h2]
      cases h
      rw [splitEach_eq, List.range_eq_range']
    · next h2 =>
      rw [if_neg h2]
      exact splitLoop_eq f s d fuel 0 0 1 st ps n h

theorem split3Loop_acc (s d : List Byte) (dc : Nat) : ∀ (fuel to' from' i : Nat) (acc : List (List Byte × Nat × Nat)),
    StringView.split3Loop s d dc fuel to' from' i acc =
      (StringView.split3Loop s d dc fuel to' from' i []).map fun r => (acc ++ r.1, r.2) := by
  intro fuel
  induction fuel with
  | zero => intros; rfl
  | succ fuel ih =>
    intro to' from' count acc
    rw [StringView.split3Loop, StringView.split3Loop]
    split
    · split
      · rw [ih, ih _ _ _ ([] ++ _)]
        rw [Option.map_map]
        congr 1
        funext r
        simp
      · exact ih _ _ _ _
    · simp

theorem split3Loop_eq (f : Fn σ (List Byte × Nat × Nat) Unit) (s d : List Byte) (dc : Nat) : ∀ (fuel to' from' i : Nat) (st : σ)
    (ps : List (List Byte × Nat × Nat)) (from'' : Nat), StringView.split3Loop s d dc fuel to' from' i [] = some (ps, from'') →
    split3Loop f s d dc fuel to' from' i st =
      some (after (visit f st (ps ++ [(StringView.substring s from'' s.length, dc, wrap16 (dc + 1))])) fun st' _ =>
        (st', .ok (wrap16 (dc + 1)))) := by
  intro fuel
  induction fuel with
  | zero => intro _ _ _ _ _ _ h; cases h
  | succ fuel ih =>
    intro to' from' i st ps from'' h
    rw [StringView.split3Loop] at h
    rw [split3Loop]
    split at h
    · next h1 =>
      rw [if_pos h1]
      split at h
      · next h2 =>
        rw [if_pos h2]
        rw [split3Loop_acc] at h
        cases hr : StringView.split3Loop s d dc fuel (wrap16 (sub16 (to' + d.length) 1 + 1))
          (wrap16 (sub16 (to' + d.length) 1 + 1)) (wrap16 (i + 1)) [] with
        | none => rw [hr] at h; cases h
        | some r =>
          rw [hr] at h
          cases h
          have := fun st' => ih _ _ _ st' r.1 r.2 hr
          rw [List.nil_append, List.append_assoc, List.singleton_append, ← after_visit, after_assoc]
          rcases g : f st (StringView.substring s from' to', i, wrap16 (dc + 1)) with ⟨st', u | _ | _ | _⟩
          · exact this st'
          all_goals rfl
      · next h2 =>
        rw [if_neg h2]
        exact ih _ _ _ _ _ _ h
    · next h1 =>
      rw [if_neg h1]
      cases h
      rw [List.nil_append, visit, visit]
      rcases g : f st (StringView.substring s from' s.length, dc, wrap16 (dc + 1)) with ⟨st', u | _ | _ | _⟩ <;> rfl

/-- **C129**, `split` with indices. -/
theorem C129_split3 (f : Fn σ (List Byte × Nat × Nat) Unit) (fuel : Nat) (s d : List Byte) (st : σ) (ps : List (List Byte × Nat × Nat))
    (n : Nat) (h : StringView.split3 fuel s d = some (ps, n)) :
    split3 f fuel s d st = some (after (visit f st ps) fun st' _ => (st', .ok n)) := by
  rw [StringView.split3] at h
  rw [split3]
  cases h1 : StringView.split3Count s d fuel 0 0 with
  | none => rw [h1] at h; cases h
  | some dc =>
    rw [h1] at h
    dsimp only at h ⊢
    cases h2 : StringView.split3Loop s d dc fuel 0 0 0 [] with
    | none => rw [h2] at h; cases h
    | some r =>
      rw [h2] at h
      cases h
      exact split3Loop_eq f s d dc fuel 0 0 0 st r.1 r.2 h2

theorem splitCharLoop_acc (s : List Byte) (c : Byte) : ∀ (k to' from' count : Nat) (acc : List (List Byte)),
    StringView.splitCharLoop s c k to' from' count acc =
      (acc ++ (StringView.splitCharLoop s c k to' from' count []).1, (StringView.splitCharLoop s c k to' from' count []).2) := by
  intro k
  induction k with
  | zero => intros; rfl
  | succ k ih =>
    intro to' from' count acc
    rw [StringView.splitCharLoop, StringView.splitCharLoop]
    split
    · rw [ih, ih _ _ _ ([] ++ _)]
      simp
    · exact ih _ _ _ _

/-- **C129**, `split` with a character. -/
theorem C129_splitChar (f : Fn σ (List Byte) Unit) (s : List Byte) (c : Byte) (st : σ) :
    splitChar f s c st = after (visit f st (StringView.splitChar s c).1) fun st' _ => (st', .ok (StringView.splitChar s c).2) := by
  suffices ∀ (k to' from' count : Nat) (st : σ), splitCharLoop f s c k to' from' count st =
      after (visit f st (StringView.splitCharLoop s c k to' from' count []).1) fun st' _ =>
        (st', .ok (StringView.splitCharLoop s c k to' from' count []).2) from this _ _ _ _ _
  intro k
  induction k with
  | zero =>
    intro to' from' count st
    rw [splitCharLoop, StringView.splitCharLoop, List.nil_append, visit, visit]
    rcases g : f st (StringView.substring s from' s.length) with ⟨st', u | _ | _ | _⟩ <;> rfl
  | succ k ih =>
    intro to' from' count st
    rw [splitCharLoop, StringView.splitCharLoop]
    split
    · rw [splitCharLoop_acc, List.nil_append, List.singleton_append, ← after_visit, after_assoc]
      congr 1
      funext st' _
      exact ih _ _ _ _
    · exact ih _ _ _ _

/-! ### Filtered ranges, Optional, Result -/

/-- **C129**, going to the next element of a filtered range: the predicate is called on the following elements until one is accepted;
an exception of it ends the program. -/
theorem C129_next (pred : Fn σ α Bool) (xs : List α) (current : Nat) (hc : current < xs.length) (s : σ) :
    next pred xs current s =
      ((first pred s (xs.drop (current + 1))).1,
       (first pred s (xs.drop (current + 1))).2.noexcept >>= fun r =>
         pure (match r with | some k => current + 1 + k | none => xs.length)) := by
  suffices ∀ (left current : Nat) (s : σ), current + 1 + left = xs.length → skipLoop pred xs left current s =
      ((first pred s (xs.drop (current + 1))).1,
       (first pred s (xs.drop (current + 1))).2 >>= fun r => pure (match r with | some k => current + 1 + k | none => xs.length)) by
    rw [next, if_neg (by omega), this _ _ _ (by omega), sealed]
    rcases first pred s (xs.drop (current + 1)) with ⟨s', r | _ | _ | _⟩ <;> rfl
  intro left
  induction left with
  | zero =>
    intro current s h
    rw [skipLoop, List.drop_eq_nil_of_le (by omega), first]
    dsimp only
    rw [show (Outcome.ok none >>= fun r : Option Nat => (pure (match r with | some k => current + 1 + k | none => xs.length) : Outcome Nat))
      = .ok xs.length from rfl, ← h]
  | succ left ih =>
    intro current s h
    have hlt : current + 1 < xs.length := by omega
    rw [skipLoop, List.getElem?_eq_getElem hlt, List.drop_eq_getElem_cons hlt, first]
    dsimp only
    rcases g : pred s xs[current + 1] with ⟨s', b | _ | _ | _⟩
    · cases b
      · simp only [after, Bool.false_eq_true, if_false]
        rw [ih _ _ (by omega)]
        rcases (first pred s' (xs.drop (current + 1 + 1))).2 with r | _ | _ | _
        · cases r with
          | none => rfl
          | some k =>
            simp only [Outcome.bind_ok, Outcome.pure_def, Option.map_some, Prod.mk.injEq, Outcome.ok.injEq, true_and]
            omega
        all_goals rfl
      · rfl
    all_goals rfl

/-- **C129**, `Optional` and `Result`: a function is called once when there is a payload for it, else not; how it ends is how the call
ends, and its answer is what the result is made of. -/
theorem C129_payload {V U E E' : Type} (s : σ) (x : α) (v : V) (e : E) (f : Fn σ α β) (g : Fn σ α (Option β)) (p : Fn σ α Bool)
    (t : Fn σ V (Res.Res U E)) (tv : Fn σ V U) (o : Fn σ E (Res.Res V E)) (m : Fn σ E E') :
    (optMap f none s = (s, .ok none) ∧ optMap f (some x) s = ((f s x).1, (f s x).2 >>= fun y => pure (some y))) ∧
    (optFlatMap g none s = (s, .ok none) ∧ optFlatMap g (some x) s = g s x) ∧
    (optFilter p none s = (s, .ok none) ∧
      optFilter p (some x) s = ((p s x).1, (p s x).2 >>= fun b => pure (if b = true then some x else none))) ∧
    (resThen t (.err e) s = (s, .ok (.err e)) ∧ resThen t (.ok v) s = t s v) ∧
    (resThenValue tv (.err e) s = (s, .ok (.err e)) ∧
      resThenValue (E := E) tv (.ok v) s = ((tv s v).1, (tv s v).2 >>= fun u => pure (.ok u))) ∧
    (resOrElse o (.ok v) s = (s, .ok (.ok v)) ∧ resOrElse o (.err e) s = o s e) ∧
    (resMapError m (.ok v) s = (s, .ok (.ok v)) ∧
      resMapError (V := V) m (.err e) s = ((m s e).1, (m s e).2 >>= fun e' => pure (.err e'))) := by
  refine ⟨⟨rfl, ?_⟩, ⟨rfl, rfl⟩, ⟨rfl, ?_⟩, ⟨rfl, rfl⟩, ⟨rfl, ?_⟩, ⟨rfl, rfl⟩, ⟨rfl, ?_⟩⟩
  · rw [optMap]; rcases f s x with ⟨s', _ | _ | _ | _⟩ <;> rfl
  · rw [optFilter]; rcases p s x with ⟨s', _ | _ | _ | _⟩ <;> rfl
  · rw [resThenValue]; rcases tv s v with ⟨s', _ | _ | _ | _⟩ <;> rfl
  · rw [resMapError]; rcases m s e with ⟨s', _ | _ | _ | _⟩ <;> rfl

/-! ### Where the property fails -/

/-- A function that counts its calls and throws at the third. -/
def thirdThrows : Fn Nat Nat Nat := fun s i => (s + 1, if s = 2 then .throws else .ok (10 * i))

/-- **C129, negation**: filling an array of any four elements with a function that throws at its third call ends the program, while
visiting the same array with the function lets the exception through after three calls. -/
theorem C129_fill_ends (a b c d : Nat) :
    fill thirdThrows 0 [a, b, c, d] = ((3, [0, 10, c, d]), .terminate) ∧
    forEachConst (fun s x => ((thirdThrows s x).1, (thirdThrows s x).2 >>= fun _ => pure ())) 0 [a, b, c, d] = (3, .throws) := by
  constructor <;> rfl

/-- **C129, negation**: so does a comparison that throws, in `indexOf`, `contains` and `equals`, and a predicate in a filtered range. -/
theorem C129_compare_ends (x : α) (s : σ) :
    indexOf (fun s _ => (s, .throws)) x s [x] = (s, .terminate) ∧ contains (fun s _ => (s, .throws)) x s [x] = (s, .terminate) ∧
    equals (fun s _ => (s, .throws)) false [x] [x] s = (s, .terminate) ∧ next (fun s _ => (s, .throws)) [x, x] 0 s = (s, .terminate) := by
  refine ⟨rfl, rfl, rfl, rfl⟩

/-- Visiting three numbers with a function that throws at its second call. -/
example : visit (logged (fun (s : Nat) (x : Nat) => (s + x, if s = 5 then .throws else .ok ()))) ([], 0) [5, 6, 7] =
    (([5, 6], 11), .throws) := rfl

example : forEach (fun (s : Nat) (x : Nat) => ((s + 1, x * x), if s = 1 then .throws else .ok ())) 0 [5, 6, 7] =
    ((2, [25, 36, 7]), .throws) := rfl

/-- "a,b,c" split by a function that throws at "b". -/
example : StringView.split1 6 [97#8, 44#8, 98#8, 44#8, 99#8] [44#8] = some ([[97#8], [98#8], [99#8]], 3) := by decide +kernel
example : split (fun (s : List (List Byte)) x => (s ++ [x], if x = [98#8] then .throws else .ok ())) 6
    [97#8, 44#8, 98#8, 44#8, 99#8] [44#8] [] = some ([[97#8], [98#8]], .throws) := by
  rw [C129_split _ _ _ _ _ [[97#8], [98#8], [99#8]] 3 (by decide +kernel)]
  decide +kernel
example : StringView.split3 6 [97#8, 44#8, 98#8] [44#8] = some ([([97#8], 0, 2), ([98#8], 1, 2)], 2) := by decide +kernel

end Solace.Calls
