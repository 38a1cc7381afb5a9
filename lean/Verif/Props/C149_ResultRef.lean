import Verif.Lemmas.ResultRefStep
/-
C149: a result of a reference stands for the object it was made from, for as long as that object is there.
-/
namespace Solace.ResRef

/-- Every state a program reaches is sane: vectors do not share memory, and elements fit in it. -/
theorem C149_sane (ss : List Stmt) : ∀ (w : World), Sane w → ∀ w' os, run w ss = .ok (w', os) → Sane w' := by
  induction ss with
  | nil => intro w hs w' os h; cases h; exact hs
  | cons s ss ih =>
    intro w hs w' os h
    rw [run] at h
    cases e : step w s with
    | throws => rw [e] at h; cases h
    | terminate => rw [e] at h; cases h
    | ub => rw [e] at h; cases h
    | ok x =>
      obtain ⟨w1, o⟩ := x
      rw [e] at h
      dsimp only at h
      cases e2 : run w1 ss with
      | throws => rw [e2] at h; cases h
      | terminate => rw [e2] at h; cases h
      | ub => rw [e2] at h; cases h
      | ok y =>
        obtain ⟨w2, os'⟩ := y
        rw [e2] at h
        cases h
        exact ih w1 (step_sane hs e) _ os' e2

/-- From the start of the program. -/
theorem C149_sane_init (ss : List Stmt) (w' : World) (os : List Seen) (h : run init ss = .ok (w', os)) : Sane w' :=
  C149_sane ss init sane_init w' os h

example : ∃ w os, run init [.vec 0 2, .push 0 0 5, .moveVec 1 0, .read 0] = .ok (w, os) ∧ os = [.nothing, .nothing, .nothing, .value 5] :=
  ⟨_, _, rfl, rfl⟩

/-- An object ends with exactly the statements of the specification. -/
theorem C149_ends_iff {w w' : World} {s : Stmt} {o : Seen} (hs : Sane w) (h : step w s = .ok (w', o)) (p : Place) {x : Nat}
    (hp : w.valueAt p = some x) : w'.valueAt p = none ↔ Ends w p s := by
  have k := step_value hs h p x hp
  constructor
  · intro hn
    apply Classical.byContradiction
    intro he
    rw [k.2 he] at hn
    cases hn
  · exact k.1

/-- Otherwise it has the value the statement gave it, or keeps the one it had. -/
theorem C149_value {w w' : World} {s : Stmt} {o : Seen} (hs : Sane w) (h : step w s = .ok (w', o)) (p : Place) {x : Nat}
    (hp : w.valueAt p = some x) (he : ¬ Ends w p s) : w'.valueAt p = some ((written w p s).getD x) :=
  (step_value hs h p x hp).2 he

/-- A result refers to the same place until a statement makes or changes the result. -/
theorem C149_targets {w w' : World} {s : Stmt} {o : Seen} (h : step w s = .ok (w', o)) (r : Nat) (hr : r ∉ targets s) :
    w'.ress r = w.ress r :=
  step_ress h r hr

/-- **Reading through a result.** However long the program, while the object is there and the result is not made anew, the result shows the
value given to the object last: by name, by index, or through this or another result. -/
theorem C149_reading (p : Place) (r : Nat) : ∀ (ss : List Stmt) (w : World) (v v' : Nat), Sane w → w.ress r = .ok p → w.valueAt p = some v →
    Follows p r w ss v v' → ∃ w' os, run w ss = .ok (w', os) ∧ step w' (.read r) = .ok (w', .value v') := by
  intro ss
  induction ss with
  | nil =>
    intro w v v' hs hr hp hf
    cases hf
    refine ⟨w, [], rfl, ?_⟩
    rw [step, hr]
    dsimp only
    rw [hp]
  | cons s ss ih =>
    intro w v v' hs hr hp hf
    obtain ⟨he, ht, w1, o, hw, hf⟩ := hf
    obtain ⟨w', os, hrun, hread⟩ := ih w1 _ v' (step_sane hs hw) ((step_ress hw r ht).trans hr) (C149_value hs hw p hp he) hf
    refine ⟨w', o :: os, ?_, hread⟩
    rw [run, hw]
    dsimp only
    rw [hrun]

/-- A reference to a variable: other variables and vectors end, the variable is set by name and through a second result. -/
example : ∃ w os, run init [.bind 0 3, .endObj 4, .setObj 3 7, .moveNew 1 0, .write 1 9, .read 0, .readObj 3] = .ok (w, os) ∧
    os = [.nothing, .nothing, .nothing, .nothing, .nothing, .value 9, .value 9] := ⟨_, _, rfl, rfl⟩
example : Follows (.obj 3) 0 { init with ress := upd init.ress 0 (.ok (.obj 3)) } [.endObj 4, .setObj 3 7] 0 7 :=
  ⟨by unfold Ends; decide, by decide, _, _, rfl, by unfold Ends; exact id, by decide, _, _, rfl, rfl⟩

/-- **`emplace_back`.** The result is Ok exactly if the vector has room; it refers to the new last element, which has the value given. -/
theorem C149_push (w : World) (r i v : Nat) : ∃ w', step w (.push r i v) = .ok (w', .nothing) ∧
    ((w.elems i).length < (w.vecs i).cap ∧ (w.vecs i).buf ≠ none →
      w'.elems i = w.elems i ++ [v] ∧ (∃ b, w.Holds i b ∧ w'.ress r = .ok (.slot b (w.elems i).length)) ∧
      step w' (.read r) = .ok (w', .value v)) ∧
    (¬ ((w.elems i).length < (w.vecs i).cap ∧ (w.vecs i).buf ≠ none) →
      w'.elems i = w.elems i ∧ w'.ress r = .error overflow) := by
  refine ⟨_, rfl, ?_, ?_⟩
  · rintro ⟨hl, hb⟩
    rcases holds_or_empty w i with ⟨b, hh⟩ | hn
    · rw [emplace_room hh hl v]
      have he : World.elems { w with bufs := upd w.bufs b (some (w.elems i ++ [v])), ress := upd w.ress r (.ok (.slot b (w.elems i).length)) } i
          = w.elems i ++ [v] := by
        refine (elems_of_holds (b := b) (by exact hh)).trans ?_
        dsimp only
        rw [upd_same]; rfl
      refine ⟨he, ⟨b, hh, upd_same _ _ _⟩, ?_⟩
      rw [step]
      dsimp only
      rw [upd_same]
      dsimp only
      rw [valueAt_holds (i := i) (by exact hh), he]
      simp
    · exact absurd hn hb
  · intro hn
    rcases holds_or_empty w i with ⟨b, hh⟩ | hnb
    · have hb : (w.vecs i).buf ≠ none := by unfold World.Holds at hh; rw [hh]; intro h; cases h
      have hl : (w.vecs i).cap ≤ (w.elems i).length := by
        rcases Nat.lt_or_ge (w.elems i).length (w.vecs i).cap with h | h
        · exact absurd ⟨h, hb⟩ hn
        · exact h
      rw [emplace_full hl v]
      exact ⟨rfl, upd_same _ _ _⟩
    · rw [emplace_of_none hnb v]
      exact ⟨rfl, upd_same _ _ _⟩

example : ∃ w os, run init [.vec 0 1, .push 0 0 5, .push 1 0 6, .read 0, .error 1] = .ok (w, os) ∧
    os = [.nothing, .nothing, .nothing, .value 5, .error overflow] := ⟨_, _, rfl, rfl⟩

/-- **Which results may be used.** Reading, writing and `then` are undefined exactly for a result that refers to an object that has ended;
results holding an error are refused, or passed on. -/
theorem C149_dangling (w : World) (r t v : Nat) :
    (step w (.read r) = .ub ↔ ∃ p, w.ress r = .ok p ∧ w.valueAt p = none) ∧
    (step w (.write r v) = .ub ↔ ∃ p, w.ress r = .ok p ∧ w.valueAt p = none) ∧
    (step w (.thenSet t r v) = .ub ↔ ∃ p, w.ress r = .ok p ∧ w.valueAt p = none) := by
  simp only [step]
  cases hr : w.ress r with
  | error e => simp
  | ok p => cases hp : w.valueAt p <;> simp [hp]

/-- Dangling after the end of the vector; not after a move of the vector. -/
example : run init [.vec 0 2, .push 0 0 5, .dropVec 0, .read 0] = .ub := rfl
example : ∃ w, run init [.vec 0 2, .push 0 0 5, .moveVec 1 0, .dropVec 0, .read 0] = .ok (w, [.nothing, .nothing, .nothing, .nothing, .value 5]) :=
  ⟨_, rfl⟩

/-- **Nothing else.** The remaining statements about results and vectors are undefined only for objects named after their end, for a variable
made from itself, for a dictionary whose two vectors are one, and for a key without a value. -/
theorem C149_undefined (w : World) (s : Stmt) : step w s = .ub ↔
    (∃ a, (s = .readObj a ∨ (∃ v, s = .setObj a v) ∨ (∃ r, s = .bind r a) ∨
      (∃ t r e, s = .orElse t r a ∧ w.ress r = .error e)) ∧ w.objs a = none) ∨
    (∃ r p, (s = .read r ∨ (∃ v, s = .write r v) ∨ (∃ t v, s = .thenSet t r v)) ∧ w.ress r = .ok p ∧ w.valueAt p = none) ∨
    (∃ r, s = .moveNew r r) ∨ (∃ i, s = .moveVec i i) ∨ (∃ r i key v, s = .put r i i key v) ∨
    (∃ ki vi key, s = .lookup ki vi key ∧ key ∈ w.elems ki ∧ (w.elems vi).length ≤ (w.elems ki).idxOf key) := by
  cases s with
  | setObj a v => simp only [step]; cases h : w.objs a <;> simp [h]
  | readObj a => simp only [step]; cases h : w.objs a <;> simp [h]
  | bind r a => simp only [step]; cases h : w.objs a <;> simp [h]
  | moveNew r t =>
    simp only [step]
    by_cases e : r = t
    · simp [e]
    · simp [e]; intro h; exact e h.symm
  | read r =>
    rw [(C149_dangling w r 0 0).1]
    simp
  | write r v =>
    rw [(C149_dangling w r 0 v).2.1]
    simp
  | thenSet t r v =>
    rw [(C149_dangling w r t v).2.2]
    simp
  | error r => simp only [step]; cases h : w.ress r <;> simp
  | mapError t r k => simp only [step]; cases h : w.ress r <;> simp
  | orElse t r a =>
    simp only [step]
    cases h : w.ress r with
    | ok p => simp [h]
    | error e =>
      cases h' : w.objs a with
      | some y => simp [h']
      | none => simp; exact ⟨a, ⟨t, r, ⟨rfl, rfl, rfl⟩, e, h⟩, h'⟩
  | readAt i k => simp only [step]; cases h : (w.elems i)[k]? <;> simp
  | setAt i k v => simp only [step]; cases h : (w.elems i)[k]? <;> simp
  | moveVec i j =>
    simp only [step]
    by_cases e : i = j
    · simp [e]
    · simp [e]; intro h; exact e h.symm
  | put r ki vi key v =>
    simp only [step]
    by_cases e : ki = vi
    · simp [e]
    · simp only [e, if_false]
      constructor
      · intro h
        rcases hm : w.emplace vi v with ⟨w1, q⟩
        rw [hm] at h
        cases q with
        | error _ => cases h
        | ok q =>
          dsimp only at h
          rcases hm2 : w1.emplace ki key with ⟨w2, q2⟩
          rw [hm2] at h
          cases q2 <;> cases h
      · intro h
        simp at h
        exact absurd h.symm e
  | lookup ki vi key =>
    simp only [step]
    by_cases e : key ∈ w.elems ki
    · rw [if_pos (by simpa using e)]
      rcases Nat.lt_or_ge ((w.elems ki).idxOf key) (w.elems vi).length with hl | hl
      · rw [List.getElem?_eq_getElem hl]
        simp
        intro _
        exact hl
      · rw [List.getElem?_eq_none hl]
        simp
        exact ⟨ki, vi, key, ⟨rfl, rfl, rfl⟩, e, hl⟩
    · rw [if_neg (by simpa using e)]
      simp
      intro h
      exact absurd h e
  | _ => simp [step]

/-- **Moved results.** A result a new one was made from still refers to the same object; `r = mv(s)` exchanges the two. -/
theorem C149_moved (w : World) (r s : Nat) :
    (r ≠ s → ∃ w', step w (.moveNew r s) = .ok (w', .nothing) ∧ w'.ress r = w.ress s ∧ w'.ress s = w.ress s) ∧
    (∃ w', step w (.swap r s) = .ok (w', .nothing) ∧ w'.ress r = w.ress s ∧ w'.ress s = w.ress r) := by
  constructor
  · intro h
    refine ⟨_, by rw [step, if_neg h], upd_same _ _ _, upd_other _ _ (fun e => h e.symm)⟩
  · refine ⟨_, rfl, ?_, upd_same _ _ _⟩
    dsimp only
    by_cases e : r = s
    · subst e; rw [upd_same]
    · rw [upd_other _ _ e, upd_same]

/-- **Functions of results.** `then` with a function that returns its argument, `mapError` on a value and `orElse` on a value give results that
refer to the same object as the one they were called on, not to a copy. -/
theorem C149_functions {w : World} {p : Place} {x : Nat} (t r v k a : Nat) (hr : w.ress r = .ok p) (hp : w.valueAt p = some x) :
    (∃ w', step w (.thenSet t r v) = .ok (w', .nothing) ∧ w'.ress t = .ok p ∧ w'.valueAt p = some v) ∧
    (∃ w', step w (.mapError t r k) = .ok (w', .nothing) ∧ w'.ress t = .ok p ∧ w'.valueAt p = some x) ∧
    (∃ w', step w (.orElse t r a) = .ok (w', .nothing) ∧ w'.ress t = .ok p ∧ w'.valueAt p = some x) := by
  refine ⟨⟨{ w.assign p v with ress := upd w.ress t (.ok p) }, by rw [step, hr]; dsimp only; rw [hp], upd_same _ _ _, ?_⟩,
    ⟨{ w with ress := upd w.ress t (.ok p) }, by rw [step, hr], upd_same _ _ _, ?_⟩,
    ⟨{ w with ress := upd w.ress t (.ok p) }, by rw [step, hr], upd_same _ _ _, ?_⟩⟩
  · rw [valueAt_ress, valueAt_assign hp, if_pos rfl]
  · rw [valueAt_ress]; exact hp
  · rw [valueAt_ress]; exact hp

example : ∃ w os, run init [.bind 0 3, .thenSet 1 0 4, .write 1 6, .readObj 3, .read 0] = .ok (w, os) ∧
    os = [.nothing, .nothing, .nothing, .value 6, .value 6] := ⟨_, _, rfl, rfl⟩

/-- The same functions on an error: `then` passes it on, `mapError` gives another, `orElse` a reference to the object of the handler. -/
theorem C149_functions_error {w : World} {e x : Nat} (t r v k a : Nat) (hr : w.ress r = .error e) (ha : w.objs a = some x) :
    (∃ w', step w (.thenSet t r v) = .ok (w', .nothing) ∧ w'.ress t = .error e ∧ w'.objs = w.objs ∧ w'.bufs = w.bufs) ∧
    (∃ w', step w (.mapError t r k) = .ok (w', .nothing) ∧ w'.ress t = .error (e + k)) ∧
    (∃ w', step w (.orElse t r a) = .ok (w', .nothing) ∧ w'.ress t = .ok (.obj a)) ∧
    step w (.error r) = .ok (w, .error e) ∧ step w (.read r) = .ok (w, .raised) ∧ step w (.write r v) = .ok (w, .raised) := by
  refine ⟨⟨{ w with ress := upd w.ress t (.error e) }, by rw [step, hr], upd_same _ _ _, rfl, rfl⟩,
    ⟨{ w with ress := upd w.ress t (.error (e + k)) }, by rw [step, hr], upd_same _ _ _⟩,
    ⟨{ w with ress := upd w.ress t (.ok (.obj a)) }, by rw [step, hr]; dsimp only; rw [ha], upd_same _ _ _⟩, ?_, ?_, ?_⟩
  · rw [step, hr]
  · rw [step, hr]
  · rw [step, hr]

example : init.ress 0 = .error 0 ∧ init.objs 0 = some 0 := ⟨rfl, rfl⟩

/-- **A place used again.** After the last element is removed and another put in its place, the old result, which nothing has marked, refers
to the new element. -/
theorem C149_reused {w : World} (hs : Sane w) {i b r t v : Nat} {es : List Nat} {x : Nat} (hh : w.Holds i b) (he : w.elems i = es ++ [x])
    (hr : w.ress r = .ok (.slot b es.length)) (ht : t ≠ r) :
    ∃ w' os, run w [.pop i, .push t i v, .read r] = .ok (w', os) ∧ os = [.nothing, .nothing, .value v] := by
  obtain ⟨hbn, es', hb, hcap⟩ := hs.there i b hh
  have hes : es' = es ++ [x] := by rw [elems_of_holds hh, hb] at he; exact he
  have hlen : es.length < (w.vecs i).cap := by rw [hes] at hcap; simp at hcap; omega
  have h1 : step w (.pop i) = .ok ({ w with bufs := upd w.bufs b (some es) }, .nothing) := by
    rw [step, setElems_of_holds hh, he, List.dropLast_concat]
  have he1 : World.elems { w with bufs := upd w.bufs b (some es) } i = es := by
    refine (elems_of_holds (b := b) (by exact hh)).trans ?_
    dsimp only
    rw [upd_same]; rfl
  have h2 : step { w with bufs := upd w.bufs b (some es) } (.push t i v) =
      .ok ({ w with bufs := upd (upd w.bufs b (some es)) b (some (es ++ [v])), ress := upd w.ress t (.ok (.slot b es.length)) }, .nothing) := by
    rw [step, emplace_room (b := b) (by exact hh) (by rw [he1]; exact hlen) v, he1]
  have h3 : step { w with bufs := upd (upd w.bufs b (some es)) b (some (es ++ [v])), ress := upd w.ress t (.ok (.slot b es.length)) } (.read r) =
      .ok ({ w with bufs := upd (upd w.bufs b (some es)) b (some (es ++ [v])), ress := upd w.ress t (.ok (.slot b es.length)) }, .value v) := by
    rw [step]
    dsimp only
    rw [upd_other _ _ (fun e => ht e.symm), hr]
    dsimp only
    rw [World.valueAt]
    dsimp only
    rw [upd_same]
    simp
  refine ⟨{ w with bufs := upd (upd w.bufs b (some es)) b (some (es ++ [v])), ress := upd w.ress t (.ok (.slot b es.length)) }, _, ?_, rfl⟩
  rw [run, h1]
  dsimp only
  rw [run, h2]
  dsimp only
  rw [run, h3]
  rfl

example : ∃ w os, run init [.vec 0 2, .push 0 0 5, .pop 0, .push 1 0 6, .read 0] = .ok (w, os) ∧
    os = [.nothing, .nothing, .nothing, .nothing, .value 6] := ⟨_, _, rfl, rfl⟩

/-- **`put` and `find`.** If `put` of a key the dictionary does not have gives Ok, `find` of that key gives the value; after writing through
the result, `find` gives what was written. -/
theorem C149_put_find {w w1 : World} (hs : Sane w) {r ki vi key v : Nat} {o : Seen} {p : Place}
    (hsame : (w.elems ki).length = (w.elems vi).length) (hkey : key ∉ w.elems ki)
    (h : step w (.put r ki vi key v) = .ok (w1, o)) (hp : w1.ress r = .ok p) :
    step w1 (.lookup ki vi key) = .ok (w1, .value v) ∧
    ∀ u, ∃ w2, step w1 (.write r u) = .ok (w2, .nothing) ∧ step w2 (.lookup ki vi key) = .ok (w2, .value u) := by
  rw [step] at h
  split at h
  · cases h
  · rename_i hne
    rcases emplace_cases w vi v with e | ⟨b, hb, hl, e⟩
    · rw [e] at h
      cases h
      dsimp only at hp
      rw [upd_same] at hp
      cases hp
    · rw [e] at h
      dsimp only at h
      have hv1 : World.elems { w with bufs := upd w.bufs b (some (w.elems vi ++ [v])) } vi = w.elems vi ++ [v] := by
        refine (elems_of_holds (b := b) (by exact hb)).trans ?_
        dsimp only
        rw [upd_same]; rfl
      have hk1 : ∀ c, w.Holds ki c → World.elems { w with bufs := upd w.bufs b (some (w.elems vi ++ [v])) } ki = w.elems ki := by
        intro c hc
        have hcb : c ≠ b := fun e' => hne (hs.alone ki vi b (e' ▸ hc) hb)
        refine (elems_of_holds (b := c) (by exact hc)).trans ?_
        rw [elems_of_holds hc]
        dsimp only
        rw [upd_other _ _ hcb]
      rcases emplace_cases { w with bufs := upd w.bufs b (some (w.elems vi ++ [v])) } ki key with e2 | ⟨c, hc, hl2, e2⟩
      · rw [e2] at h
        cases h
        dsimp only at hp
        rw [upd_same] at hp
        cases hp
      · rw [e2] at h
        have hc' : w.Holds ki c := hc
        have hcb : c ≠ b := fun e' => hne (hs.alone ki vi b (e' ▸ hc') hb)
        rw [hk1 c hc'] at h
        cases h
        dsimp only at hp
        rw [upd_same] at hp
        cases hp
        refine ⟨lookup_last (ks := w.elems ki) (vs := w.elems vi) ?_ ?_ hsame hkey, ?_⟩
        · exact elems_eq (b := c) (by exact hc') (upd_same _ _ _)
        · exact elems_eq (b := b) (by exact hb) ((upd_other _ _ (fun e' => hcb e'.symm)).trans (upd_same _ _ _))
        · intro u
          refine ⟨{ w with
            bufs := upd (upd (upd w.bufs b (some (w.elems vi ++ [v]))) c (some (w.elems ki ++ [key]))) b (some (w.elems vi ++ [u])),
            ress := upd w.ress r (.ok (.slot b (w.elems vi).length)) }, ?_, lookup_last (ks := w.elems ki) (vs := w.elems vi) ?_ ?_ hsame hkey⟩
          · rw [step]
            dsimp only
            rw [upd_same]
            dsimp only
            rw [World.valueAt]
            dsimp only
            rw [upd_other _ _ (fun e' => hcb e'.symm), upd_same]
            simp [World.assign, upd_other _ _ (fun e' => hcb e'.symm), upd_same]
          · exact elems_eq (b := c) (by exact hc') ((upd_other _ _ hcb).trans (upd_same _ _ _))
          · exact elems_eq (b := b) (by exact hb) (upd_same _ _ _)

example : ∃ w os, run init [.vec 0 2, .vec 1 2, .put 0 0 1 4 5, .put 1 0 1 6 7, .write 0 9, .lookup 0 1 4, .lookup 0 1 6] = .ok (w, os) ∧
    os = [.nothing, .nothing, .nothing, .nothing, .nothing, .value 9, .value 7] := ⟨_, _, rfl, rfl⟩

/-- A `put` that gives an error leaves both vectors with the elements they had, and shows the error of `emplace_back`. -/
theorem C149_put_failed {w w1 : World} (hs : Sane w) {r ki vi key v : Nat} {o : Seen} {e : Nat}
    (h : step w (.put r ki vi key v) = .ok (w1, o)) (hp : w1.ress r = .error e) :
    e = overflow ∧ (∀ i, w1.elems i = w.elems i) ∧
    ((w.vecs vi).cap ≤ (w.elems vi).length ∨ (w.vecs vi).buf = none ∨ (w.vecs ki).cap ≤ (w.elems ki).length ∨ (w.vecs ki).buf = none) := by
  rw [step] at h
  split at h
  · cases h
  · rename_i hne
    have why : ∀ i x, w.emplace i x = (w, .error overflow) → (w.vecs i).cap ≤ (w.elems i).length ∨ (w.vecs i).buf = none := by
      intro i x hx
      rcases holds_or_empty w i with ⟨b, hh⟩ | hn
      · refine .inl ?_
        rcases Nat.lt_or_ge (w.elems i).length (w.vecs i).cap with hl | hl
        · rw [emplace_room hh hl] at hx; cases congrArg Prod.snd hx
        · exact hl
      · exact .inr hn
    rcases emplace_cases w vi v with e1 | ⟨b, hb, hl, e1⟩
    · have hw := why vi v e1
      rw [e1] at h
      cases h
      dsimp only at hp
      rw [upd_same] at hp
      cases hp
      exact ⟨rfl, fun i => rfl, by rcases hw with h | h <;> simp [h]⟩
    · rw [e1] at h
      dsimp only at h
      rcases emplace_cases { w with bufs := upd w.bufs b (some (w.elems vi ++ [v])) } ki key with e2 | ⟨c, hc, hl2, e2⟩
      · have hki : (w.vecs ki).cap ≤ (w.elems ki).length ∨ (w.vecs ki).buf = none := by
          rcases holds_or_empty w ki with ⟨c, hc⟩ | hn
          · have hcb : c ≠ b := fun e' => hne (hs.alone ki vi b (e' ▸ hc) hb)
            refine .inl ?_
            rcases Nat.lt_or_ge (w.elems ki).length (w.vecs ki).cap with hl' | hl'
            · have hk1 : World.elems { w with bufs := upd w.bufs b (some (w.elems vi ++ [v])) } ki = w.elems ki := by
                refine (elems_of_holds (b := c) (by exact hc)).trans ?_
                rw [elems_of_holds hc]
                dsimp only
                rw [upd_other _ _ hcb]
              rw [emplace_room (b := c) (by exact hc) (by rw [hk1]; exact hl')] at e2
              cases congrArg Prod.snd e2
            · exact hl'
          · exact .inr hn
        rw [e2] at h
        cases h
        dsimp only at hp
        rw [upd_same] at hp
        cases hp
        refine ⟨rfl, ?_, by rcases hki with h | h <;> simp [h]⟩
        intro i
        have hv1 : World.elems { w with bufs := upd w.bufs b (some (w.elems vi ++ [v])) } vi = w.elems vi ++ [v] :=
          elems_eq (b := b) (by exact hb) (upd_same _ _ _)
        rw [hv1, List.dropLast_concat, setElems_of_holds (b := b) (by exact hb)]
        rcases holds_or_empty w i with ⟨c, hc⟩ | hn
        · refine (elems_of_holds (b := c) (by exact hc)).trans ?_
          dsimp only
          by_cases ec : c = b
          · subst ec
            have : i = vi := hs.alone i vi c hc hb
            subst this
            rw [upd_same]; rfl
          · rw [upd_other _ _ ec, upd_other _ _ ec, elems_of_holds hc]
        · have none_elems : ∀ (u : World), (u.vecs i).buf = none → u.elems i = [] := fun u hu => by rw [World.elems, hu]; rfl
          rw [none_elems w hn]
          exact none_elems _ hn
      · rw [e2] at h
        cases h
        dsimp only at hp
        rw [upd_same] at hp
        cases hp

example : ∃ w os, run init [.vec 0 1, .vec 1 2, .put 0 0 1 4 5, .put 1 0 1 6 7, .readAt 1 0, .readAt 1 1, .error 1] = .ok (w, os) ∧
    os = [.nothing, .nothing, .nothing, .nothing, .value 5, .raised, .error overflow] := ⟨_, _, rfl, rfl⟩

/-- A key that is there already is put a second time: the result refers to the second value, which `find` does not give. -/
theorem C149_put_twice : ∃ w os, run init [.vec 0 2, .vec 1 2, .put 0 0 1 4 5, .put 1 0 1 4 7, .write 1 9, .lookup 0 1 4] = .ok (w, os) ∧
    os = [.nothing, .nothing, .nothing, .nothing, .nothing, .value 5] := ⟨_, _, rfl, rfl⟩

end Solace.ResRef
