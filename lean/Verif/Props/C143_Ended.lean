import Verif.Props.C143_OptionalRef
/-
C143: what is left of references when the object they refer to ends.
-/
namespace Solace.OptRef

theorem put_ended {w : World} {p : Place} {v a : Nat} (hp : w.at? p ≠ none) (h : w.objs a = none) : (w.put p v).objs a = none := by
  cases p with
  | obj b =>
    have hb : a ≠ b := fun e => hp (by rw [World.at?, ← e, h])
    simp [World.put, upd, hb, h]
  | payload i => simp [World.put, h]

theorem step_ended {w w' : World} {s : Stmt} {o : Seen} {a : Nat} (e : step w s = .ok (w', o)) (h : w.objs a = none) : w'.objs a = none := by
  cases s with
  | setObj b v =>
    simp only [step] at e
    cases hb : w.objs b with
    | none => rw [hb] at e; cases e
    | some u =>
      rw [hb] at e
      cases e
      have hab : a ≠ b := fun e => by rw [e, hb] at h; cases h
      simp [upd, hab, h]
  | readObj b =>
    simp only [step] at e
    rcases load_cases w (.obj b) with ⟨v, _, e'⟩ | ⟨_, e'⟩ <;> rw [e'] at e <;> cases e
    exact h
  | valOf i b =>
    simp only [step] at e
    rcases load_cases w (.obj b) with ⟨v, _, e'⟩ | ⟨_, e'⟩ <;> rw [e'] at e <;> cases e
    exact h
  | endObj b =>
    cases e
    by_cases hab : a = b <;> simp [upd, hab]
    rw [← h]
  | setVal i v => cases e; exact h
  | resetVal i => cases e; exact h
  | swapVal i j => cases e; exact h
  | bindObj r b =>
    simp only [step] at e
    cases hb : w.objs b with
    | none => rw [hb] at e; cases e
    | some u => rw [hb] at e; cases e; exact h
  | bindVal r i => cases e; exact h
  | copyRef r s => cases e; exact h
  | moveRef r s => cases e; exact h
  | resetRef r => cases e; exact h
  | toVal i r =>
    simp only [step] at e
    cases hr : w.refs r with
    | none => rw [hr] at e; cases e; exact h
    | some p =>
      rw [hr] at e
      dsimp only at e
      split at e
      · cases e
      · rcases load_cases w p with ⟨v, _, e'⟩ | ⟨_, e'⟩ <;> rw [e'] at e <;> cases e
        exact h
  | write r v =>
    simp only [step] at e
    cases hr : w.refs r with
    | none => rw [hr] at e; cases e
    | some p =>
      rw [hr] at e
      dsimp only at e
      rcases load_cases w p with ⟨u, hp, e'⟩ | ⟨_, e'⟩ <;> rw [e'] at e <;> cases e
      exact put_ended (by rw [hp]; simp) h
  | read r =>
    simp only [step] at e
    cases hr : w.refs r with
    | none => rw [hr] at e; cases e
    | some p =>
      rw [hr] at e
      dsimp only at e
      rcases load_cases w p with ⟨u, hp, e'⟩ | ⟨_, e'⟩ <;> rw [e'] at e <;> cases e
      exact h
  | orElse r b =>
    simp only [step] at e
    rcases load_cases w ((w.refs r).getD (.obj b)) with ⟨u, hp, e'⟩ | ⟨_, e'⟩ <;> rw [e'] at e <;> cases e
    exact h
  | equal r t =>
    simp only [step] at e
    split at e
    · cases e; exact h
    · split at e
      · rename_i p q _ _
        rcases load_cases w p with ⟨u, _, e1⟩ | ⟨_, e1⟩ <;> rw [e1] at e
        · rcases load_cases w q with ⟨u', _, e2⟩ | ⟨_, e2⟩ <;> rw [Outcome.bind_ok, e2] at e <;> cases e
          exact h
        · cases e
      · cases e; exact h
      · cases e; exact h

theorem run_ended {a : Nat} (ss : List Stmt) : ∀ (w w' : World) (os : List Seen), run w ss = .ok (w', os) → w.objs a = none → w'.objs a = none := by
  induction ss with
  | nil => intro w w' os e h; cases e; exact h
  | cons s ss ih =>
    intro w w' os e h
    rw [run] at e
    cases hs : step w s with
    | ok p =>
      obtain ⟨w1, o⟩ := p
      rw [hs, Outcome.bind_ok] at e
      dsimp only at e
      cases hr : run w1 ss with
      | ok p =>
        obtain ⟨w2, os2⟩ := p
        rw [hr] at e
        cases e
        exact ih w1 w2 os2 hr (step_ended hs h)
      | throws => rw [hr] at e; cases e
      | terminate => rw [hr] at e; cases e
      | ub => rw [hr] at e; cases e
    | throws => rw [hs] at e; cases e
    | terminate => rw [hs] at e; cases e
    | ub => rw [hs] at e; cases e

/-- **C143, negation**: when the object ends, an optional that refers to it keeps saying that it has a value; reading and writing through it
are undefined, whatever else is done in between, until it is bound to something else. -/
theorem C143_ended (w : World) (r a : Nat) (hr : w.refs r = some (.obj a)) (v : Nat) (ss : List Stmt) (w' : World) (os : List Seen)
    (hn : ∀ s ∈ ss, ¬Rebinds r s) (h : run w (.endObj a :: ss) = .ok (w', os)) :
    w'.refs r = some (.obj a) ∧ step w' (.read r) = .ub ∧ step w' (.write r v) = .ub := by
  have hr' : w'.refs r = some (.obj a) := by
    rw [← hr]
    exact C143_stays (.endObj a :: ss) w w' os h r fun s hs => by
      rcases List.mem_cons.mp hs with rfl | hs
      · exact fun h => h
      · exact hn s hs
  have hd : w'.objs a = none := by
    rw [run] at h
    rw [show step w (.endObj a) = .ok ({ w with objs := upd w.objs a none }, .nothing) from rfl, Outcome.bind_ok] at h
    dsimp only at h
    cases hs : run { w with objs := upd w.objs a none } ss with
    | ok p =>
      obtain ⟨w2, os2⟩ := p
      rw [hs] at h
      cases h
      exact run_ended ss _ w2 os2 hs (upd_same _ _ _)
    | throws => rw [hs] at h; cases h
    | terminate => rw [hs] at h; cases h
    | ub => rw [hs] at h; cases h
  have hdang : Dangling w' r := ⟨_, hr', hd⟩
  exact ⟨hr', (C143_undefined w' (.read r)).mpr hdang, (C143_undefined w' (.write r v)).mpr hdang⟩

/-- The hypotheses are met. -/
example : ∃ w' os, run ⟨fun _ => some 5, fun _ => none, fun _ => some (.obj 1)⟩ [.endObj 1, .setObj 0 3, .readObj 2] = .ok (w', os) :=
  ⟨_, _, rfl⟩

end Solace.OptRef
