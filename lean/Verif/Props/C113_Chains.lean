import Verif.Spec.Railway
/-
C113: chains of `then`, `orElse` and `mapError`.
-/
namespace Solace.Res
open Railway

theorem apply_spec (mV : V → V) (mE : E → E) (s : Stage V E) (r : Any V E) (rest : List (Stage V E)) :
    isVal (s.apply mV mE r).1 = valuedAfter (isVal r) s ∧
    ride (isVal r) (s :: rest) (Railway.of r) =
      ((ride (isVal (s.apply mV mE r).1) rest (Railway.of (s.apply mV mE r).1)).1,
        (s.apply mV mE r).2 ++ (ride (isVal (s.apply mV mE r).1) rest (Railway.of (s.apply mV mE r).1)).2) := by
  rcases r with r | r <;> rcases r with v | e <;> cases s <;>
    simp [Stage.apply, andThenMoving, Res.thenValue, Res.thenVoid, orElse, Res.orElseValue, mapErrorMoving, voidThenRes, voidThenValue,
      voidThenVoid, voidOrElseRes, voidOrElseVoid, voidMapErrorMoving, isVal, valuedAfter, Railway.of, ofRes, ofVoidRes, ride, onValues,
      answer, remedy, given, ofVoid, toVoid]
  case val.ok.thenResVoid f => cases f (some v) <;> simp

/-- **C113** (full): the result of every chain and the calls of its handlers are those of the two tracks: a handler for values is called
exactly when the chain is on the value track, with the value; a handler for errors exactly when it is on the error track, with the error;
every other stage passes on what it gets. The type of the result is the static one. -/
theorem C113_chain (mV : V → V) (mE : E → E) (stages : List (Stage V E)) (r : Any V E) :
    (Railway.of (chain mV mE stages r).1, (chain mV mE stages r).2) = ride (isVal r) stages (Railway.of r) ∧
    isVal (chain mV mE stages r).1 = stages.foldl valuedAfter (isVal r) := by
  induction stages generalizing r with
  | nil => exact ⟨rfl, rfl⟩
  | cons s rest ih =>
    obtain ⟨hv, hr⟩ := apply_spec mV mE s r rest
    obtain ⟨h1, h2⟩ := ih (s.apply mV mE r).1
    refine ⟨?_, ?_⟩
    · rw [hr, ← h1]; rfl
    · simp only [chain, List.foldl_cons, h2, hv]

example : chain id id [.thenValue (fun v => v.getD 0 + 1), .thenRes (fun _ => .err 7), .thenVoid, .mapError (· * 2), .orElseValue (fun e => e)]
    (.val (.ok 4) : Any Nat Nat) = (.void none, [.value 4, .value 5, .error 7, .error 14]) := by decide

/-- **C113** (full): a chain can be cut anywhere: the second part is applied to the result of the first. -/
theorem C113_append (mV : V → V) (mE : E → E) (a b : List (Stage V E)) (r : Any V E) :
    chain mV mE (a ++ b) r =
      ((chain mV mE b (chain mV mE a r).1).1, (chain mV mE a r).2 ++ (chain mV mE b (chain mV mE a r).1).2) := by
  induction a generalizing r with
  | nil => rfl
  | cons s rest ih => simp only [List.cons_append, chain, ih, List.append_assoc]

/-- **C113** (full): every handler is called at most once. -/
theorem C113_at_most_once (mV : V → V) (mE : E → E) (stages : List (Stage V E)) (r : Any V E) :
    (chain mV mE stages r).2.length ≤ stages.length := by
  induction stages generalizing r with
  | nil => exact Nat.le_refl _
  | cons s rest ih =>
    have h1 : (s.apply mV mE r).2.length ≤ 1 := by
      rcases r with r | r <;> rcases r with v | e <;> cases s <;>
        simp [Stage.apply, andThenMoving, Res.thenValue, Res.thenVoid, orElse, Res.orElseValue, mapErrorMoving, voidThenRes, voidThenValue,
          voidThenVoid, voidOrElseRes, voidOrElseVoid, voidMapErrorMoving]
    have := ih (s.apply mV mE r).1
    simp only [chain, List.length_append, List.length_cons]; omega

/-- **C113** (full): after an error a chain of `then`s calls nothing and ends with that error. -/
theorem C113_error_skips (mV : V → V) (mE : E → E) (stages : List (Stage V E)) (r : Any V E) (e : E)
    (hr : Railway.of r = .bad e) (hs : ∀ s ∈ stages, onValues s = true) :
    Railway.of (chain mV mE stages r).1 = .bad e ∧ (chain mV mE stages r).2 = [] := by
  have key : ∀ (b : Bool) (l : List (Stage V E)), (∀ s ∈ l, onValues s = true) → ride b l (.bad e) = (.bad e, []) := by
    intro b l
    induction l generalizing b with
    | nil => intro _; rfl
    | cons s rest ih =>
      intro h
      simp only [ride, h s (List.mem_cons_self ..), if_true]
      exact ih _ fun x hx => h x (List.mem_cons_of_mem _ hx)
  have h := (C113_chain mV mE stages r).1
  rw [hr, key _ _ hs] at h
  exact ⟨congrArg Prod.fst h, congrArg Prod.snd h⟩

/-- **C113** (full): on the value track `orElse` and `mapError` call nothing and change nothing. -/
theorem C113_good_skips (mV : V → V) (mE : E → E) (stages : List (Stage V E)) (r : Any V E) (v : Option V)
    (hr : Railway.of r = .good v) (hs : ∀ s ∈ stages, onValues s = false) :
    chain mV mE stages r = (r, []) := by
  induction stages generalizing r with
  | nil => rfl
  | cons s rest ih =>
    have hs1 := hs s (List.mem_cons_self ..)
    have ha : s.apply mV mE r = (r, []) := by
      rcases r with r | r <;> rcases r with x | x <;> first | (simp [Railway.of, ofRes, ofVoidRes] at hr; done) | skip
      all_goals cases s <;> first | (simp [onValues] at hs1; done) | rfl
    have := ih r hr fun x hx => hs x (List.mem_cons_of_mem _ hx)
    simp [chain, ha, this]

example : chain id id [.thenVoid, .thenValue (fun _ => 3)] (.void (some 9) : Any Nat Nat) = (.val (.err 9), []) ∧
    chain id id [.orElseValue (fun _ => 3), .mapError (· + 1)] (.val (.ok 1) : Any Nat Nat) = (.val (.ok 1), []) := by decide

/-- **C113** (full): a chain ends in error exactly if on the error track; no chain invents an error: the final error is the one it
began with, one returned by a handler for values, or one returned by a handler for errors. -/
theorem C113_origin (mV : V → V) (mE : E → E) (stages : List (Stage V E)) (r : Any V E) (e : E)
    (h : Railway.of (chain mV mE stages r).1 = .bad e) :
    Railway.of r = .bad e ∨ (∃ s ∈ stages, ∃ v, onValues s = true ∧ answer s v = .bad e) ∨
      ∃ s ∈ stages, ∃ b e', onValues s = false ∧ remedy b s e' = .bad e := by
  have key : ∀ (l : List (Stage V E)) (b : Bool) (t : Track V E), (ride b l t).1 = .bad e →
      t = .bad e ∨ (∃ s ∈ l, ∃ v, onValues s = true ∧ answer s v = .bad e) ∨ ∃ s ∈ l, ∃ b e', onValues s = false ∧ remedy b s e' = .bad e := by
    intro l
    induction l with
    | nil => intro b t h; exact .inl h
    | cons s rest ih =>
      intro b t h
      have lift : ∀ {t'}, (t' = .bad e → t = .bad e ∨ (∃ v, onValues s = true ∧ answer s v = .bad e) ∨ ∃ b e', onValues s = false ∧ remedy b s e' = .bad e) →
          (ride (valuedAfter b s) rest t').1 = .bad e →
          t = .bad e ∨ (∃ x ∈ s :: rest, ∃ v, onValues x = true ∧ answer x v = .bad e) ∨ ∃ x ∈ s :: rest, ∃ b e', onValues x = false ∧ remedy b x e' = .bad e := by
        intro t' hq hr
        rcases ih _ _ hr with h1 | ⟨x, hx, h1⟩ | ⟨x, hx, h1⟩
        · rcases hq h1 with h2 | h2 | h2
          · exact .inl h2
          · exact .inr (.inl ⟨s, List.mem_cons_self .., h2⟩)
          · exact .inr (.inr ⟨s, List.mem_cons_self .., h2⟩)
        · exact .inr (.inl ⟨x, List.mem_cons_of_mem _ hx, h1⟩)
        · exact .inr (.inr ⟨x, List.mem_cons_of_mem _ hx, h1⟩)
      cases t with
      | good v =>
        cases hs : onValues s with
        | true => simp only [ride, hs, if_true] at h; exact lift (fun q => .inr (.inl ⟨v, hs, q⟩)) h
        | false => simp only [ride, hs, Bool.false_eq_true, if_false] at h; exact lift (fun q => .inl q) h
      | bad x =>
        cases hs : onValues s with
        | true => simp only [ride, hs, if_true] at h; exact lift (fun q => .inl q) h
        | false => simp only [ride, hs, Bool.false_eq_true, if_false] at h; exact lift (fun q => .inr (.inr ⟨b, x, hs, q⟩)) h
  have hc := congrArg Prod.fst (C113_chain mV mE stages r).1
  simp only at hc
  exact key stages _ _ (hc ▸ h)

/-- **C113** (full), `Result<void, E>` as an object: `then` on an lvalue leaves the object as it is, on an rvalue it takes the error out;
`orElse` and `mapError` take the error out of lvalues too. In every case the object stays in its state. -/
theorem C113_void_after (mE : E → E) (f : Unit → R) (err : E → R) (u : Unit → U) (g : E → Option E') (h : E → E') (r : Option E) :
    (voidThenRes false mE f err r).after = r ∧ (voidThenValue false mE u r).after = r ∧ (voidThenVoid false mE r).after = r ∧
    (voidThenRes true mE f err r).after = r.map mE ∧ (voidThenValue true mE u r).after = r.map mE ∧
    (voidThenVoid true mE r).after = r.map mE ∧
    (voidOrElseRes mE g r).after = r.map mE ∧ (voidOrElseVoid mE r).after = r.map mE ∧ (voidMapErrorMoving mE h r).after = r.map mE ∧
    (voidMapErrorRes mE g r).after = r.map mE := by
  cases r <;> simp [voidThenRes, voidThenValue, voidThenVoid, voidOrElseRes, voidOrElseVoid, voidMapErrorMoving, voidMapErrorRes, voidMoved]

/-- **C113** (full), `mapError` of `Result<void, E>`: with a function returning a result it is `orElse`; with one returning an error it is
`orElse` with the function followed by `Err`. `Result<V, E>::mapError` on an lvalue leaves the error, that of `Result<void, E>` does not. -/
theorem C113_mapError (mE : E → E) (f : E → Option E') (h : E → E') (r : Option E) :
    voidMapErrorRes mE f r = voidOrElseRes mE f r ∧ voidMapErrorMoving mE h r = voidOrElseRes mE (fun e => some (h e)) r ∧
    (∀ (V : Type) (h : E → E') (r : Res V E), (mapError h r).after = r) := by
  cases r <;> refine ⟨rfl, rfl, fun V h r => ?_⟩ <;> cases r <;> rfl

/-- **C113, disagreement**: an error type whose moved-from value differs from the value: after `mapError` on a named `Result<V, E>` the
error is still there, after `mapError` on a named `Result<void, E>` it is gone. -/
theorem C113_lvalue_differs : ∃ (mE : Nat → Nat) (h : Nat → Nat) (e : Nat),
    (mapError h (.err e : Res Unit Nat)).after = .err e ∧ (voidMapErrorMoving mE h (some e)).after ≠ some e :=
  ⟨fun _ => 0, id, 5, rfl, by decide⟩

end Solace.Res
