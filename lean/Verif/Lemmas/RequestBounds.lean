import Verif.Lemmas.Requests
/- Helper lemmas: how many requests there can be, whatever the memory manager answers. -/
namespace Solace.Requests
open PathMem

/-- At most `k` requests, and the result has `Q`. -/
def Bound {α : Type} (f : Policy → Heap → Outcome (Heap × α)) (k : Nat) (Q : α → Prop) : Prop :=
  ∀ g h h' a, f g h = .ok (h', a) → (h.asked ≤ h'.asked ∧ h'.asked ≤ h.asked + k) ∧ Q a

theorem Bound.mono {α : Type} {f : Policy → Heap → Outcome (Heap × α)} {k m : Nat} {Q R : α → Prop} (hf : Bound f k Q) (hk : k ≤ m)
    (hq : ∀ a, Q a → R a) : Bound f m R := fun g h h' a e => by
  obtain ⟨⟨h1, h2⟩, h3⟩ := hf g h h' a e
  exact ⟨⟨h1, by omega⟩, hq a h3⟩

theorem Bound.bind {α β : Type} {f : Policy → Heap → Outcome (Heap × α)} {k : Policy → Heap → α → Outcome (Heap × β)} {m n : Nat}
    {Q : α → Prop} {R : β → Prop} (hf : Bound f m Q) (hk : ∀ a, Q a → Bound (fun g h => k g h a) n R) :
    Bound (fun g h => f g h >>= fun r => k g r.1 r.2) (m + n) R := by
  intro g h h' b e
  dsimp only at e
  cases hfe : f g h with
  | ok r =>
    obtain ⟨h1, a⟩ := r
    rw [hfe, Outcome.bind_ok] at e
    obtain ⟨⟨a1, a2⟩, q⟩ := hf g h h1 a hfe
    obtain ⟨⟨b1, b2⟩, r⟩ := hk a q g h1 h' b e
    exact ⟨⟨by omega, by omega⟩, r⟩
  | throws => rw [hfe] at e; cases e
  | terminate => rw [hfe] at e; cases e
  | ub => rw [hfe] at e; cases e

theorem bound_pure {α : Type} {Q : α → Prop} (a : α) (hq : Q a) : Bound (fun _ h => .ok (h, a)) 0 Q := fun _ _ _ _ e => by
  cases e; exact ⟨⟨Nat.le_refl _, Nat.le_refl _⟩, hq⟩

theorem bound_allocate (n : Nat) : Bound (fun g h => .ok (allocate g h n)) 1 (fun _ => True) := fun g h h' a e => by
  have e := Outcome.ok.inj e
  rw [allocate] at e
  split at e <;> cases e <;> exact ⟨⟨Nat.le_succ _, Nat.le_refl _⟩, trivial⟩

theorem free_asked {h h' : Heap} {b : Nat} (e : free h b = .ok h') : h'.asked = h.asked := by
  rw [free] at e
  split at e
  · cases e; rfl
  · cases e

theorem freeOpt_asked {h h' : Heap} {b : Option Nat} (e : freeOpt h b = .ok h') : h'.asked = h.asked := by
  cases b with
  | none => cases e; rfl
  | some b => exact free_asked e

theorem dropStr_asked {h h' : Heap} {o : SObj} (e : dropStr h o = .ok h') : h'.asked = h.asked := freeOpt_asked e

theorem dropStrs_asked (os : List SObj) : ∀ {h h' : Heap}, dropStrs h os = .ok h' → h'.asked = h.asked := by
  induction os with
  | nil => intro h h' e; cases e; rfl
  | cons o os ih =>
    intro h h' e
    rw [dropStrs] at e
    cases hd : dropStr h o with
    | ok h1 => rw [hd, Outcome.bind_ok] at e; exact (ih e).trans (dropStr_asked hd)
    | throws => rw [hd] at e; cases e
    | terminate => rw [hd] at e; cases e
    | ub => rw [hd] at e; cases e

theorem dropParts_asked {os : List SObj} {b : Option Nat} {h h' : Heap} (e : (dropStrs h os >>= fun h1 => freeOpt h1 b) = .ok h') :
    h'.asked = h.asked := by
  cases hd : dropStrs h os with
  | ok h1 => rw [hd, Outcome.bind_ok] at e; exact (freeOpt_asked e).trans (dropStrs_asked os hd)
  | throws => rw [hd] at e; cases e
  | terminate => rw [hd] at e; cases e
  | ub => rw [hd] at e; cases e

/-- Something is given back, then the function returns. -/
theorem bound_drop {α : Type} {Q : α → Prop} (d : Heap → Outcome Heap) (hd : ∀ h h', d h = .ok h' → h'.asked = h.asked) (a : α) (hq : Q a) :
    Bound (fun _ h => d h >>= fun h2 => pure (h2, a)) 0 Q := fun _ h h' b e => by
  dsimp only at e
  cases hde : d h with
  | ok h1 =>
    rw [hde, Outcome.bind_ok] at e
    have := hd h h1 hde
    cases e
    exact ⟨⟨by omega, by omega⟩, hq⟩
  | throws => rw [hde] at e; cases e
  | terminate => rw [hde] at e; cases e
  | ub => rw [hde] at e; cases e

theorem bound_single (n : Nat) (k : MutView → Except Err Str) : Bound (fun g h => StrMem.single g h n k) 1 (fun _ => True) := by
  have := Bound.bind (bound_allocate n) (k := fun _ h r =>
    match r with
    | .error e => .ok (h, .error e)
    | .ok (b, v) =>
      match k v with
      | .error e => free h b >>= fun h2 => pure (h2, .error e)
      | .ok s => .ok (h, .ok ⟨some b, s.view⟩)) (n := 0) (R := fun (_ : Except Err SObj) => True) (by
      rintro (e | ⟨b, v⟩) _
      · exact bound_pure _ trivial
      · dsimp only
        cases k v with
        | error e => exact bound_drop _ (fun _ _ => free_asked) _ trivial
        | ok s => exact bound_pure _ trivial)
  intro g h h' a e
  refine this g h h' a ?_
  dsimp only at e ⊢
  rw [← e, StrMem.single, Outcome.bind_ok]
  rcases allocate g h n with ⟨h1, e | ⟨b, v⟩⟩ <;> rfl

theorem bound_newStr (s : List Byte) : Bound (fun g h => newStr g h s) 1 (fun _ => True) := by
  intro g h h' a e
  dsimp only at e
  rw [StrMem.newStr_single] at e
  exact bound_single _ _ g h h' a e

theorem bound_newVec (n : Nat) : Bound (fun g h => .ok (newVec g h n)) 1 (fun r => ∀ v, r = .ok v → v.cap = wrap64 (n * 32) / 32) := by
  intro g h h' a e
  have e := Outcome.ok.inj e
  rw [newVec, allocate] at e
  split at e
  · rename_i hx
    split at hx <;> cases hx
    cases e
    exact ⟨⟨Nat.le_succ _, Nat.le_refl _⟩, fun v hv => by cases hv⟩
  · rename_i hx
    split at hx <;> cases hx
    cases e
    exact ⟨⟨Nat.le_succ _, Nat.le_refl _⟩, fun v hv => by cases hv; rfl⟩

theorem bound_copyTo (v : VObj) (c : List Byte) : Bound (fun g h => copyTo g h v c) 1 (fun _ => True) := by
  refine Bound.bind (bound_newStr c) (k := fun _ h1 r =>
    match r with
    | .ok o => do
      let h2 ← dropStr h1 (pushBack v o).2
      pure (h2, (pushBack v o).1)
    | .error _ => pure (h1, v)) (n := 0) ?_
  rintro (e | o) _
  · exact bound_pure _ trivial
  · exact bound_drop _ (fun _ _ => dropStr_asked) _ trivial

theorem bound_copyAll (cs : List (List Byte)) : ∀ v : VObj, Bound (fun g h => copyAll g h v cs) cs.length (fun _ => True) := by
  induction cs with
  | nil => intro v; exact bound_pure v trivial
  | cons c cs ih =>
    intro v
    have := Bound.bind (bound_copyTo v c) (k := fun g h v1 => copyAll g h v1 cs) (n := cs.length) (R := fun _ => True) (fun a _ => ih a)
    rw [Nat.add_comm] at this
    exact this

theorem bound_copyArray (cs : List (List Byte)) : ∀ done : List SObj, Bound (fun g h => copyArray g h done cs) cs.length (fun _ => True) := by
  induction cs with
  | nil => intro v; exact bound_pure _ trivial
  | cons c cs ih =>
    intro done
    have := Bound.bind (bound_newStr c) (k := fun g h1 r =>
      match r with
      | .ok o => copyArray g h1 (done ++ [o]) cs
      | .error _ => do
        let h2 ← dropStrs h1 done.reverse
        pure (h2, none)) (n := cs.length) (R := fun _ => True) (by
        rintro (e | o) _
        · exact (bound_drop (Q := fun _ => True) _ (fun _ _ => dropStrs_asked _) _ trivial).mono (Nat.zero_le _) fun _ _ => trivial
        · exact ih _)
    rw [Nat.add_comm] at this
    exact this

theorem bound_popBack (v : VObj) : Bound (fun _ h => popBack h v) 0 (fun _ => True) := by
  intro g h h' a e
  dsimp only at e
  rw [popBack] at e
  split at e
  · cases e; exact ⟨⟨Nat.le_refl _, Nat.le_refl _⟩, trivial⟩
  · exact bound_drop (Q := fun _ => True) (fun h => dropStr h _) (fun _ _ => dropStr_asked) _ trivial g h h' a e

theorem bound_normalizeLoop (cs : List (List Byte)) : ∀ v : VObj, Bound (fun g h => normalizeLoop g h v cs) cs.length (fun _ => True) := by
  induction cs with
  | nil => intro v; exact bound_pure v trivial
  | cons c cs ih =>
    intro v g h h' a e
    dsimp only at e
    rw [normalizeLoop] at e
    rw [List.length_cons]
    split at e
    · exact (ih v).mono (Nat.le_succ _) (fun _ _ => trivial) g h h' a e
    · split at e
      · exact (Bound.bind (bound_popBack v) (k := fun g h v1 => normalizeLoop g h v1 cs) (n := cs.length) (R := fun _ => True)
          (fun a _ => ih a)).mono (by omega) (fun _ _ => trivial) g h h' a e
      · exact (Bound.bind (bound_copyTo v c) (k := fun g h v1 => normalizeLoop g h v1 cs) (n := cs.length) (R := fun _ => True)
          (fun a _ => ih a)).mono (by omega) (fun _ _ => trivial) g h h' a e

theorem bound_joinCopies (cs : List (List Byte)) : ∀ v : VObj, Bound (fun g h => joinCopies g h v cs) cs.length (fun _ => True) := by
  induction cs with
  | nil => intro v; exact bound_pure _ trivial
  | cons c cs ih =>
    intro v
    have := Bound.bind (bound_newStr c) (k := fun g h1 r =>
      match r with
      | .error e => pure (h1, v, some e)
      | .ok o => do
        let h2 ← dropStr h1 (pushBack v o).2
        joinCopies g h2 (pushBack v o).1 cs) (n := cs.length) (R := fun _ => True) (by
        rintro (e | o) _
        · exact (bound_pure (Q := fun _ => True) (v, some e) trivial).mono (Nat.zero_le _) fun _ _ => trivial
        · intro g h h' a e
          dsimp only at e
          cases hd : dropStr h (pushBack v o).2 with
          | ok h1 =>
            rw [hd, Outcome.bind_ok] at e
            have := ih (pushBack v o).1 g h1 h' a e
            rwa [dropStr_asked hd] at this
          | throws => rw [hd] at e; cases e
          | terminate => rw [hd] at e; cases e
          | ub => rw [hd] at e; cases e)
    rw [Nat.add_comm] at this
    exact this

theorem joinMoved_length (os : List SObj) : ∀ v : VObj, (joinMoved v os).2.length = os.length := by
  induction os with
  | nil => intro v; rfl
  | cons o os ih => intro v; rw [joinMoved]; dsimp only; rw [List.length_cons, ih, List.length_cons]

theorem bound_joinArgs (args : List Arg) : ∀ (v : VObj) (vs : Vars) (n : Nat), countArgs vs args = some n →
    Bound (fun g h => joinArgs g h v vs args) n (fun _ => True) := by
  induction args with
  | nil => intro v vs n _; exact (bound_pure (Q := fun _ => True) (v, vs, none) trivial).mono (Nat.zero_le _) fun _ _ => trivial
  | cons a as ih =>
    intro v vs n hc
    rw [countArgs] at hc
    cases hm : countArgs vs as with
    | none => rw [hm] at hc; cases hc
    | some m =>
      rw [hm] at hc
      have copies : ∀ cs : List (List Byte),
          Bound (fun g h => joinCopies g h v cs >>= fun r =>
            if r.2.2.isSome then pure (r.1, r.2.1, vs, r.2.2) else joinArgs g r.1 r.2.1 vs as) (cs.length + m) (fun _ => True) := by
        intro cs
        refine Bound.bind (bound_joinCopies cs v)
          (k := fun g h r => if r.2.isSome then pure (h, r.1, vs, r.2) else joinArgs g h r.1 vs as) ?_
        rintro ⟨v', e⟩ _
        cases e with
        | none => exact ih v' vs m hm
        | some e => exact (bound_pure (Q := fun _ => True) (v', vs, some e) trivial).mono (Nat.zero_le _) fun _ _ => trivial
      cases a with
      | str s =>
        obtain rfl : 1 + m = n := Option.some.inj hc
        exact copies [s]
      | copy i =>
        dsimp only at hc
        cases hg : getVar vs i with
        | none => rw [hg] at hc; cases hc
        | some p =>
          rw [hg] at hc
          obtain rfl : p.elems.length + m = n := Option.some.inj hc
          have := copies (p.elems.map SObj.text)
          rw [List.length_map] at this
          intro g h h' a e
          refine this g h h' a ?_
          dsimp only at e ⊢
          rw [← e, joinArgs, hg]
      | move i =>
        dsimp only at hc
        cases hg : getVar vs i with
        | none => rw [hg] at hc; cases hc
        | some p =>
          rw [hg] at hc
          obtain rfl : p.elems.length + m = n := Option.some.inj hc
          intro g h h' a e
          dsimp only at e
          rw [joinArgs, hg] at e
          refine (ih _ _ m ?_).mono (by omega) (fun _ _ => trivial) g h h' a e
          rw [← hm]
          exact countArgs_set vs i p _ hg (joinMoved_length _ _) as

/-- The pieces: one request each, and one more while the array is not there. -/
theorem bound_onPieces (n : Nat) (hn : 0 < n ∧ n < 2 ^ 59) (cs : List (List Byte × Nat × Nat)) : ∀ a : Parse, (∀ c ∈ cs, c.2.2 = n) →
    Bound (fun g h => onPieces g h a cs)
      (if a.err.isSome ∨ cs = [] then 0 else (if a.vec.cap = 0 then 1 else 0) + cs.length) (fun _ => True) := by
  induction cs with
  | nil => intro a _; exact (bound_pure (Q := fun _ => True) a trivial).mono (Nat.zero_le _) fun _ _ => trivial
  | cons c cs ih =>
    intro a hc
    have hcn : c.2.2 = n := hc c List.mem_cons_self
    have hcs : ∀ x ∈ cs, x.2.2 = n := fun x hx => hc x (List.mem_cons_of_mem _ hx)
    have hadd : ∀ b : Parse, Bound (fun g h => add g h b c.1 c.2.1 n) 1 (fun r => r.vec.cap = b.vec.cap ∧ (b.err.isSome → r.err.isSome)) := by
      intro b g h h' r e
      dsimp only at e
      rw [add] at e
      split at e
      · cases e; exact ⟨⟨Nat.le_refl _, Nat.le_succ _⟩, rfl, id⟩
      · refine Bound.bind (bound_newStr c.1) (k := fun _ h1 r =>
          match r with
          | .ok o => do
            let h2 ← dropStr h1 (pushBack b.vec o).2
            pure (h2, { b with vec := (pushBack b.vec o).1 })
          | .error e => pure (h1, { b with err := some e })) (n := 0)
          (R := fun r => r.vec.cap = b.vec.cap ∧ (b.err.isSome → r.err.isSome)) ?_ g h h' r e
        rintro (e | o) _
        · exact bound_pure _ ⟨rfl, fun _ => rfl⟩
        · exact bound_drop _ (fun _ _ => dropStr_asked) _ ⟨pushBack_cap _ _, id⟩
    by_cases he : a.err.isSome
    · rw [if_pos (.inl he)]
      have hone : Bound (fun g h => onPiece g h a c.1 c.2.1 c.2.2) 0 (fun b => b = a) := by
        intro g h h' b e
        dsimp only at e
        rw [onPiece, if_pos he] at e
        cases e
        exact ⟨⟨Nat.le_refl _, Nat.le_refl _⟩, rfl⟩
      refine Bound.bind hone (k := fun g h b => onPieces g h b cs) (n := 0) ?_
      rintro b rfl
      have := ih b hcs
      rwa [if_pos (.inl he)] at this
    · rw [if_neg (by simp [he])]
      have hpiece : Bound (fun g h => onPiece g h a c.1 c.2.1 c.2.2) ((if a.vec.cap = 0 then 1 else 0) + 1)
          (fun b => b.err.isSome ∨ b.vec.cap ≠ 0) := by
        have hprep : Bound (fun g h => prepare g h a n) (if a.vec.cap = 0 then 1 else 0) (fun b => b.err.isSome ∨ b.vec.cap ≠ 0) := by
          intro g h h' b e
          dsimp only at e
          rw [prepare] at e
          by_cases h0 : a.vec.cap = 0
          · rw [if_pos ⟨h0, by omega⟩] at e
            rw [if_pos h0]
            have hv := bound_newVec n g h
            cases hne : newVec g h n with
            | mk h1 r =>
              rw [hne] at e
              obtain ⟨v1, v2⟩ := hv h1 r (congrArg Outcome.ok hne)
              cases r with
              | error e1 => cases e; exact ⟨v1, .inl rfl⟩
              | ok v =>
                dsimp only at e
                cases hd : dropVec h1 a.vec with
                | ok h2 =>
                  rw [hd, Outcome.bind_ok] at e
                  cases e
                  rw [dropParts_asked hd]
                  refine ⟨v1, .inr ?_⟩
                  show v.cap ≠ 0
                  rw [v2 v rfl, cap_eq n hn.2]
                  omega
                | throws => rw [hd] at e; cases e
                | terminate => rw [hd] at e; cases e
                | ub => rw [hd] at e; cases e
          · rw [if_neg (fun hx => h0 hx.1)] at e
            cases e
            exact ⟨⟨Nat.le_refl _, Nat.le_add_right _ _⟩, .inr h0⟩
        have := Bound.bind hprep (k := fun g h b => add g h b c.1 c.2.1 n) (n := 1) (R := fun b => b.err.isSome ∨ b.vec.cap ≠ 0) (by
          intro b hb
          refine (hadd b).mono (Nat.le_refl _) ?_
          rintro r ⟨r1, r2⟩
          rcases hb with hb | hb
          · exact .inl (r2 hb)
          · exact .inr (by rw [r1]; exact hb))
        intro g h h' b e
        refine this g h h' b ?_
        dsimp only at e ⊢
        rw [← e, onPiece, if_neg he, hcn]
      have := Bound.bind hpiece (k := fun g h b => onPieces g h b cs) (n := cs.length) (R := fun _ => True) (by
        intro b hb
        refine (ih b hcs).mono ?_ fun _ _ => trivial
        split
        · exact Nat.zero_le _
        · rename_i hx
          rw [if_neg (by rcases hb with hb | hb; exact fun _ => hx (.inl hb); exact hb)]
          omega)
      rw [Nat.add_assoc, Nat.add_comm 1] at this
      exact this

end Solace.Requests
