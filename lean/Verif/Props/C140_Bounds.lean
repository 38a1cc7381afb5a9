import Verif.Lemmas.RequestBounds
import Verif.Props.C140_Requests
/-
C140: how many requests there are when some are refused, and which statements ask for nothing.
-/
namespace Solace.Requests
open PathMem Strings

theorem Bound.atMost {α : Type} {f : Policy → Heap → Outcome (Heap × α)} {k : Nat} {Q : α → Prop} (hf : Bound f k Q) : AsksAtMost f k :=
  fun g h h' a e => (hf g h h' a e).1

/-- Strings: at most one request, refused or not. -/
theorem C140_strings_bound (s d : List Byte) (cs : List (List Byte)) (args : List (Bool × List Byte)) (a b : Byte) :
    AsksAtMost (fun g h => newStr g h s) 1 ∧ AsksAtMost (fun g h => StrMem.newConcat g h cs) 1 ∧
    AsksAtMost (fun g h => newJoin g h d cs) 1 ∧ AsksAtMost (fun g h => StrMem.newJoinArgs g h d args) 1 ∧
    AsksAtMost (fun g h => StrMem.newReplaceChar g h s a b) 1 :=
  ⟨(bound_newStr s).atMost,
    fun g h h' r e => (bound_single _ _ g h h' r ((StrMem.newConcat_single g h cs).symm.trans e)).1,
    fun g h h' r e => (bound_single _ _ g h h' r ((StrMem.newJoin_single g h d cs).symm.trans e)).1,
    fun g h h' r e => (bound_single _ _ g h h' r ((StrMem.newJoinArgs_single g h d args).symm.trans e)).1,
    fun g h h' r e => (bound_single _ _ g h h' r ((StrMem.newReplaceChar_single g h s a b).symm.trans e)).1⟩

/-- `Path::parse`: at most one request for the array and one for each piece. -/
theorem C140_parse_bound (s d : List Byte) (ps : List (List Byte)) (hd : d ≠ []) (hs : s.length < 2 ^ 16 - 1) (hp : IsSplit d s ps)
    (fuel : Nat) (hf : s.length < fuel) :
    ∃ f, (∀ g h, parse g h fuel s d = some (f g h)) ∧ AsksAtMost f (1 + ps.length) := by
  have hps := StringView.isSplit_unique hp (StringView.scan_spec d s hd)
  have hle := StringView.scan_length_le d [] s hd
  have h3 := StringView.split3_eq s d hd (by omega) fuel hf
  rw [← hps] at h3 hle
  rw [wrap16_of_lt (by omega)] at h3
  have hpos : 0 < ps.length := List.length_pos_iff.mpr (by rw [hps]; exact StringView.scan_ne_nil d [] s hd)
  have hnum : ∀ (n i : Nat) (qs : List (List Byte)), (StringView.number i n qs).length = qs.length ∧ ∀ c ∈ StringView.number i n qs, c.2.2 = n := by
    intro n i qs
    induction qs generalizing i with
    | nil => exact ⟨rfl, fun c hc => by cases hc⟩
    | cons q qs ih =>
      rw [StringView.number]
      refine ⟨by rw [List.length_cons, (ih _).1, List.length_cons], fun c hc => ?_⟩
      rcases List.mem_cons.mp hc with rfl | hc
      · rfl
      · exact (ih _).2 c hc
  refine ⟨fun g h => onPieces g h ⟨none, .none⟩ (StringView.number 0 ps.length ps) >>= fun r => finish r.1 r.2, fun g h => ?_, ?_⟩
  · rw [parse, h3]
  · have hfin : ∀ a : Parse, Bound (fun _ h => finish h a) 0 (fun _ => True) := by
      intro a g h h' r e
      dsimp only at e
      rw [finish] at e
      split at e
      · exact bound_drop (Q := fun _ => True) (fun h => dropVec h a.vec) (fun _ _ => dropParts_asked) _ trivial g h h' r e
      · split at e
        · exact bound_drop (Q := fun _ => True) (fun h => dropStr h _) (fun _ _ => dropStr_asked) _ trivial g h h' r e
        · cases e; exact ⟨⟨Nat.le_refl _, Nat.le_refl _⟩, trivial⟩
    have := Bound.bind (bound_onPieces ps.length ⟨hpos, by omega⟩ (StringView.number 0 ps.length ps) ⟨none, .none⟩ (hnum _ _ _).2)
      (k := fun _ h a => finish h a) (n := 0) (R := fun _ => True) (fun a _ => hfin a)
    refine (this.mono (m := 1 + ps.length) ?_ fun _ _ => trivial).atMost
    rw [(hnum _ _ _).1]
    split
    · omega
    · rw [if_pos (show (⟨none, .none⟩ : Parse).vec.cap = 0 from rfl)]; omega

/-- The other functions that make paths: at most one request for the array and one for each component that can be in the result. -/
theorem C140_paths_bound (p : PObj) (s d : List Byte) (a b : Nat) (vs : Vars) (args : List Arg) (n : Nat) (hn : countArgs vs args = some n) :
    AsksAtMost (fun g h => single g h s) 2 ∧ AsksAtMost root 2 ∧
    AsksAtMost (fun g h => normalize g h p) (1 + p.elems.length) ∧ AsksAtMost (fun g h => getParent g h p) (1 + p.elems.length) ∧
    AsksAtMost (fun g h => subpath g h p a b) (1 + p.elems.length) ∧ AsksAtMost (fun g h => PathMem.toString g h p d) 1 ∧
    AsksAtMost (fun g h => join g h vs args n) (1 + n) := by
  have hsingle : ∀ s, Bound (fun g h => single g h s) 2 (fun _ => True) := by
    intro s
    refine Bound.bind (bound_newStr s) (k := fun g h1 r =>
      match r with
      | .error e => pure (h1, .error e)
      | .ok o =>
        match allocate g h1 32 with
        | (h2, .error e) => do
          let h3 ← dropStr h2 o
          pure (h3, .error e)
        | (h2, .ok (b, _)) => pure (h2, .ok (⟨some b, false, [o]⟩ : PObj))) (n := 1) (R := fun (_ : Except Err PObj) => True) ?_
    rintro (e | o) _
    · exact (bound_pure (Q := fun _ => True) _ trivial).mono (Nat.zero_le _) fun _ _ => trivial
    · intro g h h' r e
      refine Bound.bind (bound_allocate 32) (k := fun _ h2 r =>
        match r with
        | .error e => do
          let h3 ← dropStr h2 o
          pure (h3, .error e)
        | .ok (b, _) => pure (h2, .ok (⟨some b, false, [o]⟩ : PObj))) (n := 0) (R := fun (_ : Except Err PObj) => True) ?_ g h h' r ?_
      · rintro (e | ⟨b, v⟩) _
        · exact bound_drop _ (fun _ _ => dropStr_asked) _ trivial
        · exact bound_pure _ trivial
      · dsimp only at e ⊢
        rw [← e, Outcome.bind_ok]
        rcases allocate g h 32 with ⟨h1, e | ⟨b, m⟩⟩ <;> rfl
  have hvec : ∀ {β : Type} (n m : Nat) (F : Policy → Heap → Outcome (Heap × β)) (k : Policy → Heap → VObj → Outcome (Heap × β))
      (ke : Policy → Heap → Err → Outcome (Heap × β)),
      (∀ g h, F g h = match newVec g h n with | (h1, .error e) => ke g h1 e | (h1, .ok v) => k g h1 v) →
      (∀ v, Bound (fun g h => k g h v) m (fun _ => True)) → (∀ e, Bound (fun g h => ke g h e) m (fun _ => True)) → AsksAtMost F (1 + m) := by
    intro β n m F k ke hF hk hke
    have := Bound.bind (bound_newVec n) (k := fun g h r => match r with | .error e => ke g h e | .ok v => k g h v) (n := m) (R := fun _ => True)
      (by rintro (e | v) _; exact hke e; exact hk v)
    intro g h h' r e
    refine (this g h h' r ?_).1
    rw [hF] at e
    dsimp only
    rw [← e, Outcome.bind_ok]
    rcases newVec g h n with ⟨h1, e | v⟩ <;> rfl
  have hthen : ∀ {α β : Type} (F : Policy → Heap → Outcome (Heap × α)) (m : Nat) (q : α → β), Bound F m (fun _ => True) →
      Bound (fun g h => F g h >>= fun r => pure (r.1, q r.2)) m (fun _ => True) := by
    intro α β F m q hF
    exact Bound.bind hF (k := fun _ h a => pure (h, q a)) (n := 0) fun a _ => bound_pure _ trivial
  refine ⟨(hsingle s).atMost, ?_, ?_, ?_, ?_, ?_, ?_⟩
  · refine (Bound.bind (hsingle []) (k := fun _ h r =>
      match r with
      | .ok p => pure (h, p)
      | .error _ => pure (h, PObj.none)) (n := 0) (R := fun _ => True) ?_).atMost
    rintro (e | p) _
    · exact bound_pure _ trivial
    · exact bound_pure _ trivial
  · refine hvec p.elems.length p.elems.length _ (fun g h1 v => normalizeLoop g h1 v (p.elems.map SObj.text) >>= fun r => pure (r.1, ofVec r.2))
      (fun _ h1 _ => .ok (h1, .none)) (fun g h => by rw [normalize]; rfl) (fun v => ?_)
      fun e => (bound_pure (Q := fun _ => True) _ trivial).mono (Nat.zero_le _) fun _ _ => trivial
    have := hthen _ _ ofVec (bound_normalizeLoop (p.elems.map SObj.text) v)
    rwa [List.length_map] at this
  · by_cases h2 : p.elems.length < 2
    · intro g h h' r e
      dsimp only at e
      rw [getParent, if_pos h2, copyPath] at e
      refine (Bound.bind (bound_allocate (wrap64 (p.elems.length * 32))) (k := fun g h1 r =>
        match r with
        | .error _ => .ok (h1, some .none)
        | .ok (b, _) => do
          let (h2, r) ← copyArray g h1 [] (p.elems.map SObj.text)
          match r with
          | some os => pure (h2, some (⟨some b, wrap64 (p.elems.length * 32) == 0, os⟩ : PObj))
          | none => do
            let h3 ← free h2 b
            pure (h3, none)) (n := p.elems.length) (R := fun _ => True) ?_ g h h' r ?_).1
      · rintro (e | ⟨b, v⟩) _
        · exact (bound_pure (Q := fun _ => True) _ trivial).mono (Nat.zero_le _) fun _ _ => trivial
        · have := Bound.bind (bound_copyArray (p.elems.map SObj.text) []) (k := fun _ h2 r =>
            match r with
            | some os => pure (h2, some (⟨some b, wrap64 (p.elems.length * 32) == 0, os⟩ : PObj))
            | none => do
              let h3 ← free h2 b
              pure (h3, none)) (n := 0) (R := fun _ => True) (by
              rintro (_ | os) _
              · exact bound_drop _ (fun _ _ => free_asked) _ trivial
              · exact bound_pure _ trivial)
          rw [List.length_map] at this
          exact this
      · dsimp only
        rw [← e, Outcome.bind_ok]
        rcases allocate g h (wrap64 (p.elems.length * 32)) with ⟨h1, e | ⟨b, v⟩⟩ <;> rfl
    · refine hvec (p.elems.length - 1) p.elems.length _
        (fun g h1 v => copyAll g h1 v ((p.elems.map SObj.text).take (p.elems.length - 1)) >>= fun r => pure (r.1, some (ofVec r.2)))
        (fun _ h1 _ => .ok (h1, some .none)) (fun g h => by rw [getParent, if_neg h2]; rfl) (fun v => ?_)
        fun e => (bound_pure (Q := fun _ => True) _ trivial).mono (Nat.zero_le _) fun _ _ => trivial
      refine (hthen _ _ (fun v => some (ofVec v)) (bound_copyAll ((p.elems.map SObj.text).take (p.elems.length - 1)) v)).mono ?_ fun _ _ => trivial
      rw [List.length_take, List.length_map]
      omega
  · refine hvec (max (min a p.elems.length) (min b p.elems.length) - min a p.elems.length) p.elems.length _
      (fun g h1 v => copyAll g h1 v (((p.elems.map SObj.text).drop (min a p.elems.length)).take
        (max (min a p.elems.length) (min b p.elems.length) - min a p.elems.length)) >>= fun r => pure (r.1, ofVec r.2))
      (fun _ _ _ => .terminate) (fun g h => by rw [subpath]; rfl) (fun v => ?_) (fun e _ _ _ _ he => by cases he)
    refine (hthen _ _ ofVec (bound_copyAll (((p.elems.map SObj.text).drop (min a p.elems.length)).take
        (max (min a p.elems.length) (min b p.elems.length) - min a p.elems.length)) v)).mono ?_ fun _ _ => trivial
    rw [List.length_take, List.length_drop, List.length_map]
    omega
  · intro g h h' r e
    dsimp only at e
    rw [PathMem.toString] at e
    cases hab : p.view.isAbsolute with
    | ok ab =>
      rw [hab, Outcome.bind_ok] at e
      refine (Bound.bind (f := fun g h => if (ab && p.elems.length == 1) = true then newStr g h d else newJoin g h d (p.elems.map SObj.text))
        (m := 1) (Q := fun _ => True) (k := fun _ h r => match r with | .ok o => pure (h, o) | .error _ => pure (h, SObj.empty)) (n := 0)
        (R := fun _ => True) ?_ ?_ g h h' r (by rw [← e]; dsimp only; split <;> rfl)).1
      · intro g h h' r e
        dsimp only at e
        split at e
        · exact bound_newStr d g h h' r e
        · rw [StrMem.newJoin_single] at e
          exact bound_single _ _ g h h' r e
      · rintro (e | o) _
        · exact bound_pure _ trivial
        · exact bound_pure _ trivial
    | throws => rw [hab] at e; cases e
    | terminate => rw [hab] at e; cases e
    | ub => rw [hab] at e; cases e
  · refine hvec (wrap64 n) n _
      (fun g h1 v => joinArgs g h1 v vs args >>= fun r =>
        match r.2.2.2 with
        | some e => dropVec r.1 r.2.1 >>= fun h3 => pure (h3, r.2.2.1, Except.error e)
        | none => pure (r.1, r.2.2.1, Except.ok (ofVec r.2.1)))
      (fun _ h1 e => .ok (h1, vs, .error e)) (fun g h => by rw [join]; rfl) (fun v => ?_)
      fun e => (bound_pure (Q := fun _ => True) _ trivial).mono (Nat.zero_le _) fun _ _ => trivial
    refine Bound.bind (bound_joinArgs args v vs n hn) (k := fun _ h r =>
        match r.2.2 with
        | some e => dropVec h r.1 >>= fun h3 => pure (h3, r.2.1, Except.error e)
        | none => pure (h, r.2.1, Except.ok (ofVec r.1))) (n := 0) (R := fun _ => True) ?_
    rintro ⟨v1, vs1, e⟩ _
    cases e with
    | none => exact bound_pure _ trivial
    | some e => exact bound_drop (fun h => dropVec h v1) (fun _ _ => dropParts_asked) _ trivial

/-- Moving, swapping and destroying paths asks for nothing. -/
theorem C140_paths_nothing (g : Policy) (p q : PathMem.Prog) (i j : Nat) (o : PathMem.Op) (ho : o = .moveCtor i ∨ o = .swap i j ∨ o = .destroy i)
    (he : PathMem.step g p o = .ok q) : q.heap.asked = p.heap.asked ∧ ∀ g', PathMem.step g' p o = .ok q := by
  rcases ho with rfl | rfl | rfl
  · refine ⟨?_, fun g' => he⟩
    rw [PathMem.step] at he
    split at he <;> cases he <;> rfl
  · refine ⟨?_, fun g' => he⟩
    rw [PathMem.step] at he
    split at he <;> cases he <;> rfl
  · refine ⟨?_, fun g' => he⟩
    rw [PathMem.step] at he
    split at he
    · cases he; rfl
    · rename_i x _
      cases hd : dropPath p.heap x with
      | ok h1 => rw [hd, Outcome.bind_ok] at he; cases he; exact dropParts_asked hd
      | throws => rw [hd] at he; cases he
      | terminate => rw [hd] at he; cases he
      | ub => rw [hd] at he; cases he

/-- Appending to a string builder, taking its string, moving, swapping and destroying strings, versions and builders asks for nothing. -/
theorem C140_strings_nothing (g : Policy) (p q : StrMem.Prog) (i j : Nat) (item : StringBuilder.Item) (o : StrMem.Op)
    (ho : o = .append i item ∨ o = .build i ∨ o = .moveCtor i ∨ o = .assign i j ∨ o = .swap i j ∨ o = .destroy i)
    (he : StrMem.step g p o = .ok q) : q.heap.asked = p.heap.asked ∧ ∀ g', StrMem.step g' p o = .ok q := by
  rcases ho with rfl | rfl | rfl | rfl | rfl | rfl
  · refine ⟨?_, fun g' => he⟩
    rw [StrMem.step] at he
    split at he <;> cases he <;> rfl
  · refine ⟨?_, fun g' => he⟩
    rw [StrMem.step] at he
    split at he <;> cases he <;> rfl
  · refine ⟨?_, fun g' => he⟩
    rw [StrMem.step] at he
    split at he <;> cases he <;> rfl
  · refine ⟨?_, fun g' => he⟩
    rw [StrMem.step] at he
    split at he
    · split at he <;> cases he <;> rfl
    · cases he; rfl
  · refine ⟨?_, fun g' => he⟩
    rw [StrMem.step] at he
    split at he
    · split at he <;> cases he <;> rfl
    · cases he; rfl
  · refine ⟨?_, fun g' => he⟩
    rw [StrMem.step] at he
    split at he
    · cases he; rfl
    · rename_i v _
      have hdrop : ∀ h1, StrMem.dropVal p.heap v = .ok h1 → h1.asked = p.heap.asked := by
        intro h1 hd
        cases v with
        | str o => exact dropStr_asked hd
        | bld b w => exact freeOpt_asked hd
        | ver _ _ _ pre build =>
          rw [StrMem.dropVal] at hd
          cases hb : dropStr p.heap build with
          | ok h2 => rw [hb, Outcome.bind_ok] at hd; exact (dropStr_asked hd).trans (dropStr_asked hb)
          | throws => rw [hb] at hd; cases hd
          | terminate => rw [hb] at hd; cases hd
          | ub => rw [hb] at hd; cases hd
      cases hd : StrMem.dropVal p.heap v with
      | ok h1 => rw [hd, Outcome.bind_ok] at he; cases he; exact hdrop h1 hd
      | throws => rw [hd] at he; cases he
      | terminate => rw [hd] at he; cases he
      | ub => rw [hd] at he; cases he

/-! ### The hypotheses can be met, the bounds reached -/

example : IsSplit [0x2F#8] [0x61#8] [[0x61#8]] := by
  have := StringView.scan_spec [0x2F#8] [0x61#8] (by simp)
  rwa [show StringView.scan [0x2F#8] [] [0x61#8] = [[0x61#8]] by decide +kernel] at this

/-- Nothing is granted: `parse` asks for the array and, all the same, for the first component. -/
example : (parse (fun _ _ => .error .nomem) ⟨0, 0, 0, []⟩ 4 [0x61#8, 0x2F#8, 0x62#8] [0x2F#8]).map
    (fun o => match o with | .ok (h, _) => h.asked | _ => 0) = some 2 := by decide +kernel

/-- A path that is destroyed. -/
example : PathMem.step (fun _ _ => .error .nomem) ⟨⟨2, 0, 2, [1, 0]⟩, [some ⟨some 1, false, [⟨some 0, [0x61#8]⟩]⟩]⟩ (.destroy 0) =
    .ok ⟨⟨2, 0, 2, []⟩, [none]⟩ := by decide +kernel

end Solace.Requests
