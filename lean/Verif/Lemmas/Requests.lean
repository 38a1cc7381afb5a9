import Verif.Spec.Requests
import Verif.Lemmas.StringMemory
/- Helper lemmas for the requests functions make. -/
namespace Solace.Requests
open PathMem

theorem Asks.imp {α : Type} {h : Heap} {f : Policy → Heap → Outcome (Heap × α)} {xs : List Nat} {Q R : Heap → α → Prop}
    (hf : Asks h f xs Q) (hi : ∀ h' a, Q h' a → R h' a) : Asks h f xs R := by
  intro g hg
  obtain ⟨⟨h', a, e, k, r, q⟩, ag⟩ := hf g hg
  exact ⟨⟨h', a, e, k, r, hi _ _ q⟩, ag⟩

theorem Asks.of_eq {α : Type} {h : Heap} {f f' : Policy → Heap → Outcome (Heap × α)} {xs : List Nat} {Q : Heap → α → Prop}
    (hf : Asks h f xs Q) (hi : ∀ g, f' g h = f g h) : Asks h f' xs Q := by
  intro g hg
  obtain ⟨⟨h', a, e, k, r, q⟩, ag⟩ := hf g hg
  exact ⟨⟨h', a, (hi g).trans e, k, r, q⟩, fun g' ha => by rw [hi, hi]; exact ag g' ha⟩

/-- No requests. -/
theorem asks_nothing {α : Type} {h : Heap} {f : Policy → Heap → Outcome (Heap × α)} {Q : Heap → α → Prop} (h' : Heap) (a : α)
    (he : ∀ g, f g h = .ok (h', a)) (hk : h'.asked = h.asked) (hr : h'.refused = h.refused) (hq : Q h' a) : Asks h f [] Q :=
  fun g _ => ⟨⟨h', a, he g, hk, hr, hq⟩, fun g' _ => by rw [he, he]⟩

theorem Grants.left {g : Policy} {k : Nat} {xs ys : List Nat} (hg : Grants g k (xs ++ ys)) : Grants g k xs := by
  intro i n hi
  refine hg i n ?_
  rw [List.getElem?_append_left (List.getElem?_eq_some_iff.mp hi).1]
  exact hi

theorem Grants.right {g : Policy} {k : Nat} {xs ys : List Nat} (hg : Grants g k (xs ++ ys)) : Grants g (k + xs.length) ys := by
  intro i n hi
  rw [Nat.add_assoc]
  refine hg _ n ?_
  rw [List.getElem?_append_right (Nat.le_add_right _ _), Nat.add_sub_cancel_left]
  exact hi

theorem Agree.left {g g' : Policy} {k : Nat} {xs ys : List Nat} (hg : Agree g g' k (xs ++ ys)) : Agree g g' k xs := by
  intro i n hi
  refine hg i n ?_
  rw [List.getElem?_append_left (List.getElem?_eq_some_iff.mp hi).1]
  exact hi

theorem Agree.right {g g' : Policy} {k : Nat} {xs ys : List Nat} (hg : Agree g g' k (xs ++ ys)) : Agree g g' (k + xs.length) ys := by
  intro i n hi
  rw [Nat.add_assoc]
  refine hg _ n ?_
  rw [List.getElem?_append_right (Nat.le_add_right _ _), Nat.add_sub_cancel_left]
  exact hi

/-- One function after the other. -/
theorem Asks.bind {α β : Type} {h : Heap} {f : Policy → Heap → Outcome (Heap × α)} {k : Policy → Heap → α → Outcome (Heap × β)}
    {xs ys : List Nat} {Q : Heap → α → Prop} {R : Heap → β → Prop} (hf : Asks h f xs Q)
    (hk : ∀ h' a, Q h' a → Asks h' (fun g h => k g h a) ys R) :
    Asks h (fun g h => f g h >>= fun r => k g r.1 r.2) (xs ++ ys) R := by
  intro g hg
  obtain ⟨⟨h1, a, e1, k1, r1, q1⟩, ag1⟩ := hf g hg.left
  obtain ⟨⟨h2, b, e2, k2, r2, q2⟩, ag2⟩ := hk h1 a q1 g (by rw [k1]; exact hg.right)
  refine ⟨⟨h2, b, ?_, ?_, r2.trans r1, q2⟩, fun g' ha => ?_⟩
  · dsimp only
    rw [e1, Outcome.bind_ok]
    exact e2
  · rw [k2, k1, List.length_append, Nat.add_assoc]
  · dsimp only
    rw [ag1 g' ha.left, e1, Outcome.bind_ok, Outcome.bind_ok]
    exact ag2 g' (by rw [k1]; exact ha.right)

theorem asks_allocate (h : Heap) (n : Nat) :
    Asks h (fun g h => .ok (allocate g h n)) [n]
      (fun h' r => ∃ b v, r = .ok (b, v) ∧ v.null = false ∧ v.bytes.length = n ∧ b ∈ h'.live ∧
        ∀ rest, Owns h rest → Owns h' (b :: rest)) := by
  intro g hg
  obtain ⟨v, e, hn, hl⟩ := hg 0 n rfl
  rw [Nat.add_zero] at e
  have ha : allocate g h n =
      ({ h with asked := h.asked + 1, next := h.next + 1, live := h.next :: h.live }, .ok (h.next, v)) := by
    rw [allocate, e]
  refine ⟨⟨{ h with asked := h.asked + 1, next := h.next + 1, live := h.next :: h.live }, .ok (h.next, v), congrArg Outcome.ok ha, rfl, rfl,
    h.next, v, rfl, hn, hl, List.mem_cons_self, fun rest ho => (allocate_ok ho ha).1⟩, fun g' hag => ?_⟩
  dsimp only
  have := hag 0 n rfl
  rw [Nat.add_zero] at this
  rw [allocate, allocate, this]

theorem free_mem {h : Heap} {b : Nat} (hb : b ∈ h.live) : free h b = .ok { h with live := h.live.erase b } := if_pos hb

/-- A string is made with one request. -/
theorem asks_single (h : Heap) (n : Nat) (k : MutView → Except Err Str) :
    Asks h (fun g h => StrMem.single g h n k) [n]
      (fun h' r => ∃ v, v.null = false ∧ v.bytes.length = n ∧
        match k v with
        | .error e => r = .error e
        | .ok s => ∃ b, r = .ok ⟨some b, s.view⟩ ∧ ∀ rest, Owns h rest → Owns h' (b :: rest)) := by
  have := Asks.bind (asks_allocate h n) (k := fun _ h r =>
    match r with
    | .error e => .ok (h, .error e)
    | .ok (b, v) =>
      match k v with
      | .error e => free h b >>= fun h2 => pure (h2, .error e)
      | .ok s => .ok (h, .ok ⟨some b, s.view⟩)) (ys := [])
    (R := fun h' (r : Except Err SObj) => ∃ v, v.null = false ∧ v.bytes.length = n ∧
        match k v with
        | .error e => r = .error e
        | .ok s => ∃ b, r = .ok ⟨some b, s.view⟩ ∧ ∀ rest, Owns h rest → Owns h' (b :: rest)) ?_
  · refine this.of_eq fun g => ?_
    rw [StrMem.single, Outcome.bind_ok]
    rcases allocate g h n with ⟨h1, e | ⟨b, v⟩⟩ <;> rfl
  · rintro h' r ⟨b, v, rfl, hn, hl, hb, ho⟩
    cases hk : k v with
    | error e =>
      refine asks_nothing { h' with live := h'.live.erase b } (.error e) (fun _ => ?_) rfl rfl ⟨v, hn, hl, by rw [hk]⟩
      dsimp only
      rw [hk]
      dsimp only
      rw [free_mem hb]
      rfl
    | ok s =>
      refine asks_nothing h' (.ok ⟨some b, s.view⟩) (fun _ => ?_) rfl rfl ⟨v, hn, hl, by rw [hk]; exact ⟨b, rfl, ho⟩⟩
      dsimp only
      rw [hk]

theorem write_all (v : MutView) (s : List Byte) (hn : v.null = false) (hl : v.bytes.length = s.length) :
    v.write s = ({ v with bytes := s }, .ok ()) := by
  have hd : v.bytes.drop s.length = [] := List.drop_eq_nil_of_le (by omega)
  simp only [MutView.write, hn, Bool.false_eq_true, if_false]
  rw [if_neg (by omega), hd, List.append_nil]

theorem asks_newStr (h : Heap) (s : List Byte) :
    Asks h (fun g h => newStr g h s) [s.length]
      (fun h' r => ∃ b, r = .ok ⟨some b, s⟩ ∧ ∀ rest, Owns h rest → Owns h' (b :: rest)) := by
  refine ((asks_single h s.length _).of_eq fun g => StrMem.newStr_single g h s).imp ?_
  rintro h' r ⟨v, hn, hl, hk⟩
  rw [write_all v s hn hl] at hk
  obtain ⟨b, e, ho⟩ := hk
  refine ⟨b, ?_, ho⟩
  rw [e, Str.view]
  dsimp only
  rw [Solace.slice_eq]
  simp

theorem asks_newVec (h : Heap) (n : Nat) (hn : n < 2 ^ 59) :
    Asks h (fun g h => .ok (newVec g h n)) [32 * n]
      (fun h' r => ∃ b, r = .ok ⟨some b, n, []⟩ ∧ ∀ rest, Owns h rest → Owns h' (b :: rest)) := by
  have hw : wrap64 (n * 32) = 32 * n := by rw [wrap64_of_lt (by omega), Nat.mul_comm]
  have := Asks.bind (asks_allocate h (32 * n)) (k := fun _ h r =>
    match r with
    | .error e => .ok (h, .error e)
    | .ok (b, _) => .ok (h, .ok (⟨some b, n, []⟩ : VObj))) (ys := [])
    (R := fun h' (r : Except Err VObj) => ∃ b, r = .ok ⟨some b, n, []⟩ ∧ ∀ rest, Owns h rest → Owns h' (b :: rest)) ?_
  · refine this.of_eq fun g => ?_
    rw [newVec, Outcome.bind_ok, hw, Nat.mul_div_cancel_left n (by decide : 0 < 32)]
    rcases allocate g h (32 * n) with ⟨h1, e | ⟨b, v⟩⟩ <;> rfl
  · rintro h' r ⟨b, v, rfl, _, _, _, ho⟩
    exact asks_nothing h' _ (fun _ => rfl) rfl rfl ⟨b, rfl, ho⟩

theorem pushBack_room (v : VObj) (o : SObj) (hv : v.elems.length < v.cap) :
    pushBack v o = ({ v with elems := v.elems ++ [o] }, .empty) := by
  rw [pushBack, if_neg (by omega)]

theorem asks_copyTo (h : Heap) (v : VObj) (c : List Byte) (hv : v.elems.length < v.cap) :
    Asks h (fun g h => copyTo g h v c) [c.length]
      (fun h' v' => ∃ b, v' = { v with elems := v.elems ++ [⟨some b, c⟩] } ∧ ∀ rest, Owns h rest → Owns h' (b :: rest)) := by
  have := Asks.bind (asks_newStr h c) (k := fun _ h r =>
    match r with
    | .ok o => do
      let h2 ← dropStr h (pushBack v o).2
      pure (h2, (pushBack v o).1)
    | .error _ => pure (h, v)) (ys := [])
    (R := fun h' v' => ∃ b, v' = { v with elems := v.elems ++ [⟨some b, c⟩] } ∧ ∀ rest, Owns h rest → Owns h' (b :: rest)) ?_
  · refine this.of_eq fun g => ?_
    rw [copyTo]
    rfl
  · rintro h' r ⟨b, rfl, ho⟩
    refine asks_nothing h' _ (fun _ => ?_) rfl rfl ⟨b, rfl, ho⟩
    dsimp only
    rw [pushBack_room v _ hv]
    rfl

theorem asks_copyAll (cs : List (List Byte)) : ∀ (h : Heap) (v : VObj), v.elems.length + cs.length ≤ v.cap →
    Asks h (fun g h => copyAll g h v cs) (cs.map List.length)
      (fun _ v' => v'.block = v.block ∧ v'.cap = v.cap ∧ v'.elems.map SObj.text = v.elems.map SObj.text ++ cs) := by
  induction cs with
  | nil => intro h v _; exact asks_nothing h v (fun _ => rfl) rfl rfl ⟨rfl, rfl, by simp⟩
  | cons c cs ih =>
    intro h v hv
    rw [List.length_cons] at hv
    have := Asks.bind (asks_copyTo h v c (by omega)) (k := fun g h v1 => copyAll g h v1 cs) (ys := cs.map List.length)
      (R := fun _ v' => v'.block = v.block ∧ v'.cap = v.cap ∧ v'.elems.map SObj.text = v.elems.map SObj.text ++ c :: cs) ?_
    · exact this.of_eq fun g => rfl
    · rintro h' v' ⟨b, rfl, _⟩
      refine (ih h' _ ?_).imp ?_
      · dsimp only; rw [List.length_append, List.length_singleton]; omega
      · rintro h2 v2 ⟨e1, e2, e3⟩
        refine ⟨e1, e2, ?_⟩
        rw [e3]
        simp

theorem asks_copyArray (cs : List (List Byte)) : ∀ (h : Heap) (done : List SObj),
    Asks h (fun g h => copyArray g h done cs) (cs.map List.length)
      (fun _ r => ∃ os, r = some os ∧ os.map SObj.text = done.map SObj.text ++ cs) := by
  induction cs with
  | nil => intro h v; exact asks_nothing h (some v) (fun _ => rfl) rfl rfl ⟨v, rfl, by simp⟩
  | cons c cs ih =>
    intro h done
    have := Asks.bind (asks_newStr h c) (k := fun g h r =>
      match r with
      | .ok o => copyArray g h (done ++ [o]) cs
      | .error _ => do
        let h2 ← dropStrs h done.reverse
        pure (h2, none)) (ys := cs.map List.length)
      (R := fun _ r => ∃ os, r = some os ∧ os.map SObj.text = done.map SObj.text ++ c :: cs) ?_
    · exact this.of_eq fun g => rfl
    · rintro h' r ⟨b, rfl, _⟩
      refine (ih h' _).imp ?_
      rintro h2 r2 ⟨os, e1, e2⟩
      refine ⟨os, e1, ?_⟩
      rw [e2]
      simp

theorem asks_joinCopies (cs : List (List Byte)) : ∀ (h : Heap) (v : VObj), v.elems.length + cs.length ≤ v.cap →
    Asks h (fun g h => joinCopies g h v cs) (cs.map List.length)
      (fun _ r => r.2 = none ∧ r.1.block = v.block ∧ r.1.cap = v.cap ∧ r.1.elems.map SObj.text = v.elems.map SObj.text ++ cs) := by
  induction cs with
  | nil => intro h v _; exact asks_nothing h (v, none) (fun _ => rfl) rfl rfl ⟨rfl, rfl, rfl, by simp⟩
  | cons c cs ih =>
    intro h v hv
    rw [List.length_cons] at hv
    have := Asks.bind (asks_newStr h c) (k := fun g h r =>
      match r with
      | .error e => pure (h, v, some e)
      | .ok o => do
        let h2 ← dropStr h (pushBack v o).2
        joinCopies g h2 (pushBack v o).1 cs) (ys := cs.map List.length)
      (R := fun _ r => r.2 = none ∧ r.1.block = v.block ∧ r.1.cap = v.cap ∧
        r.1.elems.map SObj.text = v.elems.map SObj.text ++ c :: cs) ?_
    · exact this.of_eq fun g => rfl
    · rintro h' r ⟨b, rfl, _⟩
      have hb := pushBack_room v ⟨some b, c⟩ (by omega)
      refine ((ih h' { v with elems := v.elems ++ [⟨some b, c⟩] } ?_).of_eq fun g => ?_).imp ?_
      · dsimp only; rw [List.length_append, List.length_singleton]; omega
      · dsimp only
        rw [hb]
        rfl
      · rintro h2 v2 ⟨e0, e1, e2, e3⟩
        refine ⟨e0, e1, e2, ?_⟩
        rw [e3]
        simp

theorem joinMoved_room (os : List SObj) : ∀ v : VObj, v.elems.length + os.length ≤ v.cap →
    joinMoved v os = ({ v with elems := v.elems ++ os }, os.map fun _ => .empty) := by
  induction os with
  | nil => intro v _; rw [joinMoved]; simp
  | cons o os ih =>
    intro v hv
    rw [List.length_cons] at hv
    rw [joinMoved, pushBack_room v o (by omega)]
    dsimp only
    rw [ih _ (by dsimp only; rw [List.length_append, List.length_singleton]; omega)]
    simp

theorem copied_length (cs : List (List Byte)) : ∀ d, (copied d cs).length ≤ cs.length := by
  induction cs with
  | nil => intro d; exact Nat.le_refl _
  | cons c cs ih =>
    intro d
    rw [copied]
    split
    · exact Nat.le_succ_of_le (ih d)
    · split
      · exact Nat.le_succ_of_le (ih _)
      · exact Nat.succ_le_succ (ih _)

theorem asks_normalizeLoop (cs : List (List Byte)) : ∀ (h : Heap) (v : VObj) (rest : List Nat), Owns h (v.blocks ++ rest) →
    v.elems.length + cs.length ≤ v.cap →
    Asks h (fun g h => normalizeLoop g h v cs) ((copied v.elems.length cs).map List.length)
      (fun _ v' => v'.elems.map SObj.text = normalized (v.elems.map SObj.text) cs) := by
  induction cs with
  | nil => intro h v _ _ _; exact asks_nothing h v (fun _ => rfl) rfl rfl rfl
  | cons c cs ih =>
    intro h v rest ho hv
    rw [List.length_cons] at hv
    have hem : v.elems.map SObj.text ≠ [] ↔ 0 < v.elems.length := by
      rw [← List.length_pos_iff, List.length_map]
    rw [copied, normalized]
    by_cases h1 : c = [0x2E#8]
    · rw [if_pos h1, if_pos h1]
      refine (ih h v rest ho (by omega)).of_eq fun g => ?_
      rw [normalizeLoop, if_pos ((StringView.equals_iff c Path.selfRef).mpr h1)]
    · rw [if_neg h1, if_neg h1]
      have e1 : ¬StringView.equals c Path.selfRef = true := fun he => h1 ((StringView.equals_iff _ _).mp he)
      by_cases h2 : c = [0x2E#8, 0x2E#8] ∧ 0 < v.elems.length
      · rw [if_pos h2, if_pos ⟨h2.1, hem.mpr h2.2⟩]
        obtain ⟨h', v', ep, op, rp, cp, tp⟩ := popBack_owns v ho
        have hlen : v'.elems.length = v.elems.length - 1 := by
          have := congrArg List.length tp
          rwa [texts_length, List.length_dropLast, texts_length] at this
        have hask : h'.asked = h.asked ∧ v'.block = v.block := by
          rw [popBack] at ep
          split at ep
          · cases ep; exact ⟨rfl, rfl⟩
          · rename_i o _
            obtain ⟨ob, ot⟩ := o
            cases ob with
            | none => cases ep; exact ⟨rfl, rfl⟩
            | some b =>
              by_cases hb : b ∈ h.live
              · rw [show dropStr h ⟨some b, ot⟩ = free h b from rfl, free_mem hb, Outcome.bind_ok] at ep
                cases ep; exact ⟨rfl, rfl⟩
              · rw [show dropStr h ⟨some b, ot⟩ = free h b from rfl, free, if_neg hb, Outcome.bind_ub] at ep
                cases ep
        have := Asks.bind (h := h) (f := fun g h => popBack h v) (xs := []) (Q := fun a b => a = h' ∧ b = v')
          (k := fun g h v1 => normalizeLoop g h v1 cs) (ys := (copied (v.elems.length - 1) cs).map List.length)
          (R := fun _ w => w.elems.map SObj.text = normalized (v.elems.map SObj.text).dropLast cs)
          (asks_nothing h' v' (fun _ => ep) hask.1 rp ⟨rfl, rfl⟩) ?_
        · refine this.of_eq fun g => ?_
          rw [normalizeLoop, if_neg e1, if_pos (by rw [Bool.and_eq_true]; exact ⟨(StringView.equals_iff _ _).mpr h2.1, decide_eq_true h2.2⟩)]
        · rintro a b ⟨rfl, rfl⟩
          rw [← hlen]
          have := ih a b rest op (by omega)
          rw [show b.elems.map SObj.text = (v.elems.map SObj.text).dropLast from tp] at this
          exact this
      · rw [if_neg h2, if_neg (fun hx => h2 ⟨hx.1, hem.mp hx.2⟩)]
        have e2 : ¬(StringView.equals c Path.parentRef && decide (0 < v.elems.length)) = true := by
          rw [Bool.and_eq_true]
          exact fun he => h2 ⟨(StringView.equals_iff _ _).mp he.1, of_decide_eq_true he.2⟩
        have := Asks.bind (asks_copyTo h v c (by omega)) (k := fun g h v1 => normalizeLoop g h v1 cs)
          (ys := (copied (v.elems.length + 1) cs).map List.length)
          (R := fun _ w => w.elems.map SObj.text = normalized (v.elems.map SObj.text ++ [c]) cs) ?_
        · refine this.of_eq fun g => ?_
          rw [normalizeLoop, if_neg e1, if_neg e2]
        · rintro h' v' ⟨b, rfl, hb⟩
          have := ih h' { v with elems := v.elems ++ [⟨some b, c⟩] } rest ((hb _ ho).congr fun x => by
            simp only [VObj.blocks, strBlocks, List.flatMap_append, List.flatMap_cons, List.flatMap_nil, SObj.blocks, Option.toList,
              List.count_append, List.count_cons, List.count_nil]
            omega) (by dsimp only; rw [List.length_append, List.length_singleton]; omega)
          rw [show (v.elems ++ [(⟨some b, c⟩ : SObj)]).length = v.elems.length + 1 by simp, List.map_append] at this
          exact this

/-- The pieces after the array was made. -/
theorem asks_onPieces (n : Nat) (ps : List (List Byte)) : ∀ (h : Heap) (a : Parse) (i : Nat), a.err = none → a.vec.cap = n → 0 < n →
    a.vec.elems.length ≤ i → i + ps.length = n →
    Asks h (fun g h => onPieces g h a (StringView.number i n ps)) ((components ps).map List.length)
      (fun _ b => b.err = none ∧ b.vec.block = a.vec.block ∧ b.vec.cap = n ∧
        b.vec.elems.map SObj.text = a.vec.elems.map SObj.text ++ components ps) := by
  induction ps with
  | nil =>
    intro h a i he hc hn hl hi
    refine asks_nothing h a (fun _ => rfl) rfl rfl ⟨he, rfl, hc, ?_⟩
    rw [show components [] = [] from rfl, List.append_nil]
  | cons p ps ih =>
    intro h a i he hc hn hl hi
    rw [List.length_cons] at hi
    have hprep : ∀ g h, prepare g h a n = .ok (h, a) := by
      intro g h
      rw [prepare, if_neg (by omega)]
    have hone : ∀ g h, onPiece g h a p i n = add g h a p i n := by
      intro g h
      rw [onPiece, he, if_neg (by simp), hprep, Outcome.bind_ok]
    by_cases hlast : i + 1 = n ∧ p = []
    · have hps : ps = [] := List.length_eq_zero_iff.mp (by omega)
      subst hps
      obtain ⟨_, rfl⟩ := hlast
      refine asks_nothing h a (fun g => ?_) rfl rfl ⟨he, rfl, hc, ?_⟩
      · rw [StringView.number, StringView.number, onPieces, hone, add, if_pos ⟨by omega, rfl⟩, Outcome.bind_ok]
        rfl
      · rw [show components [[]] = [] from rfl, List.append_nil]
    · have hcomp : components (p :: ps) = p :: components ps := by
        cases ps with
        | nil =>
          have : p ≠ [] := fun hp => hlast ⟨by simpa using hi, hp⟩
          simp [components, this]
        | cons q qs =>
          simp only [components, List.getLast?_cons_cons, List.dropLast_cons_cons]
          split <;> rfl
      have hadd := Asks.bind (asks_newStr h p) (k := fun _ h r =>
        match r with
        | .ok o => do
          let h2 ← dropStr h (pushBack a.vec o).2
          pure (h2, { a with vec := (pushBack a.vec o).1 })
        | .error e => pure (h, { a with err := some e })) (ys := [])
        (R := fun _ (b : Parse) => ∃ k, b = { a with vec := { a.vec with elems := a.vec.elems ++ [⟨some k, p⟩] } }) (by
          rintro h' r ⟨k, rfl, _⟩
          refine asks_nothing h' _ (fun _ => ?_) rfl rfl ⟨k, rfl⟩
          dsimp only
          rw [pushBack_room a.vec _ (by omega)]
          rfl)
      have := Asks.bind (hadd.of_eq (f' := fun g h => onPiece g h a p i n) (fun g => by
        rw [hone, add, if_neg hlast]
        rfl)) (k := fun g h b => onPieces g h b (StringView.number (i + 1) n ps)) (ys := (components ps).map List.length)
        (R := fun _ b => b.err = none ∧ b.vec.block = a.vec.block ∧ b.vec.cap = n ∧
          b.vec.elems.map SObj.text = a.vec.elems.map SObj.text ++ p :: components ps) (by
          rintro h' b ⟨k, rfl⟩
          refine (ih h' { a with vec := { a.vec with elems := a.vec.elems ++ [⟨some k, p⟩] } } (i + 1) he hc hn ?_ (by omega)).imp ?_
          · dsimp only; rw [List.length_append, List.length_singleton]; omega
          · rintro _ b ⟨b1, b2, b3, b4⟩
            refine ⟨b1, b2, b3, ?_⟩
            rw [b4]
            simp)
      rw [hcomp]
      exact this.of_eq fun g => rfl

theorem countArgs_set (vs : Vars) (i : Nat) (p q : PObj) (hp : getVar vs i = some p) (hl : q.elems.length = p.elems.length) (as : List Arg) :
    countArgs (vs.set i (some q)) as = countArgs vs as := by
  have hget : ∀ j, (getVar (vs.set i (some q)) j).map (fun x => x.elems.length) = (getVar vs j).map (fun x => x.elems.length) := by
    intro j
    simp only [getVar, List.getElem?_set]
    by_cases hj : i = j
    · subst hj
      have hi : i < vs.length := by
        rcases Nat.lt_or_ge i vs.length with h | h
        · exact h
        · rw [getVar, List.getElem?_eq_none h] at hp
          cases hp
      rw [if_pos rfl, if_pos hi, show (vs[i]?).join = some p from hp]
      exact congrArg some hl
    · rw [if_neg hj]
  induction as with
  | nil => rfl
  | cons a as ih =>
    rw [countArgs, countArgs, ih]
    cases countArgs vs as with
    | none => rfl
    | some m =>
      have key : ∀ j, (getVar (vs.set i (some q)) j).map (fun x => x.elems.length + m) = (getVar vs j).map (fun x => x.elems.length + m) := by
        intro j
        have := congrArg (Option.map (· + m)) (hget j)
        rwa [Option.map_map, Option.map_map] at this
      cases a with
      | str s => rfl
      | copy j => exact key j
      | move j => exact key j

/-- The arguments of a join, when there is room for all components. -/
theorem asks_joinArgs (args : List Arg) : ∀ (h : Heap) (v : VObj) (vs : Vars) (n : Nat), countArgs vs args = some n →
    v.elems.length + n ≤ v.cap →
    Asks h (fun g h => joinArgs g h v vs args) ((joinCopied vs args).map List.length)
      (fun _ r => r.2.2 = none ∧ r.1.block = v.block ∧ r.1.cap = v.cap ∧
        r.1.elems.map SObj.text = v.elems.map SObj.text ++ expected vs args) := by
  induction args with
  | nil =>
    intro h v vs n _ _
    exact asks_nothing h (v, vs, none) (fun _ => rfl) rfl rfl ⟨rfl, rfl, rfl, by simp [expected]⟩
  | cons a as ih =>
    intro h v vs n hc hv
    rw [countArgs] at hc
    cases hm : countArgs vs as with
    | none => rw [hm] at hc; cases hc
    | some m =>
      rw [hm] at hc
      have copies : ∀ cs : List (List Byte), v.elems.length + cs.length + m ≤ v.cap →
          Asks h (fun g h => joinCopies g h v cs >>= fun r =>
            if r.2.2.isSome then pure (r.1, r.2.1, vs, r.2.2) else joinArgs g r.1 r.2.1 vs as)
            (cs.map List.length ++ (joinCopied vs as).map List.length)
            (fun _ r => r.2.2 = none ∧ r.1.block = v.block ∧ r.1.cap = v.cap ∧
              r.1.elems.map SObj.text = v.elems.map SObj.text ++ (cs ++ expected vs as)) := by
        intro cs hcs
        refine Asks.bind (asks_joinCopies cs h v (by omega))
          (k := fun g h r => if r.2.isSome then pure (h, r.1, vs, r.2) else joinArgs g h r.1 vs as) ?_
        rintro h' ⟨v', e⟩ ⟨rfl, e1, e2, e3⟩
        dsimp only at e1 e2 e3
        have hl := congrArg List.length e3
        rw [List.length_map, List.length_append, List.length_map] at hl
        refine ((ih h' v' vs m hm (by omega)).of_eq fun g => ?_).imp ?_
        · rw [if_neg (by simp)]
        · rintro _ r ⟨r0, r1, r2, r3⟩
          refine ⟨r0, r1.trans e1, r2.trans e2, ?_⟩
          rw [r3, e3, List.append_assoc]
      cases a with
      | str s =>
        obtain rfl : 1 + m = n := Option.some.inj hc
        have := copies [s] (by rw [List.length_singleton]; omega)
        exact this.of_eq fun g => rfl
      | copy i =>
        dsimp only at hc
        cases hg : getVar vs i with
        | none => rw [hg] at hc; cases hc
        | some p =>
          rw [hg] at hc
          obtain rfl : p.elems.length + m = n := Option.some.inj hc
          have := copies (p.elems.map SObj.text) (by rw [List.length_map]; omega)
          rw [joinCopied, expected, hg, List.map_append]
          refine this.of_eq fun g => ?_
          rw [joinArgs, hg]
      | move i =>
        dsimp only at hc
        cases hg : getVar vs i with
        | none => rw [hg] at hc; cases hc
        | some p =>
          rw [hg] at hc
          obtain rfl : p.elems.length + m = n := Option.some.inj hc
          rw [joinCopied, expected, hg]
          have hcount : countArgs (vs.set i (some { p with elems := p.elems.map fun _ => .empty })) as = some m := by
            rw [← hm]
            exact countArgs_set vs i p _ hg (by simp) as
          have := ih h { v with elems := v.elems ++ p.elems } (vs.set i (some { p with elems := p.elems.map fun _ => .empty })) m hcount
            (by dsimp only; rw [List.length_append]; omega)
          refine (this.of_eq fun g => ?_).imp ?_
          · rw [joinArgs, hg]
            dsimp only
            rw [joinMoved_room p.elems v (by omega)]
          · rintro _ r ⟨r0, r1, r2, r3⟩
            refine ⟨r0, r1, r2, ?_⟩
            rw [r3]
            simp

end Solace.Requests
