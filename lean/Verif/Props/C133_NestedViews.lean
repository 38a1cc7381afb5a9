import Verif.Lemmas.NestedViews
import Verif.Props.C132_NestedMemory
/-
C133: views of strings and references to elements stay valid while their owners are moved about.
-/
namespace Solace.Nested
open PathMem

/-- Blocks are used for what they were used for before, or they are new. -/
def Back (p q : Prog) : Prop :=
  p.heap.next ≤ q.heap.next ∧ ∀ w, Own q.vars w → Own p.vars w ∨ p.heap.next ≤ w.1

theorem back_same (p : Prog) : Back p p := ⟨Nat.le_refl _, fun _ h => .inl h⟩

theorem back_heap {p : Prog} {h : Heap} (hn : p.heap.next ≤ h.next) : Back p ⟨h, p.vars⟩ := ⟨hn, fun _ h => .inl h⟩

theorem back_vars {p : Prog} {vs : Vars} (h : ∀ w, Own vs w → Own p.vars w) : Back p ⟨p.heap, vs⟩ := ⟨Nat.le_refl _, fun w hw => .inl (h w hw)⟩

theorem back_drop {p : Prog} {vs : Vars} {h' : Heap} (hn : h'.next = p.heap.next) (h : ∀ w, Own vs w → Own p.vars w) : Back p ⟨h', vs⟩ :=
  ⟨Nat.le_of_eq hn.symm, fun w hw => .inl (h w hw)⟩

theorem owners_set {es : List Val} {k : Nat} {y : Val} {w : Nat × Option (List Byte)} (h : w ∈ ownersAll (es.set k y)) :
    w ∈ ownersAll es ∨ w ∈ y.owners := by
  obtain ⟨v, hv, hw⟩ := mem_ownersAll.mp h
  rcases List.mem_or_eq_of_mem_set hv with hv | hv
  · exact .inl (mem_ownersAll.mpr ⟨v, hv, hw⟩)
  · cases hv; exact .inr hw

theorem withElems_own {v : Val} {es es' : List Val} (h : v.elems = some es) {w : Nat × Option (List Byte)} (hw : w ∈ (v.withElems es').owners) :
    w ∈ v.owners ∨ w ∈ ownersAll es' := by
  cases v with
  | str _ => cases h
  | dict _ _ _ _ _ _ => cases h
  | vec b c xs =>
    rw [Val.withElems, Val.owners, List.mem_append] at hw
    rw [Val.owners, List.mem_append]
    exact hw.elim (fun h => .inl (.inl h)) .inr
  | arr b xs =>
    rw [Val.withElems, Val.owners, List.mem_append] at hw
    rw [Val.owners, List.mem_append]
    exact hw.elim (fun h => .inl (.inl h)) .inr

theorem elems_own {v : Val} {es : List Val} (h : v.elems = some es) {w : Nat × Option (List Byte)} (hw : w ∈ ownersAll es) : w ∈ v.owners := by
  cases v with
  | str _ => cases h
  | dict _ _ _ _ _ _ => cases h
  | vec b c xs => cases h; rw [Val.owners, List.mem_append]; exact .inr hw
  | arr b xs => cases h; rw [Val.owners, List.mem_append]; exact .inr hw

theorem element_own {es : List Val} {k : Nat} {x : Val} (h : es[k]? = some x) {w : Nat × Option (List Byte)} (hw : w ∈ x.owners) :
    w ∈ ownersAll es := mem_ownersAll.mpr ⟨x, List.mem_of_getElem? h, hw⟩

theorem dict_own {kb vb : Option Nat} {kc vc : Nat} {ks vs ks' vs' : List Val} {w : Nat × Option (List Byte)}
    (hw : w ∈ (Val.dict kb kc ks' vb vc vs').owners) :
    w ∈ (Val.dict kb kc ks vb vc vs).owners ∨ w ∈ ownersAll ks' ∨ w ∈ ownersAll vs' := by
  simp only [Val.owners, List.mem_append] at hw ⊢
  rcases hw with (h | h) | (h | h)
  · exact .inl (.inl (.inl h))
  · exact .inr (.inl h)
  · exact .inl (.inr (.inl h))
  · exact .inr (.inr h)

theorem dict_keys {kb vb : Option Nat} {kc vc : Nat} {ks vs : List Val} {w : Nat × Option (List Byte)} (hw : w ∈ ownersAll ks) :
    w ∈ (Val.dict kb kc ks vb vc vs).owners := by
  simp only [Val.owners, List.mem_append]; exact .inl (.inr hw)

theorem dict_values {kb vb : Option Nat} {kc vc : Nat} {ks vs : List Val} {w : Nat × Option (List Byte)} (hw : w ∈ ownersAll vs) :
    w ∈ (Val.dict kb kc ks vb vc vs).owners := by
  simp only [Val.owners, List.mem_append]; exact .inr (.inr hw)

theorem ownersAll_append {as bs : List Val} {w : Nat × Option (List Byte)} : w ∈ ownersAll (as ++ bs) ↔ w ∈ ownersAll as ∨ w ∈ ownersAll bs := by
  simp only [mem_ownersAll, List.mem_append, or_and_right, exists_or]

theorem ownersAll_one {x : Val} {w : Nat × Option (List Byte)} : w ∈ ownersAll [x] ↔ w ∈ x.owners := by
  simp [mem_ownersAll]

theorem step_back {g : Policy} {p : Prog} {o : Op} {r : Prog × Bool} (e : step g p o = .ok r) : Back p r.1 := by
  cases o with
  | string s =>
    rw [step] at e
    obtain ⟨⟨h', q⟩, e1, e2⟩ := bind_some e
    obtain ⟨n1, _, f1⟩ := newStr_next e1
    cases q with
    | error x => cases e2; exact back_heap n1
    | ok o =>
      cases e2
      refine ⟨n1, fun w hw => ?_⟩
      rcases own_append hw with h | h
      · exact .inl h
      · obtain ⟨b, t⟩ := w
        rw [Val.owners, opt_mem] at h
        exact .inr (f1 o b rfl h.1)
  | fresh k =>
    cases e
    refine back_vars fun w hw => ?_
    rcases own_append hw with h | h
    · exact h
    · rw [empty_owners] at h; cases h
  | vector sz n =>
    rw [step] at e
    cases ha : allocate g p.heap (wrap64 (n * sz)) with
    | mk h1 q =>
      rw [ha] at e
      obtain ⟨n1, _, f1⟩ := allocate_next ha
      cases q with
      | error x => cases e; exact back_heap n1
      | ok bv =>
        obtain ⟨b, v⟩ := bv
        cases e
        refine ⟨n1, fun w hw => ?_⟩
        rcases own_append hw with h | h
        · exact .inl h
        · obtain ⟨c, t⟩ := w
          rw [Val.owners, List.mem_append, opt_mem] at h
          rcases h with h | h
          · cases h.1; exact .inr (Nat.le_of_eq (f1 _ v rfl).1.symm)
          · cases h
  | vectorOf sz is =>
    rw [step] at e
    cases hm : moveAll p.vars is with
    | none => rw [hm] at e; cases e; exact back_same p
    | some q =>
      obtain ⟨xs, vs⟩ := q
      rw [hm] at e
      obtain ⟨m1, m2⟩ := moveAll_own is _ _ _ hm
      dsimp only at e
      cases ha : allocate g p.heap (wrap64 (is.length * sz)) with
      | mk h1 q =>
        rw [ha] at e
        obtain ⟨n1, _, f1⟩ := allocate_next ha
        cases q with
        | error x => cases e; exact back_heap n1
        | ok bv =>
          obtain ⟨b, v⟩ := bv
          dsimp only at e
          split at e
          · cases e
          · cases e
            refine ⟨n1, fun w hw => ?_⟩
            rcases own_append hw with h | h
            · exact .inl (m1 w h)
            · obtain ⟨c, t⟩ := w
              rw [Val.owners, List.mem_append, opt_mem] at h
              rcases h with h | h
              · cases h.1; exact .inr (Nat.le_of_eq (f1 _ v rfl).1.symm)
              · exact .inl (m2 _ h)
  | array sz n k =>
    rw [step] at e
    cases ha : allocate g p.heap (wrap64 (n * sz)) with
    | mk h1 q =>
      rw [ha] at e
      obtain ⟨n1, _, f1⟩ := allocate_next ha
      cases q with
      | error x => cases e; exact back_heap n1
      | ok bv =>
        obtain ⟨b, v⟩ := bv
        cases e
        refine ⟨n1, fun w hw => ?_⟩
        rcases own_append hw with h | h
        · exact .inl h
        · obtain ⟨c, t⟩ := w
          rw [Val.owners, List.mem_append, opt_mem] at h
          rcases h with h | h
          · cases h.1; exact .inr (Nat.le_of_eq (f1 _ v rfl).1.symm)
          · obtain ⟨y, hy, hw⟩ := mem_ownersAll.mp h
            rw [(List.mem_replicate.mp hy).2, empty_owners] at hw
            cases hw
  | arrayOf sz is =>
    rw [step] at e
    cases hm : moveAll p.vars is with
    | none => rw [hm] at e; cases e; exact back_same p
    | some q =>
      obtain ⟨xs, vs⟩ := q
      rw [hm] at e
      obtain ⟨m1, m2⟩ := moveAll_own is _ _ _ hm
      dsimp only at e
      cases ha : allocate g p.heap (wrap64 (is.length * sz)) with
      | mk h1 q =>
        rw [ha] at e
        obtain ⟨n1, _, f1⟩ := allocate_next ha
        cases q with
        | error x => cases e; exact back_heap n1
        | ok bv =>
          obtain ⟨b, v⟩ := bv
          dsimp only at e
          split at e
          · cases e
          · cases e
            refine ⟨n1, fun w hw => ?_⟩
            rcases own_append hw with h | h
            · exact .inl (m1 w h)
            · obtain ⟨c, t⟩ := w
              rw [Val.owners, List.mem_append, opt_mem] at h
              rcases h with h | h
              · cases h.1; exact .inr (Nat.le_of_eq (f1 _ v rfl).1.symm)
              · exact .inl (m2 _ h)
  | dictionary ksz vsz n =>
    rw [step] at e
    cases ha : allocate g p.heap (wrap64 (n * ksz)) with
    | mk h1 q =>
      rw [ha] at e
      obtain ⟨n1, _, f1⟩ := allocate_next ha
      cases q with
      | error x => cases e; exact back_heap n1
      | ok bv =>
        obtain ⟨b, v⟩ := bv
        dsimp only at e
        cases ha2 : allocate g h1 (wrap64 (n * vsz)) with
        | mk h2 q =>
          rw [ha2] at e
          obtain ⟨n2, _, f2⟩ := allocate_next ha2
          cases q with
          | error x =>
            obtain ⟨h3, e3, e4⟩ := bind_some e
            cases e4
            have := freeOpt_next h2 (some b) h3 e3
            exact back_heap (by omega)
          | ok bw =>
            obtain ⟨c, u⟩ := bw
            cases e
            refine ⟨Nat.le_trans n1 n2, fun w hw => ?_⟩
            rcases own_append hw with h | h
            · exact .inl h
            · obtain ⟨d, t⟩ := w
              simp only [Val.owners, List.mem_append, opt_mem, ownersAll, List.not_mem_nil, or_false] at h
              rcases h with h | h
              · cases h.1; exact .inr (Nat.le_of_eq (f1 _ v rfl).1.symm)
              · cases h.1
                have := (f2 _ u rfl).1
                dsimp only
                exact .inr (by omega)
  | dictionaryOf i j =>
    rw [step] at e
    rcases ha : get p.vars i with _ | (_ | ⟨kb, kc, ks⟩ | _ | _) <;> rcases hb : get p.vars j with _ | (_ | ⟨vb, vc, vs⟩ | _ | _) <;>
      rw [ha, hb] at e <;> try (cases e; exact back_same p)
    dsimp only at e
    split at e
    · cases e; exact back_same p
    · cases e
      refine back_vars fun w hw => ?_
      rcases own_append hw with h | h
      · exact own_empty (own_empty h)
      · rw [Val.owners, List.mem_append] at h
        exact h.elim (own_get ha) (own_get hb)
  | push i j =>
    rw [step] at e
    rcases ha : get p.vars i with _ | (_ | ⟨b, c, es⟩ | _ | _) <;> rcases hb : get p.vars j with _ | x <;>
      rw [ha, hb] at e <;> try (cases e; exact back_same p)
    dsimp only at e
    split at e
    · cases e; exact back_same p
    · cases e
      refine back_vars fun w hw => ?_
      rcases own_set (own_left hw) with h | h
      · exact h
      · rw [Val.owners, List.mem_append, ownersAll_append, ownersAll_one] at h
        rcases h with h | h | h
        · exact own_get ha (by rw [Val.owners, List.mem_append]; exact .inl h)
        · exact own_get ha (by rw [Val.owners, List.mem_append]; exact .inr h)
        · exact own_get hb h
  | pop i =>
    rw [step] at e
    rcases ha : get p.vars i with _ | (_ | ⟨b, c, es⟩ | _ | _) <;> rw [ha] at e <;> try (cases e; exact back_same p)
    dsimp only at e
    cases hl : es.getLast? with
    | none => rw [hl] at e; cases e; exact back_same p
    | some x =>
      rw [hl] at e
      obtain ⟨h', e1, e2⟩ := bind_some e
      cases e2
      refine back_drop (drop_next _ _ _ e1) fun w hw => ?_
      rcases own_set hw with h | h
      · exact h
      · rw [Val.owners, List.mem_append] at h
        refine own_get ha ?_
        rw [Val.owners, List.mem_append]
        refine h.elim .inl fun h => .inr ?_
        obtain ⟨y, hy, hw⟩ := mem_ownersAll.mp h
        exact mem_ownersAll.mpr ⟨y, List.dropLast_subset _ hy, hw⟩
  | clear i =>
    rw [step] at e
    rcases ha : get p.vars i with _ | (_ | ⟨b, c, es⟩ | _ | _) <;> rw [ha] at e <;> try (cases e; exact back_same p)
    obtain ⟨h', e1, e2⟩ := bind_some e
    cases e2
    refine back_drop (dropAll_next _ _ _ e1) fun w hw => ?_
    rcases own_set hw with h | h
    · exact h
    · rw [Val.owners, List.mem_append] at h
      refine own_get ha ?_
      rw [Val.owners, List.mem_append]
      exact h.elim .inl fun h => by cases h
  | toArray i =>
    rw [step] at e
    rcases ha : get p.vars i with _ | (_ | ⟨b, c, es⟩ | _ | _) <;> rw [ha] at e <;> try (cases e; exact back_same p)
    cases e
    refine back_vars fun w hw => ?_
    rcases own_append hw with h | h
    · exact own_empty h
    · exact own_get ha h
  | put i j k =>
    rw [step] at e
    rcases ha : get p.vars i with _ | (_ | _ | _ | ⟨kb, kc, ks, vb, vc, vs⟩) <;> rcases hb : get p.vars j with _ | key <;>
      rw [ha, hb] at e <;> try (cases e; exact back_same p)
    dsimp only at e
    cases hx : get (p.vars.set j (some key.left)) k with
    | none => rw [hx] at e; cases e; exact back_same p
    | some x =>
      rw [hx] at e
      dsimp only at e
      split at e
      · cases e; exact back_same p
      split at e
      · obtain ⟨h', e1, e2⟩ := bind_some e
        cases e2
        exact back_drop (drop_next _ _ _ e1) fun w hw => own_left hw
      split at e
      · obtain ⟨h', e1, e2⟩ := bind_some e
        obtain ⟨h'', e3, e4⟩ := bind_some e2
        cases e4
        exact back_drop ((drop_next _ _ _ e3).trans (drop_next _ _ _ e1)) fun w hw => own_left (own_left hw)
      · cases e
        refine back_vars fun w hw => ?_
        rcases own_set hw with h | h
        · exact own_left (own_left h)
        · rcases dict_own (ks := ks) (vs := vs) h with h | h | h
          · exact own_get ha h
          · rw [ownersAll_append, ownersAll_one] at h
            exact h.elim (fun h => own_get ha (dict_keys h)) (own_get hb)
          · rw [ownersAll_append, ownersAll_one] at h
            exact h.elim (fun h => own_get ha (dict_values h)) fun h => own_left (own_get hx h)
  | take i k =>
    rw [step] at e
    cases ha : get p.vars i with
    | none => rw [ha] at e; cases e; exact back_same p
    | some v =>
      rw [ha] at e
      dsimp only at e
      cases hes : v.elems with
      | none => rw [hes] at e; cases e; exact back_same p
      | some es =>
        rw [hes] at e
        dsimp only at e
        cases hx : es[k]? with
        | none => rw [hx] at e; cases e; exact back_same p
        | some x =>
          rw [hx] at e
          cases e
          refine back_vars fun w hw => ?_
          rcases own_append hw with h | h
          · rcases own_set h with h | h
            · exact h
            · rcases withElems_own hes h with h | h
              · exact own_get ha h
              · rcases owners_set h with h | h
                · exact own_get ha (elems_own hes h)
                · rw [left_owners] at h; cases h
          · exact own_get ha (elems_own hes (element_own hx h))
  | store i k j =>
    rw [step] at e
    rcases ha : get p.vars i with _ | v <;> rcases hb : get p.vars j with _ | y <;> rw [ha, hb] at e <;> try (cases e; exact back_same p)
    dsimp only at e
    cases hes : v.elems with
    | none => rw [hes] at e; cases e; exact back_same p
    | some es =>
      rw [hes] at e
      dsimp only at e
      cases hx : es[k]? with
      | none => rw [hx] at e; cases e; exact back_same p
      | some x =>
        rw [hx] at e
        dsimp only at e
        split at e
        · cases e; exact back_same p
        · cases e
          refine back_vars fun w hw => ?_
          rcases own_set hw with h | h
          · rcases own_set h with h | h
            · exact h
            · rcases withElems_own hes h with h | h
              · exact own_get ha h
              · rcases owners_set h with h | h
                · exact own_get ha (elems_own hes h)
                · exact own_get hb h
          · exact own_get ha (elems_own hes (element_own hx h))
  | fetch i key =>
    rw [step] at e
    rcases ha : get p.vars i with _ | (_ | _ | _ | ⟨kb, kc, ks, vb, vc, vs⟩) <;> rw [ha] at e <;> try (cases e; exact back_same p)
    dsimp only at e
    cases hp : position key ks with
    | none => rw [hp] at e; cases e; exact back_same p
    | some n =>
      rw [hp] at e
      dsimp only at e
      cases hx : vs[n]? with
      | none => rw [hx] at e; cases e
      | some x =>
        rw [hx] at e
        cases e
        refine back_vars fun w hw => ?_
        rcases own_append hw with h | h
        · rcases own_set h with h | h
          · exact h
          · rcases dict_own (ks := ks) (vs := vs) h with h | h | h
            · exact own_get ha h
            · exact own_get ha (dict_keys h)
            · rcases owners_set h with h | h
              · exact own_get ha (dict_values h)
              · rw [left_owners] at h; cases h
        · exact own_get ha (dict_values (element_own hx h))
  | change i key j =>
    rw [step] at e
    rcases ha : get p.vars i with _ | (_ | _ | _ | ⟨kb, kc, ks, vb, vc, vs⟩) <;> rcases hb : get p.vars j with _ | y <;>
      rw [ha, hb] at e <;> try (cases e; exact back_same p)
    dsimp only at e
    cases hp : position key ks with
    | none => rw [hp] at e; cases e; exact back_same p
    | some n =>
      rw [hp] at e
      dsimp only at e
      cases hx : vs[n]? with
      | none => rw [hx] at e; cases e
      | some x =>
        rw [hx] at e
        dsimp only at e
        split at e
        · cases e; exact back_same p
        · cases e
          refine back_vars fun w hw => ?_
          rcases own_set hw with h | h
          · rcases own_set h with h | h
            · exact h
            · rcases dict_own (ks := ks) (vs := vs) h with h | h | h
              · exact own_get ha h
              · exact own_get ha (dict_keys h)
              · rcases owners_set h with h | h
                · exact own_get ha (dict_values h)
                · exact own_get hb h
          · exact own_get ha (dict_values (element_own hx h))
  | moveCtor i =>
    rw [step] at e
    cases ha : get p.vars i with
    | none => rw [ha] at e; cases e; exact back_same p
    | some v =>
      rw [ha] at e
      cases e
      refine back_vars fun w hw => ?_
      rcases own_append hw with h | h
      · exact own_left h
      · exact own_get ha h
  | assign i j =>
    rw [step] at e
    rcases ha : get p.vars i with _ | a <;> rcases hb : get p.vars j with _ | b <;> rw [ha, hb] at e <;> try (cases e; exact back_same p)
    dsimp only at e
    split at e
    · cases e; exact back_same p
    · cases e
      refine back_vars fun w hw => ?_
      rcases own_set hw with h | h
      · exact (own_set h).elim id (own_get hb)
      · exact own_get ha h
  | swap i j =>
    rw [step] at e
    rcases ha : get p.vars i with _ | a <;> rcases hb : get p.vars j with _ | b <;> rw [ha, hb] at e <;> try (cases e; exact back_same p)
    dsimp only at e
    split at e
    · cases e; exact back_same p
    · cases e
      refine back_vars fun w hw => ?_
      rcases own_set hw with h | h
      · exact (own_set h).elim id (own_get hb)
      · exact own_get ha h
  | null i =>
    rw [step] at e
    rcases ha : get p.vars i with _ | (_ | ⟨b, c, es⟩ | ⟨b, es⟩ | _) <;> rw [ha] at e <;> try (cases e; exact back_same p)
    · obtain ⟨h', e1, e2⟩ := bind_some e
      cases e2
      refine back_drop (dropAll_next _ _ _ e1) fun w hw => ?_
      rcases own_set hw with h | h
      · exact h
      · rw [Val.owners, List.mem_append] at h
        refine own_get ha ?_
        rw [Val.owners, List.mem_append]
        exact h.elim .inl fun h => by cases h
    · obtain ⟨h', e1, e2⟩ := bind_some e
      cases e2
      exact back_drop (dropAll_next _ _ _ e1) fun w hw => hw
  | destroy i =>
    rw [step] at e
    cases ha : get p.vars i with
    | none => rw [ha] at e; cases e; exact back_same p
    | some v =>
      rw [ha] at e
      obtain ⟨h', e1, e2⟩ := bind_some e
      cases e2
      exact back_drop (drop_next _ _ _ e1) fun w hw => own_clear hw

theorem live_iff {p : Prog} (hi : Inv p) (b : Nat) : b ∈ p.heap.live ↔ b ∈ allBlocks p.vars := by
  rw [← List.count_pos_iff, ← List.count_pos_iff, hi.count b]

theorem blocks_nodup {p : Prog} (hi : Inv p) : (allBlocks p.vars).Nodup :=
  List.nodup_iff_count.mpr fun b => by rw [← hi.count b]; exact List.nodup_iff_count.mp hi.nodup b

theorem allBlocks_owners (vs : Vars) : allBlocks vs = (vs.flatMap fun o => (o.map Val.owners).getD []).map Prod.fst := by
  induction vs with
  | nil => rfl
  | cons o vs ih =>
    rw [allBlocks] at ih ⊢
    rw [List.flatMap_cons, List.flatMap_cons, List.map_append, ih]
    cases o with
    | none => rfl
    | some v => simp [owners_fst]

theorem pair_unique {β : Type} (l : List (Nat × β)) : (l.map Prod.fst).Nodup → ∀ b x y, (b, x) ∈ l → (b, y) ∈ l → x = y := by
  induction l with
  | nil => intro _ _ _ _ h; cases h
  | cons a l ih =>
    intro hn b x y hx hy
    rw [List.map_cons, List.nodup_cons] at hn
    rcases List.mem_cons.mp hx with h | h <;> rcases List.mem_cons.mp hy with h' | h'
    · rw [← h] at h'; cases h'; rfl
    · exact (hn.1 (List.mem_map.mpr ⟨_, h', by rw [← h]⟩)).elim
    · exact (hn.1 (List.mem_map.mpr ⟨_, h, by rw [← h']⟩)).elim
    · exact ih hn.2 b x y h h'

/-- A block is used for one thing. -/
theorem own_unique {p : Prog} (hi : Inv p) {b : Nat} {x y : Option (List Byte)} (hx : Own p.vars (b, x)) (hy : Own p.vars (b, y)) : x = y := by
  have hn := blocks_nodup hi
  rw [allBlocks_owners] at hn
  have mem : ∀ z, Own p.vars (b, z) → (b, z) ∈ p.vars.flatMap fun o => (o.map Val.owners).getD [] := by
    rintro z ⟨v, hv, hm⟩
    exact List.mem_flatMap.mpr ⟨some v, hv, hm⟩
  exact pair_unique _ hn b x y (mem x hx) (mem y hy)

theorem shows_iff {vs : Vars} {b : Nat} {t : List Byte} : Shows vs b t ↔ Own vs (b, some t) := by
  simp only [Shows, Own, strings_iff]

theorem holds_iff {vs : Vars} {b : Nat} : (∃ es, Holds vs b es) ↔ Own vs (b, none) := by
  constructor
  · rintro ⟨es, v, hv, hm⟩
    exact ⟨v, hv, (arrays_iff b v).mp ⟨es, hm⟩⟩
  · rintro ⟨v, hv, hm⟩
    obtain ⟨es, h⟩ := (arrays_iff b v).mpr hm
    exact ⟨es, v, hv, h⟩

theorem own_lt {p : Prog} (hi : Inv p) {b : Nat} {x : Option (List Byte)} (h : Own p.vars (b, x)) : b < p.heap.next :=
  hi.fresh b ((live_iff hi b).mpr (own_blocks.mpr ⟨x, h⟩))

/-- What a block is used for does not change while it is out. -/
theorem own_kept {p q : Prog} (hi : Inv p) (hq : Inv q) (hb : Back p q) {b : Nat} {x : Option (List Byte)} (h : Own p.vars (b, x)) :
    b ∈ q.heap.live ↔ Own q.vars (b, x) := by
  rw [live_iff hq, own_blocks]
  refine ⟨fun ⟨y, hy⟩ => ?_, fun h => ⟨x, h⟩⟩
  rcases hb.2 _ hy with h' | h'
  · rw [own_unique hi h h']; exact hy
  · exact absurd (own_lt hi h) (Nat.not_lt.mpr h')

theorem back_trans {p q r : Prog} (h1 : Back p q) (h2 : Back q r) : Back p r :=
  ⟨Nat.le_trans h1.1 h2.1, fun w hw => (h2.2 w hw).elim (h1.2 w) fun h => .inr (Nat.le_trans h1.1 h)⟩

/-- No statement of the program assigns `nullptr` to an array whose elements own memory (see `C132_array_null`). -/
def NoDoubled (g : Policy) (p : Prog) (ops : List Op) : Prop :=
  ∀ before o after p', ops = before ++ o :: after → run g p before = .ok p' → ¬ Doubled p'.vars o

theorem run_back {g : Policy} (ops : List Op) : ∀ {p q : Prog}, Inv p → NoDoubled g p ops → run g p ops = .ok q → Inv q ∧ Back p q := by
  induction ops with
  | nil => intro p q hi _ e; cases e; exact ⟨hi, back_same p⟩
  | cons o os ih =>
    intro p q hi hd e
    rw [run] at e
    obtain ⟨r, e1, e2⟩ := bind_some e
    have hr : Inv r.1 := by
      rcases step_good g p o hi with ⟨r', e', hg, _⟩ | ⟨e', _⟩
      · rw [e1] at e'; cases e'
        exact hg.1 (hd [] o os p rfl rfl)
      · rw [e1] at e'; cases e'
    obtain ⟨h1, h2⟩ := ih hr (fun before o' after p' h1 h2 => hd (o :: before) o' after p' (by rw [h1]; rfl)
      (by rw [run, e1, Outcome.bind_ok, h2])) e2
    exact ⟨h1, back_trans (step_back e1) h2⟩

/-- **C133**, views of strings, every program: if somewhere in the variables is a string, then after any statements, moves into and out of
containers and of whole containers among them, its characters are where they were, in a string somewhere in the variables, unless their block was given
back; and no block that was given back is used again. -/
theorem C133_views_partial (g : Policy) (p q : Prog) (ops : List Op) (hi : Inv p) (hd : NoDoubled g p ops) (e : run g p ops = .ok q) (b : Nat)
    (t : List Byte) (h : Shows p.vars b t) : b ∈ q.heap.live ↔ Shows q.vars b t := by
  obtain ⟨hq, hb⟩ := run_back ops hi hd e
  rw [shows_iff] at h ⊢
  exact own_kept hi hq hb h

/-- **C133**, references to elements, every program: as long as the block of the elements of a container is out it holds the elements of one. -/
theorem C133_blocks_partial (g : Policy) (p q : Prog) (ops : List Op) (hi : Inv p) (hd : NoDoubled g p ops) (e : run g p ops = .ok q) (b : Nat)
    (es : List Val) (h : Holds p.vars b es) : b ∈ q.heap.live ↔ ∃ es', Holds q.vars b es' := by
  obtain ⟨hq, hb⟩ := run_back ops hi hd e
  rw [holds_iff]
  exact own_kept hi hq hb (holds_iff.mp ⟨es, h⟩)

theorem step_live {g : Policy} {p : Prog} {o : Op} {r : Prog × Bool} (hi : Inv p) (hn : o.destroys = false)
    (hput : ∀ i j k, o = .put i j k → r.2 = true) (e : step g p o = .ok r) : ∀ b, b ∈ p.heap.live → b ∈ r.1.heap.live := by
  intro b hb
  cases o with
  | pop i => cases hn
  | clear i => cases hn
  | null i => cases hn
  | destroy i => cases hn
  | string s =>
    rw [step] at e
    obtain ⟨⟨h', q⟩, e1, e2⟩ := bind_some e
    have := (newStr_next e1).2.1 b hb (hi.fresh b hb)
    cases q <;> cases e2 <;> exact this
  | fresh k => cases e; exact hb
  | vector sz n =>
    rw [step] at e
    cases ha : allocate g p.heap (wrap64 (n * sz)) with
    | mk h1 q =>
      rw [ha] at e
      have := (allocate_next ha).2.1 b hb
      cases q <;> cases e <;> exact this
  | vectorOf sz is =>
    rw [step] at e
    cases hm : moveAll p.vars is with
    | none => rw [hm] at e; cases e; exact hb
    | some q =>
      rw [hm] at e
      dsimp only at e
      cases ha : allocate g p.heap (wrap64 (is.length * sz)) with
      | mk h1 q =>
        rw [ha] at e
        have := (allocate_next ha).2.1 b hb
        cases q with
        | error x => cases e; exact this
        | ok bv =>
          dsimp only at e
          split at e <;> cases e
          exact this
  | array sz n k =>
    rw [step] at e
    cases ha : allocate g p.heap (wrap64 (n * sz)) with
    | mk h1 q =>
      rw [ha] at e
      have := (allocate_next ha).2.1 b hb
      cases q <;> cases e <;> exact this
  | arrayOf sz is =>
    rw [step] at e
    cases hm : moveAll p.vars is with
    | none => rw [hm] at e; cases e; exact hb
    | some q =>
      rw [hm] at e
      dsimp only at e
      cases ha : allocate g p.heap (wrap64 (is.length * sz)) with
      | mk h1 q =>
        rw [ha] at e
        have := (allocate_next ha).2.1 b hb
        cases q with
        | error x => cases e; exact this
        | ok bv =>
          dsimp only at e
          split at e <;> cases e
          exact this
  | dictionary ksz vsz n =>
    rw [step] at e
    cases ha : allocate g p.heap (wrap64 (n * ksz)) with
    | mk h1 q =>
      rw [ha] at e
      obtain ⟨_, l1, f1⟩ := allocate_next ha
      cases q with
      | error x => cases e; exact l1 b hb
      | ok bv =>
        obtain ⟨kb, v⟩ := bv
        obtain ⟨rfl, _⟩ := f1 _ v rfl
        dsimp only at e
        cases ha2 : allocate g h1 (wrap64 (n * vsz)) with
        | mk h2 q =>
          rw [ha2] at e
          have l2 := (allocate_next ha2).2.1 b (l1 b hb)
          cases q with
          | error x =>
            obtain ⟨h3, e3, e4⟩ := bind_some e
            cases e4
            rw [free] at e3
            split at e3 <;> cases e3
            exact (List.mem_erase_of_ne (Nat.ne_of_lt (hi.fresh b hb))).mpr l2
          | ok bw => cases e; exact l2
  | dictionaryOf i j =>
    rw [step] at e
    rcases ha : get p.vars i with _ | (_ | ⟨kb, kc, ks⟩ | _ | _) <;> rcases hb' : get p.vars j with _ | (_ | ⟨vb, vc, vs⟩ | _ | _) <;>
      rw [ha, hb'] at e <;> try (cases e; exact hb)
    dsimp only at e
    split at e <;> cases e <;> exact hb
  | push i j =>
    rw [step] at e
    rcases ha : get p.vars i with _ | (_ | ⟨b, c, es⟩ | _ | _) <;> rcases hb' : get p.vars j with _ | x <;>
      rw [ha, hb'] at e <;> try (cases e; exact hb)
    dsimp only at e
    split at e <;> cases e <;> exact hb
  | toArray i =>
    rw [step] at e
    rcases ha : get p.vars i with _ | (_ | ⟨b, c, es⟩ | _ | _) <;> rw [ha] at e <;> cases e <;> exact hb
  | put i j k =>
    have ht := hput i j k rfl
    rw [step] at e
    rcases ha : get p.vars i with _ | (_ | _ | _ | ⟨kb, kc, ks, vb, vc, vs⟩) <;> rcases hb' : get p.vars j with _ | key <;>
      rw [ha, hb'] at e <;> try (cases e; exact hb)
    dsimp only at e
    cases hx : get (p.vars.set j (some key.left)) k with
    | none => rw [hx] at e; cases e; exact hb
    | some x =>
      rw [hx] at e
      dsimp only at e
      split at e
      · cases e; exact hb
      split at e
      · obtain ⟨h', e1, e2⟩ := bind_some e
        cases e2; cases ht
      split at e
      · obtain ⟨h', e1, e2⟩ := bind_some e
        obtain ⟨h'', e3, e4⟩ := bind_some e2
        cases e4; cases ht
      · cases e; exact hb
  | take i k =>
    rw [step] at e
    split at e
    · cases e; exact hb
    split at e
    · cases e; exact hb
    split at e <;> cases e <;> exact hb
  | store i k j =>
    rw [step] at e
    split at e
    · split at e
      · cases e; exact hb
      split at e
      · cases e; exact hb
      split at e <;> cases e <;> exact hb
    · cases e; exact hb
  | fetch i key =>
    rw [step] at e
    split at e
    · split at e
      · cases e; exact hb
      split at e <;> cases e
      exact hb
    · cases e; exact hb
  | change i key j =>
    rw [step] at e
    split at e
    · split at e
      · cases e; exact hb
      split at e
      · cases e
      split at e <;> cases e <;> exact hb
    · cases e; exact hb
  | moveCtor i =>
    rw [step] at e
    split at e <;> cases e <;> exact hb
  | assign i j =>
    rw [step] at e
    split at e
    · split at e <;> cases e <;> exact hb
    · cases e; exact hb
  | swap i j =>
    rw [step] at e
    split at e
    · split at e <;> cases e <;> exact hb
    · cases e; exact hb

/-- **C133**: no statement but `pop_back`, `clear`, the assignment of `nullptr`, a destructor and a `put` that fails makes a view of a string
invalid, not even one that moves the string, or the container it is in, into another object. -/
theorem C133_moves_keep (g : Policy) (p : Prog) (hi : Inv p) (o : Op) (hn : o.destroys = false) (r : Prog × Bool) (e : step g p o = .ok r)
    (hput : ∀ i j k, o = .put i j k → r.2 = true) (b : Nat) (t : List Byte) (h : Shows p.vars b t) : Shows r.1.vars b t := by
  have hr : Inv r.1 := by
    rcases step_good g p o hi with ⟨r', e', hg, _⟩ | ⟨e', _⟩
    · rw [e] at e'; cases e'
      exact hg.1 (fun hd => by cases o <;> first | exact hd | cases hn)
    · rw [e] at e'; cases e'
  rw [shows_iff] at h ⊢
  exact (own_kept hi hr (step_back e) h).mp (step_live hi hn hput e b ((live_iff hi b).mpr (own_blocks.mpr ⟨_, h⟩)))

/-- All elements are where they were, perhaps with more behind them. -/
def Grown (vs ws : Vars) : Prop := ∀ b es, Holds vs b es → ∃ es', es <+: es' ∧ Holds ws b es'

theorem grown_of {vs ws : Vars} (h : ∀ b es, Holds vs b es → Holds ws b es) : Grown vs ws :=
  fun b es hh => ⟨es, List.prefix_refl _, h b es hh⟩

theorem grown_refl (vs : Vars) : Grown vs vs := grown_of fun _ _ h => h

theorem vec_elems {b : Option Nat} {c : Nat} {es : List Val} {w : Nat × List Val} (h : w ∈ arraysAll es) : w ∈ (Val.vec b c es).arrays := by
  rw [Val.arrays, List.mem_append]; exact .inr h

theorem arr_elems {b : Option Nat} {es : List Val} {w : Nat × List Val} (h : w ∈ arraysAll es) : w ∈ (Val.arr b es).arrays := by
  rw [Val.arrays, List.mem_append]; exact .inr h

theorem arraysAll_append {as bs : List Val} {w : Nat × List Val} : w ∈ arraysAll (as ++ bs) ↔ w ∈ arraysAll as ∨ w ∈ arraysAll bs := by
  simp only [mem_arraysAll, List.mem_append, or_and_right, exists_or]

theorem arraysAll_one {x : Val} {w : Nat × List Val} : w ∈ arraysAll [x] ↔ w ∈ x.arrays := by simp [mem_arraysAll]

theorem exchange_holds {vs : Vars} {i j : Nat} {a c : Val} (ha : get vs i = some a) (hc : get vs j = some c) {b : Nat} {es : List Val}
    (h : Holds vs b es) : Holds ((vs.set i (some c)).set j (some a)) b es := by
  have hg : get (vs.set i (some c)) j = some c := by
    rw [get_set _ _ _ _ _ ha]; split
    · rfl
    · exact hc
  rcases holds_set (y := some c) ha h with h | h
  · rcases holds_set (y := some a) hg h with h | h
    · exact h
    · by_cases hij : i = j
      · subst hij
        rw [ha] at hc; cases hc
        exact holds_new hg h
      · rw [List.set_comm _ _ hij]
        exact holds_new (v := a) (by rw [get_set _ _ _ _ _ hc, if_neg (Ne.symm hij), ha]) h
  · exact holds_new hg h

theorem step_grown {g : Policy} {p : Prog} {o : Op} {r : Prog × Bool} (hn : o.destroys = false) (hx : o.exchanges = false)
    (hput : ∀ i j k, o = .put i j k → r.2 = true) (e : step g p o = .ok r) : Grown p.vars r.1.vars := by
  cases o with
  | pop i => cases hn
  | clear i => cases hn
  | null i => cases hn
  | destroy i => cases hn
  | take i k => cases hx
  | store i k j => cases hx
  | fetch i key => cases hx
  | change i key j => cases hx
  | string s =>
    rw [step] at e
    obtain ⟨⟨h', q⟩, e1, e2⟩ := bind_some e
    cases q <;> cases e2
    · exact grown_refl _
    · exact grown_of fun _ _ => holds_left
  | fresh k => cases e; exact grown_of fun _ _ => holds_left
  | vector sz n =>
    rw [step] at e
    split at e <;> cases e
    · exact grown_refl _
    · exact grown_of fun _ _ => holds_left
  | vectorOf sz is =>
    rw [step] at e
    cases hm : moveAll p.vars is with
    | none => rw [hm] at e; cases e; exact grown_refl _
    | some q =>
      obtain ⟨xs, vs⟩ := q
      rw [hm] at e
      dsimp only at e
      split at e
      · cases e; exact grown_refl _
      split at e <;> cases e
      refine grown_of fun b es h => ?_
      rcases moveAll_holds is _ _ _ hm b es h with h | h
      · exact holds_left h
      · exact holds_last (vec_elems h)
  | array sz n k =>
    rw [step] at e
    split at e <;> cases e
    · exact grown_refl _
    · exact grown_of fun _ _ => holds_left
  | arrayOf sz is =>
    rw [step] at e
    cases hm : moveAll p.vars is with
    | none => rw [hm] at e; cases e; exact grown_refl _
    | some q =>
      obtain ⟨xs, vs⟩ := q
      rw [hm] at e
      dsimp only at e
      split at e
      · cases e; exact grown_refl _
      split at e <;> cases e
      refine grown_of fun b es h => ?_
      rcases moveAll_holds is _ _ _ hm b es h with h | h
      · exact holds_left h
      · exact holds_last (arr_elems h)
  | dictionary ksz vsz n =>
    rw [step] at e
    split at e
    · cases e; exact grown_refl _
    split at e
    · obtain ⟨h3, e3, e4⟩ := bind_some e
      cases e4; exact grown_refl _
    · cases e; exact grown_of fun _ _ => holds_left
  | dictionaryOf i j =>
    rw [step] at e
    rcases ha : get p.vars i with _ | (_ | ⟨kb, kc, ks⟩ | _ | _) <;> rcases hb : get p.vars j with _ | (_ | ⟨vb, vc, vs⟩ | _ | _) <;>
      rw [ha, hb] at e <;> try (cases e; exact grown_refl _)
    dsimp only at e
    split at e
    · cases e; exact grown_refl _
    · rename_i hij
      cases e
      refine grown_of fun b es h => ?_
      rcases holds_set (y := some (Kind.empty .vec)) ha h with h | h
      · rcases holds_set (y := some (Kind.empty .vec)) (v := .vec vb vc vs) (i := j) (by rw [get_set _ _ _ _ _ ha, if_neg hij, hb]) h with h | h
        · exact holds_left h
        · refine holds_last ?_
          rw [Val.arrays, List.mem_append]; exact .inr h
      · refine holds_last ?_
        rw [Val.arrays, List.mem_append]; exact .inl h
  | push i j =>
    rw [step] at e
    rcases ha : get p.vars i with _ | (_ | ⟨c, m, xs⟩ | _ | _) <;> rcases hb : get p.vars j with _ | x <;>
      rw [ha, hb] at e <;> try (cases e; exact grown_refl _)
    dsimp only at e
    split at e
    · cases e; exact grown_refl _
    · rename_i hc
      have hij : i ≠ j := fun e => hc (.inl e)
      cases e
      have hgj : get (p.vars.set i (some (.vec c m (xs ++ [x])))) j = some x := by rw [get_set _ _ _ _ _ ha, if_neg hij, hb]
      have hgi : ∀ y : Val, get ((p.vars.set i (some (.vec c m (xs ++ [x])))).set j (some y)) i = some (.vec c m (xs ++ [x])) := fun y => by
        rw [get_set _ _ _ _ _ hgj, if_neg (Ne.symm hij), get_set _ _ _ _ _ ha, if_pos rfl]
      intro b es h
      rcases holds_set (y := some (.vec c m (xs ++ [x]))) ha h with h | h
      · rcases holds_set (y := some x.left) hgj h with h | h
        · exact ⟨es, List.prefix_refl _, h⟩
        · exact ⟨es, List.prefix_refl _, holds_get (hgi _) (vec_elems (arraysAll_append.mpr (.inr (arraysAll_one.mpr h))))⟩
      · rw [Val.arrays, List.mem_append, opt_mem] at h
        rcases h with ⟨rfl, rfl⟩ | h
        · refine ⟨es ++ [x], List.prefix_append _ _, holds_get (hgi _) ?_⟩
          rw [Val.arrays, List.mem_append, opt_mem]; exact .inl ⟨rfl, rfl⟩
        · exact ⟨es, List.prefix_refl _, holds_get (hgi _) (vec_elems (arraysAll_append.mpr (.inl h)))⟩
  | toArray i =>
    rw [step] at e
    rcases ha : get p.vars i with _ | (_ | ⟨c, m, xs⟩ | _ | _) <;> rw [ha] at e <;> try (cases e; exact grown_refl _)
    cases e
    refine grown_of fun b es h => ?_
    rcases holds_set (y := some (Kind.empty .vec)) ha h with h | h
    · exact holds_left h
    · exact holds_last h
  | put i j k =>
    have ht := hput i j k rfl
    rw [step] at e
    rcases ha : get p.vars i with _ | (_ | _ | _ | ⟨kb, kc, ks, vb, vc, vs⟩) <;> rcases hb : get p.vars j with _ | key <;>
      rw [ha, hb] at e <;> try (cases e; cases ht)
    dsimp only at e
    cases hx : get (p.vars.set j (some key.left)) k with
    | none => rw [hx] at e; cases e; cases ht
    | some x =>
      rw [hx] at e
      dsimp only at e
      split at e
      · cases e; cases ht
      rename_i hij
      split at e
      · obtain ⟨h', e1, e2⟩ := bind_some e
        cases e2; cases ht
      split at e
      · obtain ⟨h', e1, e2⟩ := bind_some e
        obtain ⟨h'', e3, e4⟩ := bind_some e2
        cases e4; cases ht
      · cases e
        have hg : get ((p.vars.set j (some key.left)).set k (some x.left)) i = some (.dict kb kc ks vb vc vs) := by
          rw [get_set _ _ _ _ _ hx, if_neg (fun e => hij (.inr e.symm)), get_set _ _ _ _ _ hb, if_neg (fun e => hij (.inl e.symm)), ha]
        intro b es h
        have fin : ∀ es', (b, es') ∈ (Val.dict kb kc (ks ++ [key]) vb vc (vs ++ [x])).arrays → es <+: es' →
            ∃ es', es <+: es' ∧ Holds (((p.vars.set j (some key.left)).set k (some x.left)).set i
              (some (.dict kb kc (ks ++ [key]) vb vc (vs ++ [x])))) b es' := fun es' h1 h2 => ⟨es', h2, holds_new hg h1⟩
        rcases holds_set (y := some key.left) hb h with h | h
        · rcases holds_set (y := some x.left) hx h with h | h
          · rcases holds_set (y := some (.dict kb kc (ks ++ [key]) vb vc (vs ++ [x]))) hg h with h | h
            · exact ⟨es, List.prefix_refl _, h⟩
            · simp only [Val.arrays, List.mem_append, opt_mem] at h
              rcases h with (⟨rfl, rfl⟩ | h) | (⟨rfl, rfl⟩ | h)
              · refine fin (es ++ [key]) ?_ (List.prefix_append _ _)
                simp only [Val.arrays, List.mem_append, opt_mem]; exact .inl (.inl (by simp))
              · refine fin es ?_ (List.prefix_refl _)
                simp only [Val.arrays, List.mem_append, arraysAll_append]; exact .inl (.inr (.inl h))
              · refine fin (es ++ [x]) ?_ (List.prefix_append _ _)
                simp only [Val.arrays, List.mem_append, opt_mem]; exact .inr (.inl (by simp))
              · refine fin es ?_ (List.prefix_refl _)
                simp only [Val.arrays, List.mem_append, arraysAll_append]; exact .inr (.inr (.inl h))
          · refine fin es ?_ (List.prefix_refl _)
            simp only [Val.arrays, List.mem_append, arraysAll_append, arraysAll_one]; exact .inr (.inr (.inr h))
        · refine fin es ?_ (List.prefix_refl _)
          simp only [Val.arrays, List.mem_append, arraysAll_append, arraysAll_one]; exact .inl (.inr (.inr h))
  | moveCtor i =>
    rw [step] at e
    cases ha : get p.vars i with
    | none => rw [ha] at e; cases e; exact grown_refl _
    | some v =>
      rw [ha] at e
      cases e
      refine grown_of fun b es h => ?_
      rcases holds_set (y := some v.left) ha h with h | h
      · exact holds_left h
      · exact holds_last h
  | assign i j =>
    rw [step] at e
    rcases ha : get p.vars i with _ | a <;> rcases hb : get p.vars j with _ | c <;> rw [ha, hb] at e <;> try (cases e; exact grown_refl _)
    dsimp only at e
    split at e <;> cases e
    · exact grown_refl _
    · exact grown_of fun b es h => exchange_holds ha hb h
  | swap i j =>
    rw [step] at e
    rcases ha : get p.vars i with _ | a <;> rcases hb : get p.vars j with _ | c <;> rw [ha, hb] at e <;> try (cases e; exact grown_refl _)
    dsimp only at e
    split at e <;> cases e
    · exact grown_refl _
    · exact grown_of fun b es h => exchange_holds ha hb h

/-- **C133**, references to elements: statements that destroy and exchange nothing leave every element of every container where it is; the only
change is that `emplace_back` and `put` add elements behind it. -/
theorem C133_elements_stay (g : Policy) (p : Prog) (o : Op) (hn : o.destroys = false) (hx : o.exchanges = false) (r : Prog × Bool)
    (e : step g p o = .ok r) (hput : ∀ i j k, o = .put i j k → r.2 = true) (b : Nat) (es : List Val) (h : Holds p.vars b es) :
    ∃ es', es <+: es' ∧ Holds r.1.vars b es' := step_grown hn hx hput e b es h

theorem arraysAll_set {es : List Val} {k : Nat} {x y : Val} {w : Nat × List Val} (hx : es[k]? = some x) (h : w ∈ arraysAll es) :
    w ∈ arraysAll (es.set k y) ∨ w ∈ x.arrays := by
  obtain ⟨v, hv, hw⟩ := mem_arraysAll.mp h
  obtain ⟨n, hn⟩ := List.mem_iff_getElem?.mp hv
  by_cases hk : k = n
  · subst hk
    rw [hx] at hn; cases hn
    exact .inr hw
  · exact .inl (mem_arraysAll.mpr ⟨v, List.mem_iff_getElem?.mpr ⟨n, by rw [List.getElem?_set_ne hk, hn]⟩, hw⟩)

theorem arraysAll_new {es : List Val} {k : Nat} {x y : Val} {w : Nat × List Val} (hx : es[k]? = some x) (h : w ∈ y.arrays) :
    w ∈ arraysAll (es.set k y) := by
  refine mem_arraysAll.mpr ⟨y, List.mem_iff_getElem?.mpr ⟨k, ?_⟩, h⟩
  rw [List.getElem?_set_self]
  exact (List.getElem?_eq_some_iff.mp hx).1

theorem withElems_arrays {v : Val} {es : List Val} (h : v.elems = some es) {b : Nat} {xs : List Val} (hm : (b, xs) ∈ v.arrays) :
    (xs = es ∧ ∀ es', (b, es') ∈ (v.withElems es').arrays) ∨ (b, xs) ∈ arraysAll es := by
  cases v with
  | str _ => cases h
  | dict _ _ _ _ _ _ => cases h
  | vec c m ys =>
    cases h
    rw [Val.arrays, List.mem_append, opt_mem] at hm
    rcases hm with ⟨rfl, rfl⟩ | hm
    · exact .inl ⟨rfl, fun es' => by rw [Val.withElems, Val.arrays, List.mem_append, opt_mem]; exact .inl ⟨rfl, rfl⟩⟩
    · exact .inr hm
  | arr c ys =>
    cases h
    rw [Val.arrays, List.mem_append, opt_mem] at hm
    rcases hm with ⟨rfl, rfl⟩ | hm
    · exact .inl ⟨rfl, fun es' => by rw [Val.withElems, Val.arrays, List.mem_append, opt_mem]; exact .inl ⟨rfl, rfl⟩⟩
    · exact .inr hm

theorem withElems_in {v : Val} {es es' : List Val} (h : v.elems = some es) {w : Nat × List Val} (hm : w ∈ arraysAll es') :
    w ∈ (v.withElems es').arrays := by
  cases v with
  | str _ => cases h
  | dict _ _ _ _ _ _ => cases h
  | vec c m ys => exact vec_elems hm
  | arr c ys => exact arr_elems hm

theorem dict_arrays {kb vb : Option Nat} {kc vc : Nat} {ks vs : List Val} {b : Nat} {xs : List Val}
    (hm : (b, xs) ∈ (Val.dict kb kc ks vb vc vs).arrays) :
    (∀ vs', (b, xs) ∈ (Val.dict kb kc ks vb vc vs').arrays) ∨ (xs = vs ∧ ∀ vs', (b, vs') ∈ (Val.dict kb kc ks vb vc vs').arrays) ∨
      (b, xs) ∈ arraysAll vs := by
  simp only [Val.arrays, List.mem_append, opt_mem] at hm ⊢
  rcases hm with (h | h) | (h | h)
  · exact .inl fun _ => .inl (.inl h)
  · exact .inl fun _ => .inl (.inr h)
  · exact .inr (.inl ⟨h.2, fun vs' => .inr (.inl ⟨h.1, trivial⟩)⟩)
  · exact .inr (.inr h)

theorem dict_in {kb vb : Option Nat} {kc vc : Nat} {ks vs : List Val} {w : Nat × List Val} (hm : w ∈ arraysAll vs) :
    w ∈ (Val.dict kb kc ks vb vc vs).arrays := by
  simp only [Val.arrays, List.mem_append]; exact .inr (.inr hm)

/-- The same elements but for at most one. -/
def OneOther (es es' : List Val) : Prop := es'.length = es.length ∧ ∃ k : Nat, ∀ n : Nat, n ≠ k → es'[n]? = es[n]?

theorem oneOther_refl (es : List Val) : OneOther es es := ⟨rfl, 0, fun _ _ => rfl⟩

theorem oneOther_set (es : List Val) (k : Nat) (y : Val) : OneOther es (es.set k y) :=
  ⟨List.length_set, k, fun _ hn => List.getElem?_set_ne (Ne.symm hn)⟩

/-- **C133**, references to elements: moving an element out of a container, or assigning to it, leaves all other elements of all containers where they
are, and so are the elements of the object that was moved. -/
theorem C133_others_stay (g : Policy) (p : Prog) (o : Op) (hx : o.exchanges = true) (r : Prog × Bool) (e : step g p o = .ok r) (b : Nat)
    (es : List Val) (h : Holds p.vars b es) : ∃ es', OneOther es es' ∧ Holds r.1.vars b es' := by
  have same : ∃ es', OneOther es es' ∧ Holds p.vars b es' := ⟨es, oneOther_refl es, h⟩
  cases o with
  | take i k =>
    rw [step] at e
    cases ha : get p.vars i with
    | none => rw [ha] at e; cases e; exact same
    | some v =>
      rw [ha] at e
      dsimp only at e
      cases hes : v.elems with
      | none => rw [hes] at e; cases e; exact same
      | some xs =>
        rw [hes] at e
        dsimp only at e
        cases hx : xs[k]? with
        | none => rw [hx] at e; cases e; exact same
        | some x =>
          rw [hx] at e
          cases e
          rcases holds_set (y := some (v.withElems (xs.set k x.left))) ha h with h | h
          · exact ⟨es, oneOther_refl es, holds_left h⟩
          · rcases withElems_arrays hes h with ⟨rfl, h⟩ | h
            · exact ⟨_, oneOther_set es k x.left, holds_left (holds_new ha (h _))⟩
            · rcases arraysAll_set (y := x.left) hx h with h | h
              · exact ⟨es, oneOther_refl es, holds_left (holds_new ha (withElems_in hes h))⟩
              · exact ⟨es, oneOther_refl es, holds_last h⟩
  | store i k j =>
    rw [step] at e
    rcases ha : get p.vars i with _ | v <;> rcases hb : get p.vars j with _ | y <;> rw [ha, hb] at e <;> try (cases e; exact same)
    dsimp only at e
    cases hes : v.elems with
    | none => rw [hes] at e; cases e; exact same
    | some xs =>
      rw [hes] at e
      dsimp only at e
      cases hx : xs[k]? with
      | none => rw [hx] at e; cases e; exact same
      | some x =>
        rw [hx] at e
        dsimp only at e
        split at e
        · cases e; exact same
        · rename_i hc
          have hij : i ≠ j := fun e => hc (.inl e)
          cases e
          have hgj : get (p.vars.set i (some (v.withElems (xs.set k y)))) j = some y := by rw [get_set _ _ _ _ _ ha, if_neg hij, hb]
          have hgi : get ((p.vars.set i (some (v.withElems (xs.set k y)))).set j (some x)) i = some (v.withElems (xs.set k y)) := by
            rw [get_set _ _ _ _ _ hgj, if_neg (Ne.symm hij), get_set _ _ _ _ _ ha, if_pos rfl]
          rcases holds_set (y := some (v.withElems (xs.set k y))) ha h with h | h
          · rcases holds_set (y := some x) hgj h with h | h
            · exact ⟨es, oneOther_refl es, h⟩
            · exact ⟨es, oneOther_refl es, holds_get hgi (withElems_in hes (arraysAll_new hx h))⟩
          · rcases withElems_arrays hes h with ⟨rfl, h⟩ | h
            · exact ⟨_, oneOther_set es k y, holds_get hgi (h _)⟩
            · rcases arraysAll_set (y := y) hx h with h | h
              · exact ⟨es, oneOther_refl es, holds_get hgi (withElems_in hes h)⟩
              · exact ⟨es, oneOther_refl es, holds_new hgj h⟩
  | fetch i key =>
    rw [step] at e
    rcases ha : get p.vars i with _ | (_ | _ | _ | ⟨kb, kc, ks, vb, vc, vs⟩) <;> rw [ha] at e <;> try (cases e; exact same)
    dsimp only at e
    cases hp : position key ks with
    | none => rw [hp] at e; cases e; exact same
    | some n =>
      rw [hp] at e
      dsimp only at e
      cases hx : vs[n]? with
      | none => rw [hx] at e; cases e
      | some x =>
        rw [hx] at e
        cases e
        rcases holds_set (y := some (.dict kb kc ks vb vc (vs.set n x.left))) ha h with h | h
        · exact ⟨es, oneOther_refl es, holds_left h⟩
        · rcases dict_arrays h with h | ⟨rfl, h2⟩ | h
          · exact ⟨es, oneOther_refl es, holds_left (holds_new ha (h _))⟩
          · exact ⟨_, oneOther_set es n x.left, holds_left (holds_new ha (h2 _))⟩
          · rcases arraysAll_set (y := x.left) hx h with h | h
            · exact ⟨es, oneOther_refl es, holds_left (holds_new ha (dict_in h))⟩
            · exact ⟨es, oneOther_refl es, holds_last h⟩
  | change i key j =>
    rw [step] at e
    rcases ha : get p.vars i with _ | (_ | _ | _ | ⟨kb, kc, ks, vb, vc, vs⟩) <;> rcases hb : get p.vars j with _ | y <;>
      rw [ha, hb] at e <;> try (cases e; exact same)
    dsimp only at e
    cases hp : position key ks with
    | none => rw [hp] at e; cases e; exact same
    | some n =>
      rw [hp] at e
      dsimp only at e
      cases hx : vs[n]? with
      | none => rw [hx] at e; cases e
      | some x =>
        rw [hx] at e
        dsimp only at e
        split at e
        · cases e; exact same
        · rename_i hc
          have hij : i ≠ j := fun e => hc (.inl e)
          cases e
          have hgj : get (p.vars.set i (some (.dict kb kc ks vb vc (vs.set n y)))) j = some y := by rw [get_set _ _ _ _ _ ha, if_neg hij, hb]
          have hgi : get ((p.vars.set i (some (.dict kb kc ks vb vc (vs.set n y)))).set j (some x)) i =
              some (.dict kb kc ks vb vc (vs.set n y)) := by
            rw [get_set _ _ _ _ _ hgj, if_neg (Ne.symm hij), get_set _ _ _ _ _ ha, if_pos rfl]
          rcases holds_set (y := some (.dict kb kc ks vb vc (vs.set n y))) ha h with h | h
          · rcases holds_set (y := some x) hgj h with h | h
            · exact ⟨es, oneOther_refl es, h⟩
            · exact ⟨es, oneOther_refl es, holds_get hgi (dict_in (arraysAll_new hx h))⟩
          · rcases dict_arrays h with h | ⟨rfl, h2⟩ | h
            · exact ⟨es, oneOther_refl es, holds_get hgi (h _)⟩
            · exact ⟨_, oneOther_set es n y, holds_get hgi (h2 _)⟩
            · rcases arraysAll_set (y := y) hx h with h | h
              · exact ⟨es, oneOther_refl es, holds_get hgi (dict_in h)⟩
              · exact ⟨es, oneOther_refl es, holds_new hgj h⟩
  | _ => cases hx

/-- The destruction of an object: the views of its strings are invalid. -/
theorem C133_destroyed (g : Policy) (p : Prog) (hi : Inv p) (i : Nat) (v : Val) (hv : get p.vars i = some v) (b : Nat) (t : List Byte)
    (h : (b, t) ∈ v.strings) : ∃ q, step g p (.destroy i) = .ok (q, true) ∧ b ∉ q.heap.live := by
  have hc : ∀ d, (allBlocks p.vars).count d = (v.blocks ++ allBlocks (p.vars.set i none)).count d := fun d => by
    have := allBlocks_set p.vars i v none d hv
    simp only [List.count_append, Option.map_none, Option.getD_none, List.count_nil] at this ⊢
    omega
  obtain ⟨h', e, o1, _⟩ := drop_owns v (h := p.heap) (rest := allBlocks (p.vars.set i none)) (hi.congr hc)
  refine ⟨⟨h', p.vars.set i none⟩, by rw [step, hv]; dsimp only; rw [e]; rfl, fun hm => ?_⟩
  have hb : b ∈ v.blocks := by
    rw [← owners_fst, List.mem_map]; exact ⟨_, (strings_iff b t v).mp h, rfl⟩
  have h1 := List.count_pos_iff.mpr hb
  have h2 := List.count_pos_iff.mpr hm
  have h3 := List.nodup_iff_count.mp (blocks_nodup hi) b
  have h4 := hc b
  have h5 := o1.count b
  rw [List.count_append] at h4
  dsimp only at h2
  omega

/-- **C133, negation**: `put` on a full dictionary fails, and every view of the key the caller passed is invalid afterwards: the key has been
destroyed. -/
theorem C133_put_dangles (g : Policy) (p : Prog) (hi : Inv p) (i j k : Nat) (kb : Option Nat) (kc : Nat) (ks : List Val) (vb : Option Nat)
    (vc : Nat) (vs : List Val) (key x : Val) (hij : i ≠ j) (hik : i ≠ k) (hjk : j ≠ k) (hd : get p.vars i = some (.dict kb kc ks vb vc vs))
    (hkey : get p.vars j = some key) (hx : get p.vars k = some x) (hfull : vc ≤ vs.length) (b : Nat) (t : List Byte)
    (h : (b, t) ∈ key.strings) : ∃ q, step g p (.put i j k) = .ok (q, false) ∧ b ∉ q.heap.live := by
  have hxk : get (p.vars.set j (some key.left)) k = some x := by rw [get_set _ _ _ _ _ hkey, if_neg hjk, hx]
  have hc : ∀ d, (allBlocks p.vars).count d = (key.blocks ++ allBlocks (p.vars.set j (some key.left))).count d := fun d => by
    have := count_set key.left d hkey
    simp only [left_blocks, List.count_nil] at this
    rw [List.count_append]
    omega
  obtain ⟨h', e, o1, _⟩ := drop_owns key (h := p.heap) (rest := allBlocks (p.vars.set j (some key.left))) (hi.congr hc)
  refine ⟨⟨h', p.vars.set j (some key.left)⟩, ?_, fun hm => ?_⟩
  · rw [step, hd, hkey]
    dsimp only
    rw [hxk]
    dsimp only
    rw [if_neg (fun e => e.elim hij hik), if_pos hfull, e]; rfl
  · have hb : b ∈ key.blocks := by
      rw [← owners_fst, List.mem_map]; exact ⟨_, (strings_iff b t key).mp h, rfl⟩
    have h1 := List.count_pos_iff.mpr hb
    have h2 := List.count_pos_iff.mpr hm
    have h3 := List.nodup_iff_count.mp (blocks_nodup hi) b
    have h4 := hc b
    have h5 := o1.count b
    rw [List.count_append] at h4
    dsimp only at h2
    omega

/-- For the examples: where the characters of each string are after a program, variable by variable. -/
def shown : Outcome Prog → Option (List (List (Nat × List Byte)))
  | .ok p => some (p.vars.map fun o => (o.map Val.strings).getD [])
  | _ => none

/-- Two strings are moved into a vector, the vector into another one, and that becomes an array: their characters are still in blocks 0 and 1. -/
example : shown (run (refusing []) init [.string [0x61#8], .string [0x62#8, 0x63#8]]) = some [[(0, [0x61#8])], [(1, [0x62#8, 0x63#8])]] ∧
    shown (run (refusing []) init
      [.string [0x61#8], .string [0x62#8, 0x63#8], .vectorOf 32 [0, 1], .vectorOf 24 [2], .toArray 3, .moveCtor 4]) =
      some [[], [], [], [], [], [(0, [0x61#8]), (1, [0x62#8, 0x63#8])]] := by decide +kernel

/-- A dictionary with no room: the key is gone. -/
example : shown (run (refusing []) init [.string [0x6B#8], .string [0x76#8], .fresh .dict]) = some [[(0, [0x6B#8])], [(1, [0x76#8])], []] ∧
    shown (run (refusing []) init [.string [0x6B#8], .string [0x76#8], .fresh .dict, .put 2 0 1]) = some [[], [(1, [0x76#8])], []] := by
  decide +kernel

/-- The hypotheses are met: after the statements that make two strings the invariant holds and block 1 shows the second. -/
example : ∃ p, run (refusing []) init [.string [0x61#8], .string [0x62#8]] = .ok p ∧ Inv p ∧ Shows p.vars 1 [0x62#8] := by
  rcases C132_program_partial (refusing []) [.string [0x61#8], .string [0x62#8]] with ⟨q, e, hi⟩ | ⟨before, o, after, p, he, hr, _, hbad⟩
  · refine ⟨q, e, hi, ?_⟩
    have : shown (run (refusing []) init [.string [0x61#8], .string [0x62#8]]) = some [[(0, [0x61#8])], [(1, [0x62#8])]] := by decide +kernel
    rw [e] at this
    have hv := Option.some.inj this
    have hget : (q.vars.map fun o => (o.map Val.strings).getD [])[1]? = some [(1, [0x62#8])] := by rw [hv]; rfl
    rw [List.getElem?_map] at hget
    cases hq : q.vars[1]? with
    | none => rw [hq] at hget; cases hget
    | some o =>
      rw [hq] at hget
      cases o with
      | none => cases hget
      | some v =>
        have hs : v.strings = [(1, [0x62#8])] := by simpa using hget
        exact ⟨v, List.mem_of_getElem? hq, by rw [hs]; exact List.mem_singleton.mpr rfl⟩
  · exfalso
    have : o = .string [0x61#8] ∨ o = .string [0x62#8] := by
      have : o ∈ [Op.string [0x61#8], .string [0x62#8]] := by rw [he]; simp
      simpa using this
    rcases this with rfl | rfl <;> exact hbad.elim id id

end Solace.Nested
