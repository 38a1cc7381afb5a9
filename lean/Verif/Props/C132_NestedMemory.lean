import Verif.Lemmas.NestedMemory
/-
C132: containers of strings and of containers lose no memory, whenever it runs out.
-/
namespace Solace.Nested
open PathMem

/-- Whether the manager grants a request of this size now. -/
def Granted (g : Policy) (h : Heap) (n : Nat) : Prop := ∃ v, g h.asked n = .ok v

/-- What a statement guarantees. -/
def Good (p : Prog) (o : Op) (r : Prog × Bool) : Prop :=
  (¬ Doubled p.vars o → Inv r.1) ∧ (p.heap.refused < r.1.heap.refused → r.1.vars = p.vars ∧ r.2 = false) ∧
  (r.2 = false → (∀ i j k, o ≠ .put i j k) → r.1.vars = p.vars)

theorem same_good {p : Prog} {o : Op} (hi : Inv p) : Good p o (p, false) :=
  ⟨fun _ => hi, fun h => absurd h (Nat.lt_irrefl _), fun _ _ => rfl⟩

/-- A statement that only moves blocks between variables. -/
theorem moved_good {p : Prog} {o : Op} {vs : Vars} (hi : Inv p) (hc : ∀ c, (allBlocks p.vars).count c = (allBlocks vs).count c) :
    Good p o (⟨p.heap, vs⟩, true) :=
  ⟨fun _ => hi.congr hc, fun h => absurd h (Nat.lt_irrefl _), fun h => by cases h⟩

theorem refused_good {g : Policy} {p : Prog} {o : Op} {h1 : Heap} {n : Nat} {e : Err} (hi : Inv p)
    (ha : allocate g p.heap n = (h1, .error e)) : Good p o (⟨h1, p.vars⟩, false) :=
  ⟨fun _ => (allocate_error hi ha).1, fun _ => ⟨rfl, rfl⟩, fun _ _ => rfl⟩

theorem made_good {g : Policy} {p : Prog} {o : Op} {h1 : Heap} {n b : Nat} {v : MutView} {vs : Vars} (hi : Inv p)
    (ha : allocate g p.heap n = (h1, .ok (b, v)))
    (hc : ∀ c, (b :: allBlocks p.vars).count c = (allBlocks vs).count c) : Good p o (⟨h1, vs⟩, true) := by
  obtain ⟨o1, r1, _⟩ := allocate_ok hi ha
  exact ⟨fun _ => o1.congr hc, fun h => absurd h (by dsimp only; omega), fun h => by cases h⟩

/-- A statement that destroys something. -/
theorem dropped_good {p : Prog} {o : Op} {h1 : Heap} {vs : Vars} {r : Bool} (ho : Owns h1 (allBlocks vs)) (hr : h1.refused = p.heap.refused)
    (hv : r = false → ∃ i j k, o = .put i j k) : Good p o (⟨h1, vs⟩, r) :=
  ⟨fun _ => ho, fun h => absurd h (by dsimp only; omega), fun h hn => by
    obtain ⟨i, j, k, e⟩ := hv h
    exact absurd e (hn i j k)⟩

theorem exchange_count {vs : Vars} {i j : Nat} {a b : Val} (ha : get vs i = some a) (hb : get vs j = some b) (c : Nat) :
    (allBlocks vs).count c = (allBlocks ((vs.set i (some b)).set j (some a))).count c := by
  have h1 := count_set b c ha
  have hg := get_set vs i j a b ha
  by_cases hij : i = j
  · rw [if_pos hij] at hg
    have h2 := count_set a c hg
    omega
  · rw [if_neg hij, hb] at hg
    have h2 := count_set a c hg
    omega

/-- Two different variables get other values. -/
theorem two_count {vs : Vars} {i j : Nat} {a b a' b' : Val} (hij : i ≠ j) (ha : get vs i = some a) (hb : get vs j = some b) (c : Nat) :
    (allBlocks ((vs.set i (some a')).set j (some b'))).count c + a.blocks.count c + b.blocks.count c =
      (allBlocks vs).count c + a'.blocks.count c + b'.blocks.count c := by
  have h1 := count_set a' c ha
  have hg := get_set vs i j a a' ha
  rw [if_neg hij, hb] at hg
  have h2 := count_set b' c hg
  omega

set_option maxHeartbeats 1000000 in
theorem step_good (g : Policy) (p : Prog) (o : Op) (hi : Inv p) :
    (∃ r, step g p o = .ok r ∧ Good p o r ∧ ¬ Bad (Granted g p.heap) p.vars o) ∨ (step g p o = .ub ∧ Bad (Granted g p.heap) p.vars o) := by
  have same : ∀ (b : Op), ¬ Bad (Granted g p.heap) p.vars b →
      ∃ r, (.ok (p, false) : Outcome (Prog × Bool)) = .ok r ∧ Good p b r ∧ ¬ Bad (Granted g p.heap) p.vars b :=
    fun b hb => ⟨_, rfl, same_good hi, hb⟩
  cases o with
  | string s =>
    refine .inl ?_
    rw [step]
    obtain ⟨h', r, e, m⟩ := newStr_owns g s hi
    rw [e, Outcome.bind_ok]
    cases r with
    | ok s =>
      refine ⟨_, rfl, ⟨fun _ => m.1.congr fun c => ?_, fun h => absurd h ?_, fun h => by cases h⟩, id⟩
      · rw [count_append, List.count_append, Val.blocks]; omega
      · have := m.2.1; dsimp only; omega
    | error e => exact ⟨_, rfl, ⟨fun _ => m.1, fun _ => ⟨rfl, rfl⟩, fun _ _ => rfl⟩, id⟩
  | fresh k =>
    exact .inl ⟨_, rfl, moved_good hi fun c => by rw [count_append, empty_blocks]; simp, id⟩
  | vector sz n =>
    refine .inl ?_
    rw [step]
    cases ha : allocate g p.heap (wrap64 (n * sz)) with
    | mk h1 r =>
      cases r with
      | error e => exact ⟨_, rfl, refused_good hi ha, id⟩
      | ok bv =>
        refine ⟨_, rfl, made_good hi ha fun c => ?_, id⟩
        rw [count_append, Val.blocks, blocksAll]
        simp [List.count_cons]
  | vectorOf sz is =>
    rw [step]
    cases hm : moveAll p.vars is with
    | none => exact .inl (same _ fun h => by have := h.1; rw [hm] at this; cases this)
    | some r =>
      obtain ⟨xs, vs⟩ := r
      dsimp only
      cases ha : allocate g p.heap (wrap64 (is.length * sz)) with
      | mk h1 r =>
        cases r with
        | error e =>
          refine .inl ⟨_, rfl, refused_good hi ha, fun h => ?_⟩
          obtain ⟨v, hv⟩ := h.2.1
          rw [(allocate_error hi ha).2.2] at hv
          cases hv
        | ok bv =>
          dsimp only
          by_cases hr : room sz is.length < is.length
          · rw [if_pos hr]
            refine .inr ⟨rfl, by rw [hm]; rfl, ⟨_, (allocate_ok hi ha).2.2⟩, hr⟩
          · rw [if_neg hr]
            refine .inl ⟨_, rfl, made_good hi ha fun c => ?_, fun h => hr h.2.2⟩
            have := (moveAll_count is _ _ _ hm).2 c
            rw [count_append, Val.blocks]
            simp only [Option.toList, List.count_append, List.count_cons, List.count_nil]
            omega
  | array sz n k =>
    refine .inl ?_
    rw [step]
    cases ha : allocate g p.heap (wrap64 (n * sz)) with
    | mk h1 r =>
      cases r with
      | error e => exact ⟨_, rfl, refused_good hi ha, id⟩
      | ok bv =>
        refine ⟨_, rfl, made_good hi ha fun c => ?_, id⟩
        rw [count_append, Val.blocks, blocksAll_replicate]
        simp [List.count_cons]
  | arrayOf sz is =>
    rw [step]
    cases hm : moveAll p.vars is with
    | none => exact .inl (same _ fun h => by have := h.1; rw [hm] at this; cases this)
    | some r =>
      obtain ⟨xs, vs⟩ := r
      dsimp only
      cases ha : allocate g p.heap (wrap64 (is.length * sz)) with
      | mk h1 r =>
        cases r with
        | error e =>
          refine .inl ⟨_, rfl, refused_good hi ha, fun h => ?_⟩
          obtain ⟨v, hv⟩ := h.2.1
          rw [(allocate_error hi ha).2.2] at hv
          cases hv
        | ok bv =>
          dsimp only
          by_cases hr : room sz is.length < is.length
          · rw [if_pos hr]
            refine .inr ⟨rfl, by rw [hm]; rfl, ⟨_, (allocate_ok hi ha).2.2⟩, hr⟩
          · rw [if_neg hr]
            refine .inl ⟨_, rfl, made_good hi ha fun c => ?_, fun h => hr h.2.2⟩
            have := (moveAll_count is _ _ _ hm).2 c
            rw [count_append, Val.blocks]
            simp only [Option.toList, List.count_append, List.count_cons, List.count_nil]
            omega
  | dictionary ksz vsz n =>
    refine .inl ?_
    rw [step]
    cases ha : allocate g p.heap (wrap64 (n * ksz)) with
    | mk h1 r =>
      cases r with
      | error e => exact ⟨_, rfl, refused_good hi ha, id⟩
      | ok bv =>
        obtain ⟨kb, v⟩ := bv
        obtain ⟨o1, r1, _⟩ := allocate_ok hi ha
        dsimp only
        cases ha2 : allocate g h1 (wrap64 (n * vsz)) with
        | mk h2 r =>
          cases r with
          | error e =>
            obtain ⟨o2, r2, _⟩ := allocate_error o1 ha2
            obtain ⟨h3, e3, o3, r3⟩ := free_owns o2
            dsimp only
            rw [e3, Outcome.bind_ok]
            exact ⟨_, rfl, ⟨fun _ => o3, fun _ => ⟨rfl, rfl⟩, fun _ _ => rfl⟩, id⟩
          | ok bw =>
            obtain ⟨vb, w⟩ := bw
            obtain ⟨o2, r2, _⟩ := allocate_ok o1 ha2
            refine ⟨_, rfl, ⟨fun _ => o2.congr fun c => ?_, fun h => absurd h (by dsimp only; omega), fun h => by cases h⟩, id⟩
            rw [count_append, Val.blocks, blocksAll]
            simp only [Option.toList, List.count_append, List.count_cons, List.count_nil]
            omega
  | dictionaryOf i j =>
    refine .inl ?_
    rw [step]
    rcases ha : get p.vars i with _ | (_ | ⟨kb, kc, ks⟩ | _ | _) <;> rcases hb : get p.vars j with _ | (_ | ⟨vb, vc, vs⟩ | _ | _) <;>
      try exact same _ id
    dsimp only
    by_cases hij : i = j
    · rw [if_pos hij]; exact same _ id
    · rw [if_neg hij]
      refine ⟨_, rfl, moved_good hi fun c => ?_, id⟩
      have := two_count (a' := Kind.empty .vec) (b' := Kind.empty .vec) hij ha hb c
      rw [empty_blocks] at this
      rw [count_append]
      simp only [Val.blocks, List.count_append, List.count_nil] at this ⊢
      omega
  | push i j =>
    refine .inl ?_
    rw [step]
    rcases ha : get p.vars i with _ | (_ | ⟨b, c, es⟩ | _ | _) <;> rcases hb : get p.vars j with _ | x <;> try exact same _ id
    dsimp only
    by_cases hc : i = j ∨ c ≤ es.length
    · rw [if_pos hc]; exact same _ id
    · rw [if_neg hc]
      refine ⟨_, rfl, moved_good hi fun d => ?_, id⟩
      have := two_count (a' := .vec b c (es ++ [x])) (b' := x.left) (fun e => hc (.inl e)) ha hb d
      simp only [left_blocks, Val.blocks, blocksAll_append, blocksAll, List.append_nil, List.count_append, List.count_nil] at this
      omega
  | pop i =>
    refine .inl ?_
    rw [step]
    rcases ha : get p.vars i with _ | (_ | ⟨b, c, es⟩ | _ | _) <;> try exact same _ id
    dsimp only
    cases hl : es.getLast? with
    | none => exact ⟨_, rfl, moved_good hi fun _ => rfl, id⟩
    | some x =>
      have hes : es = es.dropLast ++ [x] := by
        obtain ⟨ys, rfl⟩ := List.getLast?_eq_some_iff.mp hl
        rw [List.dropLast_concat]
      obtain ⟨h', e, o1, r1⟩ := drop_owns x (h := p.heap) (rest := allBlocks (p.vars.set i (some (.vec b c es.dropLast))))
        (hi.congr fun d => by
          have := count_set (.vec b c es.dropLast) d ha
          have hx : (blocksAll es).count d = (blocksAll es.dropLast).count d + x.blocks.count d := by
            conv => lhs; rw [hes]
            simp only [blocksAll_append, blocksAll, List.append_nil, List.count_append]
          simp only [Val.blocks, List.count_append] at this ⊢
          omega)
      exact ⟨_, by dsimp only; rw [e]; rfl, dropped_good o1 r1 (fun h => by cases h), id⟩
  | clear i =>
    refine .inl ?_
    rw [step]
    rcases ha : get p.vars i with _ | (_ | ⟨b, c, es⟩ | _ | _) <;> try exact same _ id
    dsimp only
    obtain ⟨h', e, o1, r1⟩ := dropAll_owns es.reverse (h := p.heap) (rest := allBlocks (p.vars.set i (some (.vec b c []))))
      (hi.congr fun d => by
        have := count_set (.vec b c []) d ha
        have hx := blocksAll_reverse es d
        simp only [Val.blocks, List.count_append, blocksAll, List.count_nil] at this ⊢
        omega)
    exact ⟨_, by rw [e]; rfl, dropped_good o1 r1 (fun h => by cases h), id⟩
  | toArray i =>
    refine .inl ?_
    rw [step]
    rcases ha : get p.vars i with _ | (_ | ⟨b, c, es⟩ | _ | _) <;> try exact same _ id
    refine ⟨_, rfl, moved_good hi fun d => ?_, id⟩
    have := count_set (Kind.empty .vec) d ha
    rw [empty_blocks] at this
    rw [count_append]
    simp only [Val.blocks, List.count_append, List.count_nil] at this ⊢
    omega
  | put i j k =>
    refine .inl ?_
    rw [step]
    rcases ha : get p.vars i with _ | (_ | _ | _ | ⟨kb, kc, ks, vb, vc, vs⟩) <;> rcases hb : get p.vars j with _ | key <;>
      try exact same _ id
    dsimp only
    cases hx : get (p.vars.set j (some key.left)) k with
    | none => exact same _ id
    | some x =>
      dsimp only
      by_cases hij : i = j ∨ i = k
      · rw [if_pos hij]; exact same _ id
      · rw [if_neg hij]
        have h1 := fun d => count_set key.left d hb
        have h2 := fun d => count_set x.left d hx
        simp only [left_blocks, List.count_nil] at h1 h2
        by_cases hv : vc ≤ vs.length
        · rw [if_pos hv]
          obtain ⟨h', e, o1, r1⟩ := drop_owns key (h := p.heap) (rest := allBlocks (p.vars.set j (some key.left))) (hi.congr fun d => by
            have := h1 d
            rw [List.count_append]
            omega)
          exact ⟨_, by rw [e]; rfl, dropped_good o1 r1 fun _ => ⟨i, j, k, rfl⟩, id⟩
        · rw [if_neg hv]
          by_cases hk : kc ≤ ks.length
          · rw [if_pos hk]
            obtain ⟨h', e, o1, r1⟩ := drop_owns x (h := p.heap)
              (rest := key.blocks ++ allBlocks ((p.vars.set j (some key.left)).set k (some x.left))) (hi.congr fun d => by
                have := h1 d
                have := h2 d
                simp only [List.count_append]
                omega)
            obtain ⟨h'', e2, o2, r2⟩ := drop_owns key o1
            exact ⟨_, by rw [e, Outcome.bind_ok, e2]; rfl, dropped_good o2 (r2.trans r1) fun _ => ⟨i, j, k, rfl⟩, id⟩
          · rw [if_neg hk]
            refine ⟨_, rfl, moved_good hi fun d => ?_, id⟩
            have hg : get ((p.vars.set j (some key.left)).set k (some x.left)) i = some (.dict kb kc ks vb vc vs) := by
              rw [get_set _ _ _ _ _ hx, if_neg (fun e => hij (.inr e.symm)), get_set _ _ _ _ _ hb, if_neg (fun e => hij (.inl e.symm)), ha]
            have h3 := count_set (.dict kb kc (ks ++ [key]) vb vc (vs ++ [x])) d hg
            have := h1 d
            have := h2 d
            simp only [Val.blocks, blocksAll_append, blocksAll, List.append_nil, List.count_append] at h3
            omega
  | take i k =>
    refine .inl ?_
    rw [step]
    cases ha : get p.vars i with
    | none => exact same _ id
    | some v =>
      dsimp only
      cases he : v.elems with
      | none => exact same _ id
      | some es =>
        dsimp only
        cases hk : es[k]? with
        | none => exact same _ id
        | some x =>
          refine ⟨_, rfl, moved_good hi fun d => ?_, id⟩
          have h1 := count_set (v.withElems (es.set k x.left)) d ha
          have h2 := withElems_blocks v es (es.set k x.left) he d
          have h3 := blocksAll_set es k x x.left d hk
          rw [left_blocks, List.count_nil] at h3
          rw [count_append]
          omega
  | store i k j =>
    refine .inl ?_
    rw [step]
    rcases ha : get p.vars i with _ | v <;> rcases hb : get p.vars j with _ | y <;> try exact same _ id
    dsimp only
    cases he : v.elems with
    | none => exact same _ id
    | some es =>
      dsimp only
      cases hk : es[k]? with
      | none => exact same _ id
      | some x =>
        dsimp only
        by_cases hc : i = j ∨ x.kind ≠ y.kind
        · rw [if_pos hc]; exact same _ id
        · rw [if_neg hc]
          refine ⟨_, rfl, moved_good hi fun d => ?_, id⟩
          have h1 := two_count (a' := v.withElems (es.set k y)) (b' := x) (fun e => hc (.inl e)) ha hb d
          have h2 := withElems_blocks v es (es.set k y) he d
          have h3 := blocksAll_set es k x y d hk
          omega
  | fetch i key =>
    rw [step]
    rcases ha : get p.vars i with _ | (_ | _ | _ | ⟨kb, kc, ks, vb, vc, vs⟩)
    iterate 4 exact .inl (same _ fun ⟨_, _, _, _, _, _, _, h, _⟩ => by rw [ha] at h; cases h)
    dsimp only
    cases hp : position key ks with
    | none => exact .inl (same _ fun ⟨_, _, _, _, _, _, _, h, h', _⟩ => by rw [ha] at h; cases h; rw [hp] at h'; cases h')
    | some n =>
      dsimp only
      cases hk : vs[n]? with
      | none => exact .inr ⟨rfl, kb, kc, ks, vb, vc, vs, n, ha, hp, List.getElem?_eq_none_iff.mp hk⟩
      | some x =>
        refine .inl ⟨_, rfl, moved_good hi fun d => ?_, ?_⟩
        · have h1 := count_set (.dict kb kc ks vb vc (vs.set n x.left)) d ha
          have h3 := blocksAll_set vs n x x.left d hk
          rw [left_blocks, List.count_nil] at h3
          rw [count_append]
          simp only [Val.blocks, List.count_append] at h1
          omega
        · rintro ⟨_, _, _, _, _, _, _, h, h', h''⟩
          rw [ha] at h; cases h; rw [hp] at h'; cases h'
          rw [List.getElem?_eq_none_iff.mpr h''] at hk; cases hk
  | change i key j =>
    rw [step]
    rcases hb : get p.vars j with _ | y
    · refine .inl (?_)
      rcases ha : get p.vars i with _ | (_ | _ | _ | ⟨kb, kc, ks, vb, vc, vs⟩) <;>
        exact same _ fun h => by have := h.1; rw [hb] at this; cases this
    · rcases ha : get p.vars i with _ | (_ | _ | _ | ⟨kb, kc, ks, vb, vc, vs⟩)
      iterate 4 exact .inl (same _ fun ⟨_, _, _, _, _, _, _, _, h, _⟩ => by rw [ha] at h; cases h)
      dsimp only
      cases hp : position key ks with
      | none => exact .inl (same _ fun ⟨_, _, _, _, _, _, _, _, h, h', _⟩ => by rw [ha] at h; cases h; rw [hp] at h'; cases h')
      | some n =>
        dsimp only
        cases hk : vs[n]? with
        | none => exact .inr ⟨rfl, by rw [hb]; rfl, kb, kc, ks, vb, vc, vs, n, ha, hp, List.getElem?_eq_none_iff.mp hk⟩
        | some x =>
          have hn : ¬ Bad (Granted g p.heap) p.vars (.change i key j) := by
            rintro ⟨_, _, _, _, _, _, _, _, h, h', h''⟩
            rw [ha] at h; cases h; rw [hp] at h'; cases h'
            rw [List.getElem?_eq_none_iff.mpr h''] at hk; cases hk
          dsimp only
          by_cases hc : i = j ∨ x.kind ≠ y.kind
          · rw [if_pos hc]; exact .inl (same _ hn)
          · rw [if_neg hc]
            refine .inl ⟨_, rfl, moved_good hi fun d => ?_, hn⟩
            have h1 := two_count (a' := .dict kb kc ks vb vc (vs.set n y)) (b' := x) (fun e => hc (.inl e)) ha hb d
            have h3 := blocksAll_set vs n x y d hk
            simp only [Val.blocks, List.count_append] at h1
            omega
  | moveCtor i =>
    refine .inl ?_
    rw [step]
    cases ha : get p.vars i with
    | none => exact same _ id
    | some v =>
      refine ⟨_, rfl, moved_good hi fun d => ?_, id⟩
      have := count_set v.left d ha
      rw [left_blocks, List.count_nil] at this
      rw [count_append]
      omega
  | assign i j =>
    refine .inl ?_
    rw [step]
    rcases ha : get p.vars i with _ | a <;> rcases hb : get p.vars j with _ | b <;> try exact same _ id
    dsimp only
    by_cases hk : a.kind ≠ b.kind
    · rw [if_pos hk]; exact same _ id
    · rw [if_neg hk]; exact ⟨_, rfl, moved_good hi fun d => exchange_count ha hb d, id⟩
  | swap i j =>
    refine .inl ?_
    rw [step]
    rcases ha : get p.vars i with _ | a <;> rcases hb : get p.vars j with _ | b <;> try exact same _ id
    dsimp only
    by_cases hk : a.kind ≠ b.kind
    · rw [if_pos hk]; exact same _ id
    · rw [if_neg hk]; exact ⟨_, rfl, moved_good hi fun d => exchange_count ha hb d, id⟩
  | null i =>
    refine .inl ?_
    rw [step]
    rcases ha : get p.vars i with _ | (_ | ⟨b, c, es⟩ | ⟨b, es⟩ | _) <;> try exact same _ id
    · dsimp only
      obtain ⟨h', e, o1, r1⟩ := dropAll_owns es (h := p.heap) (rest := allBlocks (p.vars.set i (some (.vec b c []))))
        (hi.congr fun d => by
          have := count_set (.vec b c []) d ha
          simp only [Val.blocks, List.count_append, blocksAll, List.count_nil] at this ⊢
          omega)
      exact ⟨_, by rw [e]; rfl, dropped_good o1 r1 (fun h => by cases h), id⟩
    · dsimp only
      obtain ⟨h', e, o1, r1⟩ := dropAll_owns es (h := p.heap) (rest := allBlocks (p.vars.set i (some (.arr b []))))
        (hi.congr fun d => by
          have := count_set (.arr b []) d ha
          simp only [Val.blocks, List.count_append, blocksAll, List.count_nil] at this ⊢
          omega)
      refine ⟨(⟨h', p.vars⟩, true), by rw [e]; rfl, ⟨fun hd => o1.congr fun d => ?_, fun h => absurd h (by dsimp only; omega), fun h => by cases h⟩, id⟩
      have hes : blocksAll es = [] := Classical.byContradiction fun h => hd ⟨b, es, ha, h⟩
      have := count_set (.arr b []) d ha
      simp only [Val.blocks, List.count_append, blocksAll, List.count_nil, hes] at this ⊢
      omega
  | destroy i =>
    refine .inl ?_
    rw [step]
    cases ha : get p.vars i with
    | none => exact same _ id
    | some v =>
      dsimp only
      obtain ⟨h', e, o1, r1⟩ := drop_owns v (h := p.heap) (rest := allBlocks (p.vars.set i none)) (hi.congr fun c => by
        have := allBlocks_set p.vars i v none c ha
        simp only [Option.map_none, Option.getD_none, List.count_nil] at this
        rw [List.count_append]
        omega)
      exact ⟨_, by rw [e]; rfl, dropped_good o1 r1 (fun h => by cases h), id⟩

/-- **C132**, each statement: it is undefined exactly for the reasons named; otherwise, unless `nullptr` is assigned to an array whose elements
own memory, the blocks given out are those of the variables; a refused request leaves all variables as they were, and so does any call that
fails, but for `put`. -/
theorem C132_step_partial (g : Policy) (p : Prog) (hi : Inv p) (o : Op) :
    (step g p o = .ub ↔ Bad (Granted g p.heap) p.vars o) ∧
    (¬ Bad (Granted g p.heap) p.vars o → ∃ q b, step g p o = .ok (q, b) ∧ (¬ Doubled p.vars o → Inv q) ∧
      (p.heap.refused < q.heap.refused → q.vars = p.vars ∧ b = false) ∧
      (b = false → (∀ i j k, o ≠ .put i j k) → q.vars = p.vars)) := by
  rcases step_good g p o hi with ⟨r, e, hq, hb⟩ | ⟨e, hb⟩
  · exact ⟨⟨(fun h => by rw [e] at h; cases h), fun h => (hb h).elim⟩, fun _ => ⟨r.1, r.2, e, hq⟩⟩
  · exact ⟨⟨fun _ => hb, fun _ => e⟩, fun h => (h hb).elim⟩

theorem inv_init : Inv init := ⟨fun _ => rfl, List.nodup_nil, fun _ h => by cases h⟩

/-- **C132** (partial: until `nullptr` is assigned to an array whose elements own memory, or a statement is undefined for a reason that has nothing
to do with memory running out), every program, whatever the manager refuses: the blocks given out are exactly those of the variables alive and
of everything in them, each once. -/
theorem C132_program_partial (g : Policy) (ops : List Op) :
    (∃ q, run g init ops = .ok q ∧ Inv q) ∨
    ∃ before o after p, ops = before ++ o :: after ∧ run g init before = .ok p ∧ Inv p ∧
      (Bad (Granted g p.heap) p.vars o ∨ Doubled p.vars o) := by
  suffices ∀ (ops : List Op) (p : Prog), Inv p → (∃ q, run g p ops = .ok q ∧ Inv q) ∨
      ∃ before o after p', ops = before ++ o :: after ∧ run g p before = .ok p' ∧ Inv p' ∧
        (Bad (Granted g p'.heap) p'.vars o ∨ Doubled p'.vars o) from this ops init inv_init
  intro ops
  induction ops with
  | nil => intro p hp; exact .inl ⟨p, rfl, hp⟩
  | cons o os ih =>
    intro p hp
    by_cases hd : Doubled p.vars o
    · exact .inr ⟨[], o, os, p, rfl, rfl, hp, .inr hd⟩
    rcases step_good g p o hp with ⟨r, e, hq, _⟩ | ⟨_, hb⟩
    · rcases ih r.1 (hq.1 hd) with ⟨q, h, hi⟩ | ⟨before, o', after, p', h1, h2, h3⟩
      · exact .inl ⟨q, by rw [run, e, Outcome.bind_ok, h], hi⟩
      · exact .inr ⟨o :: before, o', after, p', by rw [h1]; rfl, by rw [run, e, Outcome.bind_ok, h2], h3⟩
    · exact .inr ⟨[], o, os, p, rfl, rfl, hp, .inl hb⟩

/-- **C132**: when all variables are gone every block was given back. -/
theorem C132_all_back (q : Prog) (hi : Inv q) (hv : ∀ o ∈ q.vars, o = none) : q.heap.live = [] := by
  have hb : allBlocks q.vars = [] := by
    rw [allBlocks, List.flatMap_eq_nil_iff]
    intro o ho
    rw [hv o ho]; rfl
  apply List.eq_nil_iff_forall_not_mem.mpr
  intro b hm
  have := hi.count b
  rw [hb, List.count_nil] at this
  exact absurd (List.count_pos_iff.mpr hm) (by omega)

/-- **C132, negation**: `array = nullptr` for an array with an element that owns memory is defined and gives that memory back, but the element is
still in the array: the end of the array gives it back once more, which is undefined. -/
theorem C132_array_null (g : Policy) (p : Prog) (hi : Inv p) (i : Nat) (hd : Doubled p.vars (.null i)) :
    ∃ q, step g p (.null i) = .ok (q, true) ∧ ¬ Inv q ∧ step g q (.destroy i) = .ub := by
  obtain ⟨b, es, ha, hes⟩ := hd
  obtain ⟨h', e, o1, _⟩ := dropAll_owns es (h := p.heap) (rest := allBlocks (p.vars.set i (some (.arr b []))))
    (hi.congr fun d => by
      have := count_set (.arr b []) d ha
      simp only [Val.blocks, List.count_append, blocksAll, List.count_nil] at this ⊢
      omega)
  obtain ⟨c, hc⟩ : ∃ c, c ∈ blocksAll es := by
    cases hb : blocksAll es with
    | nil => exact (hes hb).elim
    | cons c _ => exact ⟨c, List.mem_cons_self⟩
  have hone : (allBlocks p.vars).count c ≤ 1 := by
    rw [← hi.count c]
    exact List.nodup_iff_count.mp hi.nodup c
  have hset := count_set (.arr b []) c ha
  simp only [Val.blocks, List.count_append, blocksAll, List.count_nil] at hset
  have hpos := List.count_pos_iff.mpr hc
  have hgone : h'.live.count c = 0 := by rw [o1.count c]; omega
  have hnot : c ∉ h'.live := fun hm => by have := List.count_pos_iff.mpr hm; omega
  refine ⟨⟨h', p.vars⟩, by rw [step, ha]; dsimp only; rw [e]; rfl, fun hinv => ?_, ?_⟩
  · have := hinv.count c
    rw [hgone] at this
    dsimp only at this
    omega
  · rw [step]
    dsimp only
    rw [ha]
    dsimp only
    have hm : c ∈ (Val.arr b es).blocks := by rw [Val.blocks]; exact List.mem_append_right _ hc
    rcases drop_needs (.arr b es) hm h' with e2 | ⟨_, _, m⟩
    · rw [e2]; rfl
    · exact (hnot m).elim

/-- **C132, negation**: a `put` that fails for lack of room takes the key away from the caller: the variable is left as if moved and the memory
of the key is given back; when there is room for the value only, the value is lost as well. -/
theorem C132_put_loses (g : Policy) (p : Prog) (hi : Inv p) (i j k : Nat) (kb : Option Nat) (kc : Nat) (ks : List Val) (vb : Option Nat)
    (vc : Nat) (vs : List Val) (key x : Val) (hij : i ≠ j) (hik : i ≠ k) (hjk : j ≠ k) (hd : get p.vars i = some (.dict kb kc ks vb vc vs))
    (hkey : get p.vars j = some key) (hx : get p.vars k = some x) (hfull : vc ≤ vs.length ∨ kc ≤ ks.length) :
    ∃ q, step g p (.put i j k) = .ok (q, false) ∧ get q.vars i = some (.dict kb kc ks vb vc vs) ∧ get q.vars j = some key.left ∧
      get q.vars k = some (if vc ≤ vs.length then x else x.left) := by
  have hxk : get (p.vars.set j (some key.left)) k = some x := by rw [get_set _ _ _ _ _ hkey, if_neg hjk, hx]
  have hdi : get (p.vars.set j (some key.left)) i = some (.dict kb kc ks vb vc vs) := by
    rw [get_set _ _ _ _ _ hkey, if_neg (Ne.symm hij), hd]
  have hjj : get (p.vars.set j (some key.left)) j = some key.left := by rw [get_set _ _ _ _ _ hkey, if_pos rfl]
  have h1 := fun d => count_set key.left d hkey
  have h2 := fun d => count_set x.left d hxk
  simp only [left_blocks, List.count_nil] at h1 h2
  rw [step, hd, hkey]
  dsimp only
  rw [hxk]
  dsimp only
  rw [if_neg (fun e => e.elim hij hik)]
  by_cases hv : vc ≤ vs.length
  · rw [if_pos hv]
    obtain ⟨h', e, _, _⟩ := drop_owns key (h := p.heap) (rest := allBlocks (p.vars.set j (some key.left))) (hi.congr fun d => by
      have := h1 d
      rw [List.count_append]
      omega)
    refine ⟨⟨h', p.vars.set j (some key.left)⟩, by rw [e]; rfl, hdi, hjj, ?_⟩
    rw [if_pos hv]; exact hxk
  · rw [if_neg hv, if_pos (hfull.resolve_left hv)]
    obtain ⟨h', e, o1, _⟩ := drop_owns x (h := p.heap)
      (rest := key.blocks ++ allBlocks ((p.vars.set j (some key.left)).set k (some x.left))) (hi.congr fun d => by
        have := h1 d
        have := h2 d
        simp only [List.count_append]
        omega)
    obtain ⟨h'', e2, _, _⟩ := drop_owns key o1
    refine ⟨⟨h'', (p.vars.set j (some key.left)).set k (some x.left)⟩, by rw [e, Outcome.bind_ok, e2]; rfl, ?_, ?_, ?_⟩
    · show get ((p.vars.set j (some key.left)).set k (some x.left)) i = _
      rw [get_set _ _ _ _ _ hxk, if_neg (Ne.symm hik), hdi]
    · show get ((p.vars.set j (some key.left)).set k (some x.left)) j = _
      rw [get_set _ _ _ _ _ hxk, if_neg (Ne.symm hjk), hjj]
    · show get ((p.vars.set j (some key.left)).set k (some x.left)) k = _
      rw [get_set _ _ _ _ _ hxk, if_pos rfl, if_neg hv]

/-- **C132**, adding to a vector: when there is room the object is the new last element and the variable is as after a move; otherwise nothing
changes. -/
theorem C132_push (g : Policy) (p : Prog) (i j : Nat) (b : Option Nat) (c : Nat) (es : List Val) (x : Val) (hij : i ≠ j)
    (hv : get p.vars i = some (.vec b c es)) (hx : get p.vars j = some x) :
    (es.length < c → ∃ q, step g p (.push i j) = .ok (q, true) ∧ q.heap = p.heap ∧ get q.vars i = some (.vec b c (es ++ [x])) ∧
      get q.vars j = some x.kind.empty ∧ ∀ k, k ≠ i → k ≠ j → get q.vars k = get p.vars k) ∧
    (c ≤ es.length → step g p (.push i j) = .ok (p, false)) := by
  constructor
  · intro h
    have hs : get (p.vars.set i (some (.vec b c (es ++ [x])))) j = some x := by rw [get_set _ _ _ _ _ hv, if_neg hij, hx]
    refine ⟨⟨p.heap, (p.vars.set i (some (.vec b c (es ++ [x])))).set j (some x.left)⟩, ?_, rfl, ?_, ?_, fun k hk hk' => ?_⟩
    · rw [step, hv, hx]
      dsimp only
      rw [if_neg (fun e => e.elim hij (fun e => by omega))]
    · show get ((p.vars.set i _).set j _) i = _
      rw [get_set _ _ _ _ _ hs, if_neg (Ne.symm hij), get_set _ _ _ _ _ hv, if_pos rfl]
    · show get ((p.vars.set i _).set j _) j = _
      rw [get_set _ _ _ _ _ hs, if_pos rfl]; rfl
    · show get ((p.vars.set i _).set j _) k = _
      rw [get_set _ _ _ _ _ hs, if_neg (Ne.symm hk'), get_set _ _ _ _ _ hv, if_neg (Ne.symm hk)]
  · intro h
    rw [step, hv, hx]
    dsimp only
    rw [if_pos (.inr h)]

/-- **C132**, adding to a dictionary with room for both: key and value are the last ones, the variables are as after a move. -/
theorem C132_put (g : Policy) (p : Prog) (i j k : Nat) (kb : Option Nat) (kc : Nat) (ks : List Val) (vb : Option Nat) (vc : Nat)
    (vs : List Val) (key x : Val) (hij : i ≠ j) (hik : i ≠ k) (hjk : j ≠ k) (hd : get p.vars i = some (.dict kb kc ks vb vc vs))
    (hkey : get p.vars j = some key) (hx : get p.vars k = some x) (hv : vs.length < vc) (hk : ks.length < kc) :
    ∃ q, step g p (.put i j k) = .ok (q, true) ∧ q.heap = p.heap ∧
      get q.vars i = some (.dict kb kc (ks ++ [key]) vb vc (vs ++ [x])) ∧ get q.vars j = some key.kind.empty ∧
      get q.vars k = some x.kind.empty := by
  have hxk : get (p.vars.set j (some key.left)) k = some x := by rw [get_set _ _ _ _ _ hkey, if_neg hjk, hx]
  have hdi : get ((p.vars.set j (some key.left)).set k (some x.left)) i = some (.dict kb kc ks vb vc vs) := by
    rw [get_set _ _ _ _ _ hxk, if_neg (Ne.symm hik), get_set _ _ _ _ _ hkey, if_neg (Ne.symm hij), hd]
  refine ⟨⟨p.heap, ((p.vars.set j (some key.left)).set k (some x.left)).set i
    (some (.dict kb kc (ks ++ [key]) vb vc (vs ++ [x])))⟩, ?_, rfl, ?_, ?_, ?_⟩
  · rw [step, hd, hkey]
    dsimp only
    rw [hxk]
    dsimp only
    rw [if_neg (fun e => e.elim hij hik), if_neg (by omega), if_neg (by omega)]
  · show get (((p.vars.set j _).set k _).set i _) i = _
    rw [get_set _ _ _ _ _ hdi, if_pos rfl]
  · show get (((p.vars.set j _).set k _).set i _) j = _
    rw [get_set _ _ _ _ _ hdi, if_neg hij, get_set _ _ _ _ _ hxk, if_neg (Ne.symm hjk), get_set _ _ _ _ _ hkey, if_pos rfl]; rfl
  · show get (((p.vars.set j _).set k _).set i _) k = _
    rw [get_set _ _ _ _ _ hdi, if_neg hik, get_set _ _ _ _ _ hxk, if_pos rfl]; rfl

theorem position_first (key : List Byte) (ks : List Val) : ∀ (n : Nat) (o : SObj), ks[n]? = some (.str o) → o.text = key →
    (∀ m o', m < n → ks[m]? = some (.str o') → o'.text ≠ key) → position key ks = some n := by
  induction ks with
  | nil => intro n o h; cases h
  | cons e ks ih =>
    intro n o h hk hm
    cases n with
    | zero =>
      have : e = .str o := by simpa using h
      subst this
      rw [position, if_pos hk]
    | succ n =>
      have := ih n o h hk fun m o' hlt hs => hm (m + 1) o' (by omega) hs
      cases e with
      | str o' => rw [position, if_neg (hm 0 o' (by omega) rfl), this]; rfl
      | vec => rw [position, this]; rfl; intro o' h; cases h
      | arr => rw [position, this]; rfl; intro o' h; cases h
      | dict => rw [position, this]; rfl; intro o' h; cases h

/-- **C132**, taking a value out of a dictionary or exchanging it: it is the one at the position of the first key with the text. -/
theorem C132_find (g : Policy) (p : Prog) (i j : Nat) (kb : Option Nat) (kc : Nat) (ks : List Val) (vb : Option Nat) (vc : Nat)
    (vs : List Val) (key : List Byte) (n : Nat) (o : SObj) (x : Val) (hd : get p.vars i = some (.dict kb kc ks vb vc vs))
    (hn : ks[n]? = some (.str o)) (ho : o.text = key) (hf : ∀ m o', m < n → ks[m]? = some (.str o') → o'.text ≠ key)
    (hx : vs[n]? = some x) :
    step g p (.fetch i key) =
      .ok (⟨p.heap, p.vars.set i (some (.dict kb kc ks vb vc (vs.set n x.kind.empty))) ++ [some x]⟩, true) ∧
    ∀ y, i ≠ j → get p.vars j = some y → y.kind = x.kind →
      step g p (.change i key j) = .ok (⟨p.heap, (p.vars.set i (some (.dict kb kc ks vb vc (vs.set n y)))).set j (some x)⟩, true) := by
  have hp := position_first key ks n o hn ho hf
  constructor
  · rw [step, hd]
    dsimp only
    rw [hp]
    dsimp only
    rw [hx]
    rfl
  · intro y hij hy hk
    rw [step, hd, hy]
    dsimp only
    rw [hp]
    dsimp only
    rw [hx]
    dsimp only
    rw [if_neg (fun e => e.elim hij (fun e => e hk.symm))]

/-- **C132**, elements of vectors and arrays: taking one out leaves an empty one in its place, storing exchanges. -/
theorem C132_elements (g : Policy) (p : Prog) (i j k : Nat) (v x : Val) (es : List Val) (hv : get p.vars i = some v)
    (he : v.elems = some es) (hk : es[k]? = some x) :
    step g p (.take i k) = .ok (⟨p.heap, p.vars.set i (some (v.withElems (es.set k x.kind.empty))) ++ [some x]⟩, true) ∧
    ∀ y, i ≠ j → get p.vars j = some y → y.kind = x.kind →
      step g p (.store i k j) = .ok (⟨p.heap, (p.vars.set i (some (v.withElems (es.set k y)))).set j (some x)⟩, true) := by
  constructor
  · rw [step, hv]
    dsimp only
    rw [he]
    dsimp only
    rw [hk]
    rfl
  · intro y hij hy hkd
    rw [step, hv, hy]
    dsimp only
    rw [he]
    dsimp only
    rw [hk]
    dsimp only
    rw [if_neg (fun e => e.elim hij (fun e => e hkd.symm))]

/-- A manager that refuses the requests with these numbers. -/
def refusing (ks : List Nat) : Policy := fun k n => if k ∈ ks then .error .nomem else .ok ⟨false, List.replicate n 0⟩

/-- What is left at the end of a program: the variables' blocks, and the blocks given out. `none`: undefined. -/
def outcome (r : Outcome Prog) : Option (List (List Nat) × List Nat) :=
  match r with
  | .ok q => some (q.vars.map fun o => (o.map Val.blocks).getD [], q.heap.live)
  | _ => none

/-- A vector of vectors of strings: the inner vector (block 2) with two strings (0 and 1) is put into the outer one (block 3); clearing that
gives back all but its own block. The request for a third string is refused. -/
example : outcome (run (refusing [2]) init
    [.string [0x61#8], .string [0x62#8], .string [0x63#8], .vectorOf 32 [0, 1], .vector 24 4, .push 3 2]) =
      some ([[], [], [], [3, 2, 0, 1]], [3, 2, 1, 0]) ∧
    outcome (run (refusing [2]) init
    [.string [0x61#8], .string [0x62#8], .string [0x63#8], .vectorOf 32 [0, 1], .vector 24 4, .push 3 2, .clear 3]) =
      some ([[], [], [], [3]], [3]) := by decide +kernel

/-- A dictionary of strings; the memory for its values is refused the first time. -/
example : outcome (run (refusing [3]) init
    [.string [0x6B#8], .string [0x76#8], .dictionary 32 32 1, .dictionary 32 32 1, .put 2 0 1, .fetch 2 [0x6B#8]]) =
      some ([[], [], [3, 0, 4], [1]], [4, 3, 1, 0]) := by decide +kernel

/-- An array of one string, assigned `nullptr` and destroyed: undefined. -/
example : outcome (run (refusing []) init [.string [0x61#8], .arrayOf 32 [0], .null 1]) = some ([[], [1, 0]], [1]) ∧
    outcome (run (refusing []) init [.string [0x61#8], .arrayOf 32 [0], .null 1, .destroy 1]) = none := by decide +kernel

end Solace.Nested
