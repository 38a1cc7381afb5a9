import Verif.Lemmas.PathMemory
/- C123: path functions lose no memory, whenever it runs out. -/
namespace Solace.PathMem

/-! ### Parsing -/

def Parse.abs (a : Parse) : Path.Parse := ⟨a.err, a.vec.cap, a.vec.texts⟩

theorem prepare_owns (g : Policy) {alloc : Nat → Except Err MutView} {vec : Nat → Except Err Unit}
    (hp : Path.Plenty alloc vec) (a : Parse) (n : Nat) {h : Heap} {rest : List Nat} (ha : a.err = none)
    (ho : Owns h (a.vec.blocks ++ rest)) :
    ∃ h' a', prepare g h a n = .ok (h', a') ∧ Owns h' (a'.vec.blocks ++ rest) ∧ h.refused ≤ h'.refused ∧
      (a'.err = none → h'.refused = h.refused) ∧ (Fair g → a'.err ≠ none → h.refused < h'.refused) ∧
      (n < 2 ^ 59 → a'.err = none → a'.abs = a.abs.prepare vec n) := by
  rw [prepare, Path.Parse.prepare]
  by_cases hc : a.vec.cap = 0 ∧ n ≠ 0
  · obtain ⟨h1, r, e1, m1, k1⟩ := newVec_owns g n ho
    have hc' : a.abs.cap = 0 ∧ n ≠ 0 := hc
    simp only [if_pos hc, if_pos hc', e1, hp.vec]
    cases r with
    | error e =>
      exact ⟨h1, _, rfl, m1.1, m1.2.1, fun hx => (by cases hx), fun hf _ => m1.2.2 hf, fun _ hx => (by cases hx)⟩
    | ok v =>
      obtain ⟨h2, e2, o2, r2⟩ := dropVec_owns a.vec (h := h1) (rest := v.blocks ++ rest) (m1.1.congr fun b => by
        simp only [List.count_append]; omega)
      have hr := m1.2.1
      refine ⟨h2, { a with vec := v }, ?_, o2, by omega, fun _ => by omega, fun _ hx => absurd ha hx, fun hn _ => ?_⟩
      · dsimp only
        rw [e2, Outcome.bind_ok]; rfl
      · obtain ⟨k2, k3⟩ := k1 v rfl
        rw [cap_eq n hn] at k3
        simp only [Parse.abs, k3, VObj.texts, k2, List.map_nil]
  · have hc' : ¬ (a.abs.cap = 0 ∧ n ≠ 0) := hc
    simp only [if_neg hc, if_neg hc']
    exact ⟨h, a, rfl, ho, Nat.le_refl _, fun _ => rfl, fun _ hx => absurd ha hx, fun _ _ => rfl⟩

theorem add_owns (g : Policy) {alloc : Nat → Except Err MutView} {vec : Nat → Except Err Unit}
    (hp : Path.Plenty alloc vec) (a : Parse) (c : List Byte) (i n : Nat) {h : Heap} {rest : List Nat}
    (ho : Owns h (a.vec.blocks ++ rest)) :
    ∃ h' a', add g h a c i n = .ok (h', a') ∧ Owns h' (a'.vec.blocks ++ rest) ∧ h.refused ≤ h'.refused ∧
      (a.err ≠ none → a'.err ≠ none) ∧
      (a'.err = none → h'.refused = h.refused) ∧ (Fair g → a.err = none → a'.err ≠ none → h.refused < h'.refused) ∧
      (Fair g → a'.err = none → a'.abs = a.abs.add alloc c i n) := by
  rw [add, Path.Parse.add]
  by_cases hc : i + 1 = n ∧ c = []
  · simp only [if_pos hc]
    exact ⟨h, a, rfl, ho, Nat.le_refl _, id, fun _ => rfl, fun _ h1 h2 => absurd h1 h2, fun _ _ => rfl⟩
  · obtain ⟨h1, r, e1, m1⟩ := newStr_owns g c ho
    simp only [if_neg hc, Path.text_make_plenty hp]
    rw [e1, Outcome.bind_ok]
    cases r with
    | error e =>
      exact ⟨h1, { a with err := some e }, rfl, m1.1, m1.2.1, fun _ hx => (by cases hx), fun hx => (by cases hx),
        fun hf _ _ => m1.2.2 hf, fun _ hx => (by cases hx)⟩
    | ok o =>
      obtain ⟨h2, e2, o2, r2⟩ := push_drop_owns a.vec o m1.1
      have hr := m1.2.1
      refine ⟨h2, { a with vec := (pushBack a.vec o).1 }, ?_, o2, by omega, id, fun _ => by omega,
        fun _ h1 h2 => absurd h1 h2, fun hf _ => ?_⟩
      · dsimp only
        rw [e2, Outcome.bind_ok]; rfl
      · have ht := m1.2.2 hf
        simp only [Parse.abs, Path.Parse.push, pushBack, texts_length]
        split
        · rfl
        · simp only [VObj.texts, List.map_append, List.map_cons, List.map_nil, ht]

theorem onPieces_owns (g : Policy) {alloc : Nat → Except Err MutView} {vec : Nat → Except Err Unit}
    (hp : Path.Plenty alloc vec) (cs : List (List Byte × Nat × Nat)) (hn : ∀ c ∈ cs, c.2.2 < 2 ^ 59) :
    ∀ (a : Parse) {h : Heap} {rest : List Nat}, Owns h (a.vec.blocks ++ rest) →
    ∃ h' a', onPieces g h a cs = .ok (h', a') ∧ Owns h' (a'.vec.blocks ++ rest) ∧ h.refused ≤ h'.refused ∧
      (a.err ≠ none → a'.err ≠ none) ∧
      (a'.err = none → h'.refused = h.refused) ∧ (Fair g → a.err = none → a'.err ≠ none → h.refused < h'.refused) ∧
      (Fair g → a'.err = none → a'.abs = cs.foldl (fun a c => Path.onPiece alloc vec a c.1 c.2.1 c.2.2) a.abs) := by
  induction cs with
  | nil =>
    intro a h rest ho
    exact ⟨h, a, rfl, ho, Nat.le_refl _, id, fun _ => rfl, fun _ h1 h2 => absurd h1 h2, fun _ _ => rfl⟩
  | cons c cs ih =>
    intro a h rest ho
    rw [onPieces, onPiece]
    by_cases ha : a.err.isSome = true
    · rw [if_pos ha]
      obtain ⟨h1, a1, e1, o1, r1, x1, _, _, _⟩ := ih (fun c hc => hn c (List.mem_cons_of_mem _ hc)) a ho
      have hne : a.err ≠ none := by intro hx; rw [hx] at ha; cases ha
      refine ⟨h1, a1, ?_, o1, r1, x1, fun hx => absurd hx (x1 hne), fun _ hx => absurd hx hne,
        fun _ hx => absurd hx (x1 hne)⟩
      rw [Outcome.bind_ok]; exact e1
    · have ha' : a.err = none := by simpa using ha
      rw [if_neg ha]
      obtain ⟨h1, a1, e1, o1, r1, n1, f1, t1⟩ := prepare_owns g hp a c.2.2 ha' ho
      obtain ⟨h2, a2, e2, o2, r2, x2, n2, f2, t2⟩ := add_owns g hp a1 c.1 c.2.1 c.2.2 o1
      obtain ⟨h3, a3, e3, o3, r3, x3, n3, f3, t3⟩ := ih (fun c hc => hn c (List.mem_cons_of_mem _ hc)) a2 o2
      have hx1 : a3.err = none → a1.err = none := fun hx => by
        by_cases h1 : a1.err = none
        · exact h1
        · exact absurd hx (x3 (x2 h1))
      have hx2 : a3.err = none → a2.err = none := fun hx => by
        by_cases h1 : a2.err = none
        · exact h1
        · exact absurd hx (x3 h1)
      refine ⟨h3, a3, ?_, o3, by omega, fun hx => absurd ha' hx, fun hx => ?_, fun hf _ hx => ?_, fun hf hx => ?_⟩
      · rw [e1, Outcome.bind_ok]
        dsimp only
        rw [e2, Outcome.bind_ok]; exact e3
      · have := n1 (hx1 hx)
        have := n2 (hx2 hx)
        have := n3 hx
        omega
      · by_cases h1 : a1.err = none
        · by_cases h2 : a2.err = none
          · have := f3 hf h2 hx; omega
          · have := f2 hf h1 h2; omega
        · have := f1 hf h1; omega
      · rw [t3 hf hx, t2 hf (hx2 hx), t1 (hn c (List.mem_cons_self ..)) (hx1 hx)]
        have : a.abs.err.isSome = false := by show a.err.isSome = false; rw [ha']; rfl
        rw [List.foldl_cons, Path.onPiece, if_neg (by rw [this]; decide)]

theorem finish_owns (a : Parse) {h : Heap} {rest : List Nat} (ho : Owns h (a.vec.blocks ++ rest)) :
    ∃ h' r, finish h a = .ok (h', r) ∧ h'.refused = h.refused ∧
      match r with
      | .ok p => Owns h' (p.blocks ++ rest) ∧ a.err = none ∧ a.abs.finish = .ok p.view
      | .error _ => Owns h' rest ∧ a.err ≠ none := by
  rw [finish]
  cases ha : a.err with
  | some e =>
    obtain ⟨h1, e1, o1, r1⟩ := dropVec_owns a.vec ho
    refine ⟨h1, .error e, ?_, r1, o1, by intro hx; cases hx⟩
    dsimp only
    rw [e1, Outcome.bind_ok]; rfl
  | none =>
    have hab : a.abs.err = none := ha
    have htx : a.abs.comps = [] ↔ a.vec.elems = [] := by
      show a.vec.texts = [] ↔ _
      rw [VObj.texts, List.map_eq_nil_iff]
    dsimp only
    by_cases hn : a.vec.elems = []
    · rw [if_pos hn]
      obtain ⟨h1, e1, o1, r1⟩ := push_drop_owns a.vec .empty (h := h) (rest := rest) ho
      refine ⟨h1, .ok (ofVec (pushBack a.vec .empty).1), by rw [e1, Outcome.bind_ok]; rfl, r1, o1, rfl, ?_⟩
      simp only [Path.Parse.finish, hab, if_pos (htx.mpr hn)]
      simp only [PObj.view, ofVec, Path.ofVector, Parse.abs, Path.Parse.push, pushBack, texts_length, hn]
      split
      · rename_i hc
        simp only [VObj.texts, hn, List.map_nil]
      · simp [VObj.texts, hn, SObj.empty]
    · rw [if_neg hn]
      refine ⟨h, _, rfl, rfl, ho, rfl, ?_⟩
      simp only [Path.Parse.finish, hab, if_neg (fun hx => hn (htx.mp hx))]
      rfl

theorem split3Loop_counts (s d : List Byte) (dc fuel : Nat) : ∀ (to' from' i : Nat) (acc : List (List Byte × Nat × Nat)) r,
    (∀ c ∈ acc, c.2.2 < 2 ^ 59) → StringView.split3Loop s d dc fuel to' from' i acc = some r → ∀ c ∈ r.1, c.2.2 < 2 ^ 59 := by
  induction fuel with
  | zero => intro _ _ _ _ _ _ h; cases h
  | succ fuel ih =>
    intro to' from' i acc r hacc h
    rw [StringView.split3Loop] at h
    split at h
    · split at h
      · refine ih _ _ _ _ _ ?_ h
        intro c hc
        rcases List.mem_append.mp hc with hc | hc
        · exact hacc c hc
        · rw [List.mem_singleton.mp hc]
          exact Nat.lt_trans (wrap16_lt _) (by decide)
      · exact ih _ _ _ _ _ hacc h
    · cases h; exact hacc

theorem split3_counts (fuel : Nat) (s d : List Byte) (r) (h : StringView.split3 fuel s d = some r) :
    ∀ c ∈ r.1, c.2.2 < 2 ^ 59 := by
  rw [StringView.split3] at h
  split at h
  · cases h
  · split at h
    · cases h
    · rename_i hl
      cases h
      intro c hc
      rcases List.mem_append.mp hc with hc | hc
      · exact split3Loop_counts _ _ _ _ _ _ _ _ _ (by intro c hc; cases hc) hl c hc
      · rw [List.mem_singleton.mp hc]
        exact Nat.lt_trans (wrap16_lt _) (by decide)

theorem blocks_none : VObj.none.blocks = [] := rfl

/-- Memory that never runs out, to say what the functions give then. -/
def mem (n : Nat) : Except Err MutView := .ok ⟨false, List.replicate n 0⟩

theorem plenty_mem : Path.Plenty mem (fun _ => .ok ()) :=
  ⟨fun n v h => by cases h; exact ⟨List.length_replicate .., fun hx => by cases hx⟩, fun n => ⟨_, rfl, rfl⟩, fun _ => rfl⟩

/-- **C123**, parsing: whatever the manager refuses, `parse` gives nothing back that is not its own; the blocks given out
afterwards are those from before and those of the path it returns. It fails exactly if a request was refused, and otherwise
gives the path that it gives when memory never runs out. -/
theorem C123_parse (g : Policy) (h : Heap) (rest : List Nat) (ho : Owns h rest) (fuel : Nat) (s d : List Byte)
    (m) (hm : parse g h fuel s d = some m) :
    ∃ h' r, m = .ok (h', r) ∧
      Made g h rest PObj.blocks (fun p => ∀ alloc vec, Path.Plenty alloc vec → Path.parse alloc vec fuel s d = some (.ok p.view))
        h' r := by
  rw [parse] at hm
  cases hs : StringView.split3 fuel s d with
  | none => rw [hs] at hm; cases hm
  | some r =>
    obtain ⟨calls, n⟩ := r
    rw [hs] at hm
    cases hm
    have hc := split3_counts fuel s d _ hs
    obtain ⟨h1, a1, e1, o1, r1, x1, n1, f1, t1⟩ := onPieces_owns g plenty_mem calls hc ⟨none, .none⟩ (h := h) (rest := rest) ho
    obtain ⟨h2, r, e2, r2, m2⟩ := finish_owns a1 o1
    refine ⟨h2, r, ?_, ?_⟩
    · rw [e1, Outcome.bind_ok]; exact e2
    · cases r with
      | error e => exact ⟨m2.1, by omega, fun hf => by have := f1 hf rfl m2.2; omega⟩
      | ok p =>
        refine ⟨m2.1, by have := n1 m2.2.1; omega, fun hf alloc vec hp => ?_⟩
        obtain ⟨h1', a1', e1', _, _, _, _, _, t1'⟩ := onPieces_owns g hp calls hc ⟨none, .none⟩ (h := h) (rest := rest) ho
        rw [e1] at e1'
        cases e1'
        rw [Path.parse, hs]
        have := t1' hf m2.2.1
        rw [show (⟨none, VObj.none⟩ : Parse).abs = ⟨none, 0, []⟩ from rfl] at this
        dsimp only
        rw [← this, m2.2.2]

/-! ### The other functions -/

/-- **C123**, `makePath(string)`. -/
theorem C123_single (g : Policy) (h : Heap) (rest : List Nat) (ho : Owns h rest) (s : List Byte) :
    ∃ h' r, single g h s = .ok (h', r) ∧ Made g h rest PObj.blocks (fun p => p.view = ⟨false, [s]⟩) h' r := by
  obtain ⟨h1, r, e1, m1⟩ := newStr_owns g s ho
  rw [single, e1, Outcome.bind_ok]
  cases r with
  | error e => exact ⟨h1, .error e, rfl, m1⟩
  | ok o =>
    dsimp only
    have hr := m1.2.1
    cases ha : allocate g h1 32 with
    | mk h2 r =>
      cases r with
      | error e =>
        obtain ⟨o2, r2, _⟩ := allocate_error m1.1 ha
        obtain ⟨h3, e3, o3, r3⟩ := dropStr_owns o o2
        refine ⟨h3, .error e, ?_, o3, by omega, fun _ => by omega⟩
        dsimp only
        rw [e3, Outcome.bind_ok]; rfl
      | ok bv =>
        obtain ⟨b, v⟩ := bv
        obtain ⟨o2, r2, _⟩ := allocate_ok m1.1 ha
        refine ⟨h2, .ok ⟨some b, false, [o]⟩, rfl, o2.congr fun c => ?_, by omega, fun hf => ?_⟩
        · simp only [PObj.blocks, strBlocks, List.flatMap_cons, List.flatMap_nil, List.append_nil, Option.toList_some,
            List.cons_append, List.nil_append]
        · show (⟨false, [o.text]⟩ : Path) = _
          rw [m1.2.2 hf]

/-- **C123**, the root: it is there, or the path without components and without memory. -/
theorem C123_root (g : Policy) (h : Heap) (rest : List Nat) (ho : Owns h rest) :
    ∃ h' p, root g h = .ok (h', p) ∧ Owns h' (p.blocks ++ rest) ∧ h.refused ≤ h'.refused ∧
      (Fair g → (h'.refused = h.refused ∧ p.view = ⟨false, [[]]⟩) ∨ (h.refused < h'.refused ∧ p = .none)) := by
  obtain ⟨h1, r, e1, m1⟩ := C123_single g h rest ho []
  rw [root, e1, Outcome.bind_ok]
  cases r with
  | error e => exact ⟨h1, .none, rfl, m1.1, m1.2.1, fun hf => .inr ⟨m1.2.2 hf, rfl⟩⟩
  | ok p => exact ⟨h1, p, rfl, m1.1, Nat.le_of_eq m1.2.1.symm, fun hf => .inl ⟨m1.2.1, m1.2.2 hf⟩⟩

theorem ofVec_blocks (v : VObj) : (ofVec v).blocks = v.blocks := rfl

theorem ofVec_view (v : VObj) : (ofVec v).view = Path.ofVector v.cap v.texts := rfl

theorem view_length (p : PObj) : p.view.comps.length = p.elems.length := by rw [PObj.view, List.length_map]

/-- **C123**, `normalize` (partial: the path is the right one when nothing is refused; otherwise see `C123_normalize_wrong`): no
block is lost; and when no request is refused the path is the one given when memory never runs
out. (The number of components is below 2^59: each takes 32 bytes.) -/
theorem C123_normalize_partial (g : Policy) (h : Heap) (rest : List Nat) (ho : Owns h rest) (p : PObj) :
    ∃ h' q, normalize g h p = .ok (h', q) ∧ Owns h' (q.blocks ++ rest) ∧ h.refused ≤ h'.refused ∧
      (Fair g → p.elems.length < 2 ^ 59 → h'.refused = h.refused →
        ∀ alloc vec, Path.Plenty alloc vec → q.view = Path.normalize alloc vec p.view) := by
  obtain ⟨h1, r, e1, m1, k1⟩ := newVec_owns g p.elems.length ho
  rw [normalize, e1]
  cases r with
  | error e =>
    refine ⟨h1, .none, rfl, m1.1, m1.2.1, fun hf _ hr => ?_⟩
    have := m1.2.2 hf
    omega
  | ok v =>
    obtain ⟨k2, k3⟩ := k1 v rfl
    have hr := m1.2.1
    obtain ⟨h2, v2, e2, o2, r2, c2, _⟩ := normalizeLoop_owns g plenty_mem (p.elems.map SObj.text) v m1.1
    refine ⟨h2, ofVec v2, ?_, o2, by omega, fun hf hl hr2 alloc vec hp => ?_⟩
    · dsimp only
      rw [e2, Outcome.bind_ok]; rfl
    · obtain ⟨h2', v2', e2', _, _, _, t2⟩ := normalizeLoop_owns g hp (p.elems.map SObj.text) v m1.1
      rw [e2] at e2'
      cases e2'
      rw [cap_eq _ hl] at k3
      have ht := t2 hf (by omega) (by rw [k2, k3, List.length_map, List.length_nil]; omega)
      rw [Path.normalize, hp.vec, ofVec_view, ht, c2, k3, view_length, VObj.texts, k2]
      rfl

/-- **C123**, `getParent` (partial: the path is the right one when nothing is refused; otherwise components may be missing,
`C123_getParent_wrong`): no block is lost, also when it throws; it throws only when memory runs out. -/
theorem C123_getParent_partial (g : Policy) (h : Heap) (rest : List Nat) (ho : Owns h rest) (p : PObj) :
    ∃ h' r, getParent g h p = .ok (h', r) ∧ h.refused ≤ h'.refused ∧
      match r with
      | none => Owns h' rest ∧ (Fair g → h.refused < h'.refused)
      | some q => Owns h' (q.blocks ++ rest) ∧
          (Fair g → q = .none ∨ q.view.comps.Sublist p.view.comps) ∧
          (Fair g → h'.refused = h.refused → 2 ≤ p.elems.length → p.elems.length < 2 ^ 59 → q.view = ⟨false, p.view.comps.dropLast⟩) ∧
          (Fair g → h'.refused = h.refused → p.elems.length < 2 → q.view.comps = p.view.comps) := by
  rw [getParent]
  by_cases hc : p.elems.length < 2
  · rw [if_pos hc, copyPath]
    cases ha : allocate g h (wrap64 (p.elems.length * 32)) with
    | mk h1 r =>
      cases r with
      | error e =>
        obtain ⟨o1, r1, _⟩ := allocate_error ho ha
        exact ⟨h1, some .none, rfl, by omega, o1, fun _ => .inl rfl, fun _ hr => by omega, fun _ hr => by omega⟩
      | ok bv =>
        obtain ⟨b, v⟩ := bv
        obtain ⟨o1, r1, _⟩ := allocate_ok ho ha
        obtain ⟨h2, r, e2, r2, m2⟩ := copyArray_owns g (p.elems.map SObj.text) [] (h := h1) (rest := b :: rest) o1
        dsimp only
        rw [e2, Outcome.bind_ok]
        cases r with
        | none =>
          obtain ⟨h3, e3, o3, r3⟩ := free_owns m2.1
          refine ⟨h3, none, ?_, by omega, o3, fun hf => by have := m2.2 hf; omega⟩
          dsimp only
          rw [e3, Outcome.bind_ok]; rfl
        | some os =>
          refine ⟨h2, some _, rfl, by omega, m2.1.congr fun c => ?_, fun hf => .inr ?_, fun _ _ h2 => by omega, fun hf _ _ => ?_⟩
          · simp only [PObj.blocks, Option.toList_some, List.count_append, List.count_cons, List.count_nil]
            omega
          · show (os.map SObj.text).Sublist _
            rw [m2.2.2 hf]; exact List.Sublist.refl _
          · show os.map SObj.text = _
            rw [m2.2.2 hf]; rfl
  · rw [if_neg hc]
    obtain ⟨h1, r, e1, m1, k1⟩ := newVec_owns g (p.elems.length - 1) ho
    rw [e1]
    cases r with
    | error e =>
      exact ⟨h1, some .none, rfl, m1.2.1, m1.1, fun _ => .inl rfl, fun hf hr => by have := m1.2.2 hf; omega,
        fun _ _ h2 => absurd h2 hc⟩
    | ok v =>
      obtain ⟨k2, k3⟩ := k1 v rfl
      have hr := m1.2.1
      obtain ⟨h2, v2, e2, o2, r2, c2, s2, t2⟩ := copyAll_owns g ((p.elems.map SObj.text).take (p.elems.length - 1)) v m1.1
      have hv : v.texts = [] := by rw [VObj.texts, k2]; rfl
      refine ⟨h2, some (ofVec v2), ?_, by omega, o2, fun hf => .inr ?_, fun hf hr2 hl2 hl => ?_, fun _ _ h2 => absurd h2 hc⟩
      · dsimp only
        rw [e2, Outcome.bind_ok]; rfl
      · obtain ⟨l, hl, ht⟩ := s2 hf
        rw [ofVec_view, ht, hv, List.nil_append]
        exact hl.trans (List.take_sublist _ _)
      · rw [cap_eq _ (by omega)] at k3
        have ht := t2 hf (by omega) (by rw [k2, k3, List.length_take, List.length_map, List.length_nil]; omega)
        have hne : (v2.cap == 0) = false := by rw [c2, k3, beq_eq_false_iff_ne]; omega
        rw [ofVec_view, ht, hv, List.nil_append, Path.ofVector, hne, PObj.view, List.dropLast_eq_take, List.length_map]

/-- **C123**, `subpath` (partial, likewise): it ends the program when there is no memory for the array; otherwise no block is lost. -/
theorem C123_subpath_partial (g : Policy) (h : Heap) (rest : List Nat) (ho : Owns h rest) (p : PObj) (a b : Nat) :
    (subpath g h p a b = .terminate ∧ ∃ e n, g h.asked n = .error e) ∨
    ∃ h' q, subpath g h p a b = .ok (h', q) ∧ Owns h' (q.blocks ++ rest) ∧ h.refused ≤ h'.refused ∧
      (Fair g → q.view.comps.Sublist ((p.view.comps.take b).drop a)) ∧
      (Fair g → p.elems.length < 2 ^ 59 → h'.refused = h.refused → q.view.comps = (p.view.comps.take b).drop a) := by
  rw [subpath]
  dsimp only
  generalize hf : min a p.elems.length = f
  generalize ht : max f (min b p.elems.length) = t
  have hspec : ((p.elems.map SObj.text).drop f).take (t - f) = (p.view.comps.take b).drop a := by
    rw [PObj.view]
    dsimp only
    generalize hx : p.elems.map SObj.text = xs
    have hlen : p.elems.length = xs.length := by rw [← hx, List.length_map]
    rw [hlen] at hf ht
    rw [List.drop_take]
    by_cases h1 : a ≤ xs.length
    · have : f = a := by omega
      subst this
      by_cases h2 : b ≤ xs.length
      · have : t - f = b - f := by omega
        rw [this]
      · rw [List.take_of_length_le, List.take_of_length_le] <;> rw [List.length_drop] <;> omega
    · rw [List.drop_eq_nil_of_le (show xs.length ≤ f by omega), List.drop_eq_nil_of_le (show xs.length ≤ a by omega)]
      rw [List.take_nil, List.take_nil]
  cases hv : newVec g h (t - f) with
  | mk h1 r =>
    cases r with
    | error e =>
      refine .inl ⟨rfl, ?_⟩
      rw [newVec] at hv
      cases ha : allocate g h (wrap64 ((t - f) * 32)) with
      | mk h1 r =>
        cases r with
        | error e => exact ⟨e, _, (allocate_error ho ha).2.2⟩
        | ok x => rw [ha] at hv; cases hv
    | ok v =>
      right
      obtain ⟨h1', r', e1, m1, k1⟩ := newVec_owns g (t - f) ho
      rw [hv] at e1
      cases e1
      obtain ⟨k2, k3⟩ := k1 v rfl
      have hr := m1.2.1
      obtain ⟨h2, v2, e2, o2, r2, c2, s2, t2⟩ := copyAll_owns g (((p.elems.map SObj.text).drop f).take (t - f)) v m1.1
      have hv : v.texts = [] := by rw [VObj.texts, k2]; rfl
      refine ⟨h2, ofVec v2, ?_, o2, by omega, fun hf => ?_, fun hf hl hr2 => ?_⟩
      · dsimp only
        rw [e2, Outcome.bind_ok]; rfl
      · obtain ⟨l, hl, ht⟩ := s2 hf
        rw [ofVec_view, ht, hv, List.nil_append, ← hspec]
        exact hl
      · rw [cap_eq _ (by omega)] at k3
        have ht := t2 hf (by omega) (by rw [k2, k3, List.length_take, List.length_nil]; omega)
        rw [ofVec_view, ht, hv, List.nil_append, ← hspec]
        rfl

theorem newJoin_owns (g : Policy) {h : Heap} (d : List Byte) (cs : List (List Byte)) {rest : List Nat} (ho : Owns h rest) :
    ∃ h' r, newJoin g h d cs = .ok (h', r) ∧
      match r with
      | .ok o => Owns h' (o.blocks ++ rest)
      | .error _ => Owns h' rest := by
  rw [newJoin]
  cases ha : allocate g h (Str.joinLength d cs) with
  | mk h1 r =>
    cases r with
    | error e => exact ⟨h1, .error e, rfl, (allocate_error ho ha).1⟩
    | ok bv =>
      obtain ⟨b, v⟩ := bv
      obtain ⟨o1, _, _⟩ := allocate_ok ho ha
      dsimp only
      cases hw : Str.writeJoin (.ofBuffer v.bytes) d cs with
      | mk w r =>
        cases r with
        | error e =>
          obtain ⟨h2, e2, o2, _⟩ := free_owns o1
          refine ⟨h2, .error e, ?_, o2⟩
          dsimp only
          rw [e2, Outcome.bind_ok]; rfl
        | ok _ => exact ⟨h1, .ok _, rfl, o1⟩

/-- **C123**, `toString`: no block is lost. It ends the program exactly for a path with a buffer but no components, as with
memory (C51). -/
theorem C123_toString (g : Policy) (h : Heap) (rest : List Nat) (ho : Owns h rest) (p : PObj) (d : List Byte) :
    (toString g h p d = .terminate ∧ p.noBuffer = false ∧ p.elems = []) ∨
    ∃ h' o, toString g h p d = .ok (h', o) ∧ Owns h' (o.blocks ++ rest) := by
  rw [toString]
  have hd : ∀ abs, ∃ h' o, (do
      let (h1, r) ← if abs && p.elems.length == 1 then newStr g h d else newJoin g h d (p.elems.map SObj.text)
      match r with
      | .ok o => pure (h1, o)
      | .error _ => pure (h1, .empty) : Outcome (Heap × SObj)) = .ok (h', o) ∧ Owns h' (o.blocks ++ rest) := by
    intro abs
    split
    · obtain ⟨h1, r, e1, m1⟩ := newStr_owns g d ho
      rw [e1, Outcome.bind_ok]
      cases r with
      | ok o => exact ⟨h1, o, rfl, m1.1⟩
      | error e => exact ⟨h1, .empty, rfl, m1.1⟩
    · obtain ⟨h1, r, e1, m1⟩ := newJoin_owns g d (p.elems.map SObj.text) ho
      rw [e1, Outcome.bind_ok]
      cases r with
      | ok o => exact ⟨h1, o, rfl, m1⟩
      | error e => exact ⟨h1, .empty, rfl, m1⟩
  cases hb : p.noBuffer with
  | true =>
    right
    have : p.view.isAbsolute = .ok false := by rw [PObj.view, hb]; rfl
    rw [this, Outcome.bind_ok]
    exact hd false
  | false =>
    cases he : p.elems with
    | nil =>
      left
      have : p.view.isAbsolute = .terminate := by rw [PObj.view, hb, he]; rfl
      rw [this]
      exact ⟨rfl, rfl, rfl⟩
    | cons o os =>
      right
      have : p.view.isAbsolute = .ok (o.text == []) := by rw [PObj.view, hb, he]; rfl
      rw [this, Outcome.bind_ok, ← he]
      exact hd _

end Solace.PathMem
