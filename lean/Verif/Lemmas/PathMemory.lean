import Verif.Spec.PathMemory
import Verif.Lemmas.Path
/- Helper lemmas for the memory of paths: ownership of blocks by strings, vectors and paths. -/
namespace Solace.PathMem

theorem Owns.congr {h : Heap} {bs cs : List Nat} (ho : Owns h bs) (hc : ∀ b, bs.count b = cs.count b) : Owns h cs :=
  ⟨fun b => (ho.count b).trans (hc b), ho.nodup, ho.fresh⟩

theorem allocate_ok {g : Policy} {h h1 : Heap} {n b : Nat} {v : MutView} {rest : List Nat} (ho : Owns h rest)
    (he : allocate g h n = (h1, .ok (b, v))) :
    Owns h1 (b :: rest) ∧ h1.refused = h.refused ∧ g h.asked n = .ok v := by
  unfold allocate at he
  split at he
  · cases he
  · rename_i w hw
    cases he
    refine ⟨⟨?_, ?_, ?_⟩, rfl, hw⟩
    · intro c
      simp only [List.count_cons, ho.count]
    · exact List.nodup_cons.mpr ⟨fun hm => Nat.lt_irrefl _ (ho.fresh _ hm), ho.nodup⟩
    · intro c hc
      rcases List.mem_cons.mp hc with rfl | hc
      · exact Nat.lt_succ_self _
      · exact Nat.lt_succ_of_lt (ho.fresh _ hc)

theorem allocate_error {g : Policy} {h h1 : Heap} {n : Nat} {e : Err} {rest : List Nat} (ho : Owns h rest)
    (he : allocate g h n = (h1, .error e)) : Owns h1 rest ∧ h1.refused = h.refused + 1 ∧ g h.asked n = .error e := by
  unfold allocate at he
  split at he
  · rename_i w hw
    cases he
    exact ⟨⟨ho.count, ho.nodup, ho.fresh⟩, rfl, hw⟩
  · cases he

theorem free_owns {h : Heap} {b : Nat} {rest : List Nat} (ho : Owns h (b :: rest)) :
    ∃ h', free h b = .ok h' ∧ Owns h' rest ∧ h'.refused = h.refused := by
  have hm : b ∈ h.live := by
    rw [← List.count_pos_iff, ho.count, List.count_cons_self]
    exact Nat.succ_pos _
  refine ⟨{ h with live := h.live.erase b }, if_pos hm, ⟨?_, ho.nodup.erase _, ?_⟩, rfl⟩
  · intro c
    rw [List.count_erase, ho.count, List.count_cons]
    split <;> omega
  · intro c hc
    exact ho.fresh _ (List.mem_of_mem_erase hc)

theorem freeOpt_owns {h : Heap} (b : Option Nat) {rest : List Nat} (ho : Owns h (b.toList ++ rest)) :
    ∃ h', freeOpt h b = .ok h' ∧ Owns h' rest ∧ h'.refused = h.refused := by
  cases b with
  | none => exact ⟨h, rfl, ho, rfl⟩
  | some b => exact free_owns ho

theorem dropStr_owns {h : Heap} (o : SObj) {rest : List Nat} (ho : Owns h (o.blocks ++ rest)) :
    ∃ h', dropStr h o = .ok h' ∧ Owns h' rest ∧ h'.refused = h.refused := freeOpt_owns o.block ho

theorem dropStrs_owns (os : List SObj) : ∀ {h : Heap} {rest : List Nat}, Owns h (strBlocks os ++ rest) →
    ∃ h', dropStrs h os = .ok h' ∧ Owns h' rest ∧ h'.refused = h.refused := by
  induction os with
  | nil => intro h rest ho; exact ⟨h, rfl, ho, rfl⟩
  | cons o os ih =>
    intro h rest ho
    obtain ⟨h1, e1, o1, r1⟩ := dropStr_owns o (rest := strBlocks os ++ rest)
      (by simpa only [strBlocks, List.flatMap_cons, List.append_assoc] using ho)
    obtain ⟨h2, e2, o2, r2⟩ := ih o1
    exact ⟨h2, by rw [dropStrs, e1, Outcome.bind_ok, e2], o2, r2.trans r1⟩

theorem dropParts_owns (b : Option Nat) (os : List SObj) {h : Heap} {rest : List Nat}
    (ho : Owns h ((b.toList ++ strBlocks os) ++ rest)) :
    ∃ h', (dropStrs h os >>= fun h1 => freeOpt h1 b) = .ok h' ∧ Owns h' rest ∧ h'.refused = h.refused := by
  obtain ⟨h1, e1, o1, r1⟩ := dropStrs_owns os (h := h) (rest := b.toList ++ rest)
    (ho.congr fun c => by simp only [List.count_append]; omega)
  obtain ⟨h2, e2, o2, r2⟩ := freeOpt_owns b o1
  exact ⟨h2, by rw [e1, Outcome.bind_ok, e2], o2, r2.trans r1⟩

theorem dropVec_owns (v : VObj) {h : Heap} {rest : List Nat} (ho : Owns h (v.blocks ++ rest)) :
    ∃ h', dropVec h v = .ok h' ∧ Owns h' rest ∧ h'.refused = h.refused := dropParts_owns v.block v.elems ho

theorem dropPath_owns (p : PObj) {h : Heap} {rest : List Nat} (ho : Owns h (p.blocks ++ rest)) :
    ∃ h', dropPath h p = .ok h' ∧ Owns h' rest ∧ h'.refused = h.refused := dropParts_owns p.block p.elems ho

theorem newStr_owns (g : Policy) {h : Heap} (s : List Byte) {rest : List Nat} (ho : Owns h rest) :
    ∃ h' r, newStr g h s = .ok (h', r) ∧ Made g h rest SObj.blocks (fun o => o.text = s) h' r := by
  rw [newStr]
  cases ha : allocate g h s.length with
  | mk h1 r =>
    cases r with
    | error e =>
      obtain ⟨o1, r1, _⟩ := allocate_error ho ha
      exact ⟨h1, .error e, rfl, o1, by omega, fun _ => by omega⟩
    | ok bv =>
      obtain ⟨b, v⟩ := bv
      obtain ⟨o1, r1, hg⟩ := allocate_ok ho ha
      dsimp only
      cases hw : v.write s with
      | mk v' r =>
        cases r with
        | error e =>
          obtain ⟨h2, e2, o2, r2⟩ := free_owns o1
          refine ⟨h2, .error e, ?_, o2, by omega, fun hf => ?_⟩
          · dsimp only
            rw [e2, Outcome.bind_ok]; rfl
          · obtain ⟨hn, hl⟩ := hf _ _ _ hg
            exfalso
            simp only [MutView.write, hn, Bool.false_eq_true, if_false] at hw
            rw [if_neg (by omega)] at hw
            cases hw
        | ok _ =>
          refine ⟨h1, .ok ⟨some b, MemoryView.slice v'.bytes 0 s.length⟩, rfl, o1, r1, fun hf => ?_⟩
          obtain ⟨hn, hl⟩ := hf _ _ _ hg
          simp only [MutView.write, hn, Bool.false_eq_true, if_false] at hw
          rw [if_neg (by omega)] at hw
          cases hw
          have hd : v.bytes.drop s.length = [] := List.drop_eq_nil_of_le (by omega)
          show MemoryView.slice (s ++ v.bytes.drop s.length) 0 s.length = s
          rw [hd, List.append_nil, Solace.slice_eq]
          simp

def VObj.texts (v : VObj) : List (List Byte) := v.elems.map SObj.text

theorem newVec_owns (g : Policy) {h : Heap} (n : Nat) {rest : List Nat} (ho : Owns h rest) :
    ∃ h' r, newVec g h n = (h', r) ∧
      Made g h rest VObj.blocks (fun _ => True) h' r ∧ ∀ v, r = .ok v → v.elems = [] ∧ v.cap = wrap64 (n * 32) / 32 := by
  rw [newVec]
  cases ha : allocate g h (wrap64 (n * 32)) with
  | mk h1 r =>
    cases r with
    | error e =>
      obtain ⟨o1, r1, _⟩ := allocate_error ho ha
      exact ⟨h1, .error e, rfl, ⟨o1, by omega, fun _ => by omega⟩, fun v hv => by cases hv⟩
    | ok bv =>
      obtain ⟨b, v⟩ := bv
      obtain ⟨o1, r1, hg⟩ := allocate_ok ho ha
      exact ⟨h1, .ok _, rfl, ⟨o1, r1, fun _ => trivial⟩, fun v hv => by cases hv; exact ⟨rfl, rfl⟩⟩

theorem cap_eq (n : Nat) (hn : n < 2 ^ 59) : wrap64 (n * 32) / 32 = n := by
  rw [wrap64_of_lt (by omega)]; omega

theorem pushBack_count (v : VObj) (o : SObj) (b : Nat) :
    (pushBack v o).1.blocks.count b + (pushBack v o).2.blocks.count b = v.blocks.count b + o.blocks.count b := by
  rw [pushBack]
  split
  · rfl
  · simp only [VObj.blocks, strBlocks, List.flatMap_append, List.flatMap_cons, List.flatMap_nil, List.append_nil,
      List.count_append]
    have : SObj.empty.blocks = [] := rfl
    rw [this, List.count_nil]; omega

theorem pushBack_cap (v : VObj) (o : SObj) : (pushBack v o).1.cap = v.cap := by
  rw [pushBack]; split <;> rfl

theorem pushBack_texts (v : VObj) (o : SObj) (hl : v.elems.length < v.cap) :
    (pushBack v o).1.texts = v.texts ++ [o.text] ∧ (pushBack v o).1.elems.length = v.elems.length + 1 := by
  rw [pushBack, if_neg (by omega)]
  simp [VObj.texts]

theorem pushBack_sub (v : VObj) (o : SObj) :
    (pushBack v o).1.texts = v.texts ∨ (pushBack v o).1.texts = v.texts ++ [o.text] := by
  rw [pushBack]
  split
  · exact .inl rfl
  · right; simp [VObj.texts]

/-- Append a string and end what is left of it. -/
theorem push_drop_owns (v : VObj) (o : SObj) {h : Heap} {rest : List Nat} (ho : Owns h (o.blocks ++ (v.blocks ++ rest))) :
    ∃ h', dropStr h (pushBack v o).2 = .ok h' ∧ Owns h' ((pushBack v o).1.blocks ++ rest) ∧ h'.refused = h.refused := by
  refine dropStr_owns _ (ho.congr fun b => ?_)
  have := pushBack_count v o b
  simp only [List.count_append]
  omega

theorem popBack_owns (v : VObj) {h : Heap} {rest : List Nat} (ho : Owns h (v.blocks ++ rest)) :
    ∃ h' v', popBack h v = .ok (h', v') ∧ Owns h' (v'.blocks ++ rest) ∧ h'.refused = h.refused ∧ v'.cap = v.cap ∧
      v'.texts = v.texts.dropLast := by
  rw [popBack]
  cases hl : v.elems.getLast? with
  | none =>
    have : v.elems = [] := List.getLast?_eq_none_iff.mp hl
    exact ⟨h, v, rfl, ho, rfl, rfl, by rw [VObj.texts, this]; rfl⟩
  | some o =>
    have hs : v.elems = v.elems.dropLast ++ [o] := by
      obtain ⟨l, hl'⟩ := List.getLast?_eq_some_iff.mp hl
      rw [hl', List.dropLast_concat]
    obtain ⟨h1, e1, o1, r1⟩ := dropStr_owns o (h := h) (rest := ({ v with elems := v.elems.dropLast } : VObj).blocks ++ rest)
      (ho.congr fun b => by
        have : v.blocks.count b = v.block.toList.count b + (strBlocks v.elems.dropLast).count b + o.blocks.count b := by
          rw [VObj.blocks, hs, strBlocks, List.flatMap_append, List.dropLast_concat]
          simp only [strBlocks, List.count_append, List.flatMap_cons, List.flatMap_nil, List.append_nil]
          omega
        rw [List.count_append, this]
        simp only [List.count_append, VObj.blocks]
        omega)
    refine ⟨h1, { v with elems := v.elems.dropLast }, ?_, o1, r1, rfl, ?_⟩
    · dsimp only
      rw [e1, Outcome.bind_ok]; rfl
    · rw [VObj.texts, VObj.texts, List.map_dropLast]

theorem copyTo_owns (g : Policy) (v : VObj) (c : List Byte) {h : Heap} {rest : List Nat} (ho : Owns h (v.blocks ++ rest)) :
    ∃ h' v', copyTo g h v c = .ok (h', v') ∧ Owns h' (v'.blocks ++ rest) ∧ h.refused ≤ h'.refused ∧ v'.cap = v.cap ∧
      (Fair g → v'.texts = v.texts ∨ v'.texts = v.texts ++ [c]) ∧
      (Fair g → h'.refused = h.refused → v.elems.length < v.cap → v'.texts = v.texts ++ [c]) := by
  obtain ⟨h1, r, e1, m1⟩ := newStr_owns g c ho
  rw [copyTo, e1, Outcome.bind_ok]
  cases r with
  | error e =>
    exact ⟨h1, v, rfl, m1.1, m1.2.1, rfl, fun _ => .inl rfl, fun hf hr => by have := m1.2.2 hf; omega⟩
  | ok o =>
    obtain ⟨h2, e2, o2, r2⟩ := push_drop_owns v o m1.1
    have hr1 := m1.2.1
    refine ⟨h2, (pushBack v o).1, ?_, o2, by omega, pushBack_cap v o, fun hf => ?_, fun hf _ hl => ?_⟩
    · dsimp only
      rw [e2, Outcome.bind_ok]; rfl
    · have := pushBack_sub v o
      rwa [m1.2.2 hf] at this
    · have := (pushBack_texts v o hl).1
      rwa [m1.2.2 hf] at this

theorem texts_length (v : VObj) : v.texts.length = v.elems.length := by rw [VObj.texts, List.length_map]

theorem copyAll_owns (g : Policy) (cs : List (List Byte)) : ∀ (v : VObj) {h : Heap} {rest : List Nat},
    Owns h (v.blocks ++ rest) →
    ∃ h' v', copyAll g h v cs = .ok (h', v') ∧ Owns h' (v'.blocks ++ rest) ∧ h.refused ≤ h'.refused ∧ v'.cap = v.cap ∧
      (Fair g → ∃ l, l.Sublist cs ∧ v'.texts = v.texts ++ l) ∧
      (Fair g → h'.refused = h.refused → v.elems.length + cs.length ≤ v.cap → v'.texts = v.texts ++ cs) := by
  induction cs with
  | nil =>
    intro v h rest ho
    exact ⟨h, v, rfl, ho, Nat.le_refl _, rfl, fun _ => ⟨[], .slnil, (List.append_nil _).symm⟩,
      fun _ _ _ => (List.append_nil _).symm⟩
  | cons c cs ih =>
    intro v h rest ho
    obtain ⟨h1, v1, e1, o1, r1, c1, s1, t1⟩ := copyTo_owns g v c ho
    obtain ⟨h2, v2, e2, o2, r2, c2, s2, t2⟩ := ih v1 o1
    refine ⟨h2, v2, ?_, o2, by omega, c2.trans c1, fun hf => ?_, fun hf hr hl => ?_⟩
    · rw [copyAll, e1, Outcome.bind_ok]; exact e2
    · obtain ⟨l, hl, hv⟩ := s2 hf
      rcases s1 hf with h | h
      · exact ⟨l, hl.cons _, by rw [hv, h]⟩
      · exact ⟨c :: l, hl.cons_cons _, by rw [hv, h, List.append_assoc]; rfl⟩
    · rw [List.length_cons] at hl
      have ht := t1 hf (by omega) (by omega)
      have hlen : v1.elems.length = v.elems.length + 1 := by
        rw [← texts_length, ht, List.length_append, texts_length]; rfl
      rw [t2 hf (by omega) (by omega), ht, List.append_assoc]; rfl

theorem normalizeLoop_owns (g : Policy) {alloc : Nat → Except Err MutView} {vec : Nat → Except Err Unit}
    (hp : Path.Plenty alloc vec) (cs : List (List Byte)) : ∀ (v : VObj) {h : Heap} {rest : List Nat},
    Owns h (v.blocks ++ rest) →
    ∃ h' v', normalizeLoop g h v cs = .ok (h', v') ∧ Owns h' (v'.blocks ++ rest) ∧ h.refused ≤ h'.refused ∧ v'.cap = v.cap ∧
      (Fair g → h'.refused = h.refused → v.elems.length + cs.length ≤ v.cap →
        v'.texts = Path.normalizeLoop alloc v.cap v.texts cs) := by
  induction cs with
  | nil =>
    intro v h rest ho
    exact ⟨h, v, rfl, ho, Nat.le_refl _, rfl, fun _ _ _ => rfl⟩
  | cons c cs ih =>
    intro v h rest ho
    rw [normalizeLoop, Path.normalizeLoop]
    by_cases h1 : StringView.equals c Path.selfRef = true
    · simp only [h1, if_true]
      obtain ⟨h2, v2, e2, o2, r2, c2, t2⟩ := ih v ho
      exact ⟨h2, v2, e2, o2, r2, c2, fun hf hr hl => t2 hf hr (by rw [List.length_cons] at hl; omega)⟩
    · simp only [h1, if_false, texts_length, Bool.false_eq_true]
      by_cases h2 : (StringView.equals c Path.parentRef && decide (0 < v.elems.length)) = true
      · simp only [h2, if_true]
        obtain ⟨h3, v3, e3, o3, r3, c3, t3⟩ := popBack_owns v ho
        obtain ⟨h4, v4, e4, o4, r4, c4, t4⟩ := ih v3 o3
        refine ⟨h4, v4, ?_, o4, by omega, c4.trans c3, fun hf hr hl => ?_⟩
        · rw [e3, Outcome.bind_ok]; exact e4
        · have hlen : v3.elems.length = v.elems.length - 1 := by
            rw [← texts_length, t3, List.length_dropLast, texts_length]
          rw [List.length_cons] at hl
          rw [t4 hf (by omega) (by omega), t3, c3]
      · simp only [h2, if_false, Bool.false_eq_true]
        obtain ⟨h3, v3, e3, o3, r3, c3, _, t3⟩ := copyTo_owns g v c ho
        obtain ⟨h4, v4, e4, o4, r4, c4, t4⟩ := ih v3 o3
        refine ⟨h4, v4, ?_, o4, by omega, c4.trans c3, fun hf hr hl => ?_⟩
        · rw [e3, Outcome.bind_ok]; exact e4
        · rw [List.length_cons] at hl
          have ht := t3 hf (by omega) (by omega)
          have hlen : v3.elems.length = v.elems.length + 1 := by
            rw [← texts_length, ht, List.length_append, texts_length]; rfl
          rw [t4 hf (by omega) (by omega), ht, c3, Path.copyTo, Path.text_make_plenty hp]
          have : ¬ v.cap ≤ v.texts.length := by rw [texts_length]; omega
          simp only [this, if_false]

theorem copyArray_owns (g : Policy) (cs : List (List Byte)) : ∀ (done : List SObj) {h : Heap} {rest : List Nat},
    Owns h (strBlocks done ++ rest) →
    ∃ h' r, copyArray g h done cs = .ok (h', r) ∧ h.refused ≤ h'.refused ∧
      match r with
      | some os => Owns h' (strBlocks os ++ rest) ∧ h'.refused = h.refused ∧
          (Fair g → os.map SObj.text = done.map SObj.text ++ cs)
      | none => Owns h' rest ∧ (Fair g → h.refused < h'.refused) := by
  induction cs with
  | nil =>
    intro done h rest ho
    exact ⟨h, some done, rfl, Nat.le_refl _, ho, rfl, fun _ => (List.append_nil _).symm⟩
  | cons c cs ih =>
    intro done h rest ho
    obtain ⟨h1, r, e1, m1⟩ := newStr_owns g c ho
    rw [copyArray, e1, Outcome.bind_ok]
    cases r with
    | error e =>
      obtain ⟨h2, e2, o2, r2⟩ := dropStrs_owns done.reverse (h := h1) (rest := rest) (m1.1.congr fun b => by
        simp only [strBlocks, List.count_append, List.count_flatMap, List.map_reverse, List.sum_reverse])
      have := m1.2.1
      refine ⟨h2, none, ?_, by omega, o2, fun hf => by have := m1.2.2 hf; omega⟩
      dsimp only
      rw [e2, Outcome.bind_ok]; rfl
    | ok o =>
      obtain ⟨h2, r, e2, l2, m2⟩ := ih (done ++ [o]) (h := h1) (rest := rest) (m1.1.congr fun b => by
        simp only [strBlocks, List.flatMap_append, List.flatMap_cons, List.flatMap_nil, List.append_nil, List.count_append]
        omega)
      have hr := m1.2.1
      refine ⟨h2, r, e2, by omega, ?_⟩
      cases r with
      | none => exact ⟨m2.1, fun hf => by have := m2.2 hf; omega⟩
      | some os =>
        refine ⟨m2.1, by have := m2.2.1; omega, fun hf => ?_⟩
        rw [m2.2.2 hf, List.map_append, List.append_assoc, List.map_cons, m1.2.2 hf]; rfl

end Solace.PathMem
