import Verif.Spec.DigestObjects
import Verif.Lemmas.HashProgram
import Verif.Lemmas.PathMemory
/- Lemmas for C138. -/
namespace Solace.Hash.Digests
open PathMem (Policy Heap Owns Fair allocate freeOpt)
open Prog (Msg Obj)

theorem getVar_eq {ds : List (Option DObj)} {i : Nat} {d : DObj} (h : getVar ds i = some d) : ds[i]? = some (some d) := by
  rw [getVar] at h
  cases ho : ds[i]? with
  | none => rw [ho] at h; cases h
  | some o => rw [ho] at h; exact congrArg some h

theorem blocksOf_set (ds : List (Option DObj)) : ∀ (i : Nat) (d : DObj) (q : Option DObj) (b : Nat), getVar ds i = some d →
    (blocksOf (ds.set i q)).count b + d.block.toList.count b =
      (blocksOf ds).count b + ((q.map fun d => d.block.toList).getD []).count b := by
  induction ds with
  | nil => intro i p q b h; cases h
  | cons o vs ih =>
    intro i p q b h
    cases i with
    | zero =>
      have ho : o = some p := by
        have := getVar_eq h
        simpa using this
      subst ho
      simp only [List.set_cons_zero, blocksOf, List.flatMap_cons, List.count_append, Option.map_some, Option.getD_some]
      omega
    | succ i =>
      have := ih i p q b h
      simp only [List.set_cons_succ, blocksOf, List.flatMap_cons, List.count_append] at this ⊢
      omega

theorem blocksOf_append (ds : List (Option DObj)) (d : DObj) (b : Nat) :
    (blocksOf (ds ++ [some d])).count b = (blocksOf ds).count b + d.block.toList.count b := by
  simp [blocksOf, List.flatMap_append, List.count_append]

theorem getVar_set (ds : List (Option DObj)) (i j : Nat) (d : DObj) (q : Option DObj) (hd : getVar ds i = some d) :
    getVar (ds.set i q) j = if i = j then q else getVar ds j := by
  have hl : i < ds.length := (List.getElem?_eq_some_iff.mp (getVar_eq hd)).1
  rw [getVar, getVar, List.getElem?_set]
  split
  · simp
  · rfl

/-- Two variables have a block in common only if they are the same. -/
theorem var_unique {ds : List (Option DObj)} {i j : Nat} {a b : DObj} {k : Nat} (ha : getVar ds i = some a) (hb : getVar ds j = some b)
    (h1 : a.block = some k) (h2 : b.block = some k) (hc : (blocksOf ds).count k ≤ 1) : a = b := by
  by_cases hij : i = j
  · subst hij
    rw [ha] at hb
    exact Option.some.inj hb
  · exfalso
    have e1 := blocksOf_set ds i a .none k ha
    have hb' : getVar (ds.set i .none) j = some b := by rw [getVar_set ds i j a .none ha, if_neg hij]; exact hb
    have e2 := blocksOf_set _ j b .none k hb'
    rw [h1] at e1
    rw [h2] at e2
    simp only [Option.toList, List.count_cons_self, List.count_nil, Option.map_none, Option.getD_none] at e1 e2
    omega

theorem value_map (ds : List (Option DObj)) (i : Nat) :
    value (ds.map (Option.map DObj.bytes)) i = (getVar ds i).map DObj.bytes := by
  rw [value, getVar, List.getElem?_map]
  cases ds[i]? with
  | none => rfl
  | some o => rfl

/-- A new digest: memory is asked for once, and if it is granted the block is the digest's. -/
theorem create_owns {g : Policy} (hg : Fair g) {h : Heap} {rest : List Nat} (ho : Owns h rest) (bytes : List Byte) :
    ∃ h' r, create g h bytes = .ok (h', r) ∧ h'.asked = h.asked + 1 ∧
      ((granted g h.asked bytes.length = true ∧ ∃ b, r = some ⟨some b, bytes⟩ ∧ Owns h' (b :: rest)) ∨
        granted g h.asked bytes.length = false ∧ r = .none ∧ Owns h' rest) := by
  rw [create]
  cases ha : allocate g h bytes.length with
  | mk h1 r =>
    have hk : h1.asked = h.asked + 1 := by
      unfold allocate at ha
      split at ha <;> cases ha <;> rfl
    cases r with
    | error e =>
      obtain ⟨o1, -, e1⟩ := PathMem.allocate_error ho ha
      exact ⟨h1, .none, rfl, hk, .inr ⟨by rw [granted, e1]; rfl, rfl, o1⟩⟩
    | ok p =>
      obtain ⟨b, v⟩ := p
      obtain ⟨o1, -, e1⟩ := PathMem.allocate_ok ho ha
      have hv := (hg _ _ _ e1).2
      refine ⟨h1, some ⟨some b, bytes⟩, ?_, hk, .inl ⟨by rw [granted, e1]; rfl, b, rfl, o1⟩⟩
      dsimp only
      rw [if_pos (by omega)]

theorem viewLoop_eq : ∀ (a b : List Byte), a.length = b.length →
    Vec.equalsViewLoop (· == ·) (a.map some) (b.map some) = .ok (decide (a = b)) := by
  intro a
  induction a with
  | nil => intro b h; cases b with
    | nil => rfl
    | cons y b => simp at h
  | cons x a ih =>
    intro b h
    cases b with
    | nil => simp at h
    | cons y b =>
      rw [List.map_cons, List.map_cons, Vec.equalsViewLoop]
      by_cases hxy : x = y
      · subst hxy
        rw [beq_self_eq_true, if_neg (by decide), ih b (by simpa using h)]
        simp
      · rw [beq_false_of_ne hxy, if_pos (by decide)]
        simp [hxy]

theorem listLoop_eq : ∀ (a b : List Byte), a.length = b.length →
    Vec.equalsLoop (· == ·) (a.map some) b = .ok (decide (a = b)) := by
  intro a
  induction a with
  | nil => intro b h; cases b with
    | nil => rfl
    | cons y b => simp at h
  | cons x a ih =>
    intro b h
    cases b with
    | nil => simp at h
    | cons y b =>
      rw [List.map_cons, Vec.equalsLoop]
      by_cases hxy : x = y
      · subst hxy
        rw [beq_self_eq_true, if_neg (by decide), ih b (by simpa using h)]
        simp
      · rw [beq_false_of_ne hxy, if_pos (by decide)]
        simp [hxy]

theorem equalsList_eq (a : DObj) (list : List Byte) : equalsList a list = .ok (decide (a.bytes = list)) := by
  rw [equalsList]
  by_cases h : a.bytes.length = list.length
  · rw [if_neg (fun hn => hn h), listLoop_eq _ _ h]
  · rw [if_pos h, decide_eq_false (fun e => h (congrArg List.length e))]

/-- The two worlds agree. -/
structure Agree (h : Host) (w : World) (s : SWorld) : Prop where
  objs : Prog.Agree h ⟨w.objs, []⟩ ⟨s.msgs, []⟩
  asked : w.heap.asked = s.asked
  values : w.digests.map (Option.map DObj.bytes) = s.digests
  seen : w.seen = s.seen
  owns : Owns w.heap (blocksOf w.digests)
  empty : ∀ i d, getVar w.digests i = some d → d.block = .none → d.bytes = []

theorem Agree.value {h : Host} {w : World} {s : SWorld} (ha : Agree h w s) (i : Nat) :
    Digests.value s.digests i = (getVar w.digests i).map DObj.bytes := by rw [← ha.values, value_map]

theorem equals_eq {h : Host} {w : World} {s : SWorld} (ha : Agree h w s) {i j : Nat} {a b : DObj} (h1 : getVar w.digests i = some a)
    (h2 : getVar w.digests j = some b) : equals a b = .ok (decide (a.bytes = b.bytes)) := by
  rw [equals]
  by_cases hl : a.bytes.length = b.bytes.length
  · rw [if_neg (fun hn => hn hl)]
    by_cases hb : a.block = b.block
    · rw [if_pos hb]
      have : a.bytes = b.bytes := by
        cases hk : a.block with
        | none => rw [ha.empty i a h1 hk, ha.empty j b h2 (hb ▸ hk)]
        | some k =>
          have hn : (blocksOf w.digests).count k ≤ 1 := by
            rw [← ha.owns.count]
            exact List.nodup_iff_count.mp ha.owns.nodup k
          rw [var_unique h1 h2 hk (hb ▸ hk) hn]
      rw [decide_eq_true this]
    · rw [if_neg hb, viewLoop_eq _ _ hl]
  · rw [if_pos hl, decide_eq_false (fun e => hl (congrArg List.length e))]

/-- A digest is added, or there is no memory for it. -/
theorem agree_create {h : Host} {g : Policy} (hg : Fair g) {w : World} {s : SWorld} (ha : Agree h w s) (bytes : List Byte)
    {objs : List Obj} {msgs : List Msg} (ho : Prog.Agree h ⟨objs, []⟩ ⟨msgs, []⟩) :
    ∃ m, create g w.heap bytes = .ok m ∧
      Agree h { w with objs := objs, heap := m.1, digests := keep w.digests m.2 }
        { s with msgs := msgs, asked := s.asked + 1, digests := added g s.asked s.digests bytes } := by
  obtain ⟨h', r, e, hk, hr⟩ := create_owns hg ha.owns bytes
  refine ⟨(h', r), e, ?_⟩
  rw [ha.asked] at hk hr
  rcases hr with ⟨hgr, b, rfl, o⟩ | ⟨hgr, rfl, o⟩
  · refine ⟨ho, hk, ?_, ha.seen, ?_, ?_⟩
    · dsimp only [keep]
      rw [added, if_pos hgr, List.map_append, ha.values]
      rfl
    · refine o.congr fun c => ?_
      dsimp only [keep]
      rw [blocksOf_append, List.count_cons]
      simp only [Option.toList, List.count_cons, List.count_nil]
      omega
    · intro i d hi hb
      dsimp only [keep] at hi
      rw [getVar] at hi
      by_cases hl : i < w.digests.length
      · rw [List.getElem?_append_left hl] at hi
        exact ha.empty i d hi hb
      · rw [List.getElem?_append_right (by omega)] at hi
        cases hz : i - w.digests.length with
        | zero =>
          rw [hz] at hi
          have : (⟨some b, bytes⟩ : DObj) = d := Option.some.inj hi
          rw [← this] at hb
          cases hb
        | succ n => rw [hz] at hi; cases hi
  · refine ⟨ho, hk, ?_, ha.seen, o, ha.empty⟩
    dsimp only [keep]
    rw [added, hgr, if_neg (by decide), ha.values]

theorem free_asked {h h' : Heap} {b : Option Nat} (e : freeOpt h b = .ok h') : h'.asked = h.asked := by
  cases b with
  | none => cases e; rfl
  | some b =>
    rw [freeOpt, PathMem.free] at e
    split at e
    · cases e; rfl
    · cases e

theorem agree_see {h : Host} {w : World} {s : SWorld} (ha : Agree h w s) (x : Seen) :
    Agree h { w with seen := w.seen ++ [x] } { s with seen := s.seen ++ [x] } :=
  ⟨ha.objs, ha.asked, ha.values, by dsimp only; rw [ha.seen], ha.owns, ha.empty⟩

theorem agree_hash {h : Host} {w : World} {s : SWorld} (ha : Agree h w s) (op : Prog.Op)
    (hw : match op with
      | .update x addr b => ∀ m, s.msgs[x]? = some m → m.Takes h addr b
      | _ => True) :
    ∃ w', Prog.step h ⟨w.objs, []⟩ op = .ok w' ∧
      Agree h { w with objs := w'.objs } { s with msgs := (Prog.specStep ⟨s.msgs, []⟩ op).msgs } := by
  obtain ⟨w', e, ha'⟩ := Prog.agree_step ha.objs op hw
  refine ⟨w', e, ?_, ha.asked, ha.values, ha.seen, ha.owns, ha.empty⟩
  exact ⟨rfl, ha'.len, ha'.rep⟩

theorem agree_digest {h : Host} {g : Policy} (hg : Fair g) {w : World} {s : SWorld} (ha : Agree h w s) (x : Nat) {o : Obj} {m : Msg}
    (h1 : w.objs[x]? = some o) (h2 : s.msgs[x]? = some m) :
    ∃ r c, o.digest h = .ok r ∧ create g w.heap r.1 = .ok c ∧
      Agree h { w with objs := w.objs.set x r.2, heap := c.1, digests := keep w.digests c.2 }
        { s with msgs := s.msgs.set x m.padded, asked := s.asked + 1, digests := added g s.asked s.digests m.published } := by
  obtain ⟨o', e, hr⟩ := Prog.rep_digest (ha.objs.rep x o m h1 h2)
  have ho := Prog.agree_set ha.objs x hr []
  obtain ⟨c, ec, hc⟩ := agree_create hg ha m.published (objs := w.objs.set x o') (msgs := s.msgs.set x m.padded) ho
  exact ⟨(m.published, o'), c, e, ec, hc⟩

theorem agree_step {h : Host} {g : Policy} (hg : Fair g) {w : World} {s : SWorld} (ha : Agree h w s) (op : Op)
    (hw : match op with
      | .hash (.update x addr b) => ∀ m, s.msgs[x]? = some m → m.Takes h addr b
      | _ => True) : ∃ w', step h g w op = .ok w' ∧ Agree h w' (specStep g s op) := by
  have var : ∀ i, (getVar w.digests i = .none ∧ value s.digests i = .none) ∨
      ∃ d, getVar w.digests i = some d ∧ value s.digests i = some d.bytes := by
    intro i
    rw [ha.value i]
    cases getVar w.digests i with
    | none => exact .inl ⟨rfl, rfl⟩
    | some d => exact .inr ⟨d, rfl, rfl⟩
  cases op with
  | hash op =>
    cases op with
    | digest x =>
      rw [step, specStep]
      cases h1 : w.objs[x]? with
      | none =>
        rw [Prog.lookup_none ha.objs.len h1]
        exact ⟨w, rfl, ha⟩
      | some o =>
        obtain ⟨m, h2⟩ := Prog.lookup ha.objs.len h1
        have h2' : s.msgs[x]? = some m := h2
        obtain ⟨r, c, e1, e2, ha'⟩ := agree_digest hg ha x h1 h2'
        rw [h2']
        dsimp only
        rw [e1, Outcome.bind_ok, e2, Outcome.bind_ok]
        exact ⟨_, rfl, ha'⟩
    | make k =>
      obtain ⟨w', e, ha'⟩ := agree_hash ha (.make k) trivial
      refine ⟨{ w with objs := w'.objs }, ?_, ha'⟩
      show (Prog.step h ⟨w.objs, []⟩ _ >>= fun w' => pure { w with objs := w'.objs }) = _
      rw [e, Outcome.bind_ok]
      rfl
    | copy x =>
      obtain ⟨w', e, ha'⟩ := agree_hash ha (.copy x) trivial
      refine ⟨{ w with objs := w'.objs }, ?_, ha'⟩
      show (Prog.step h ⟨w.objs, []⟩ _ >>= fun w' => pure { w with objs := w'.objs }) = _
      rw [e, Outcome.bind_ok]
      rfl
    | assign x y =>
      obtain ⟨w', e, ha'⟩ := agree_hash ha (.assign x y) trivial
      refine ⟨{ w with objs := w'.objs }, ?_, ha'⟩
      show (Prog.step h ⟨w.objs, []⟩ _ >>= fun w' => pure { w with objs := w'.objs }) = _
      rw [e, Outcome.bind_ok]
      rfl
    | assignBase x y =>
      obtain ⟨w', e, ha'⟩ := agree_hash ha (.assignBase x y) trivial
      refine ⟨{ w with objs := w'.objs }, ?_, ha'⟩
      show (Prog.step h ⟨w.objs, []⟩ _ >>= fun w' => pure { w with objs := w'.objs }) = _
      rw [e, Outcome.bind_ok]
      rfl
    | update x a b =>
      obtain ⟨w', e, ha'⟩ := agree_hash ha (.update x a b) hw
      refine ⟨{ w with objs := w'.objs }, ?_, ha'⟩
      show (Prog.step h ⟨w.objs, []⟩ _ >>= fun w' => pure { w with objs := w'.objs }) = _
      rw [e, Outcome.bind_ok]
      rfl
  | make bytes =>
    obtain ⟨c, ec, hc⟩ := agree_create hg ha bytes (objs := w.objs) (msgs := s.msgs) ha.objs
    exact ⟨_, by rw [step, ec, Outcome.bind_ok]; rfl, hc⟩
  | move i =>
    rw [step, specStep]
    rcases var i with ⟨h1, h2⟩ | ⟨d, h1, h2⟩
    · rw [h1, h2]; exact ⟨w, rfl, ha⟩
    · rw [h1, h2]
      refine ⟨_, rfl, ha.objs, ha.asked, ?_, ha.seen, ha.owns.congr fun b => ?_, ?_⟩
      · dsimp only
        rw [List.map_append, List.map_set, ha.values]
        rfl
      · dsimp only
        have e := blocksOf_set w.digests i d (some .none) b h1
        rw [blocksOf_append]
        simp only [DObj.none, Option.toList, Option.map_some, Option.getD_some, List.count_nil] at e ⊢
        omega
      · intro j x hj hb
        dsimp only at hj
        by_cases hl : j < (w.digests.set i (some DObj.none)).length
        · rw [getVar, List.getElem?_append_left hl] at hj
          have hj' : getVar (w.digests.set i (some DObj.none)) j = some x := hj
          rw [getVar_set _ i j d _ h1] at hj'
          split at hj'
          · cases hj'; rfl
          · exact ha.empty j x hj' hb
        · rw [getVar, List.getElem?_append_right (by omega)] at hj
          cases hz : j - (w.digests.set i (some DObj.none)).length with
          | zero =>
            rw [hz] at hj
            have : d = x := Option.some.inj hj
            exact ha.empty i x (this ▸ h1) hb
          | succ n => rw [hz] at hj; cases hj
  | assign i j =>
    rw [step, specStep]
    rcases var i with ⟨h1, h2⟩ | ⟨a, h1, h2⟩
    · rw [h1, h2]; exact ⟨w, rfl, ha⟩
    · rcases var j with ⟨k1, k2⟩ | ⟨b, k1, k2⟩
      · rw [h1, h2, k1, k2]; exact ⟨w, rfl, ha⟩
      · rw [h1, h2, k1, k2]
        have hs := getVar_set w.digests i j a (some b) h1
        have hm : getVar (w.digests.set i (some b)) j = some b := by
          rw [hs]
          split
          · rfl
          · exact k1
        refine ⟨_, rfl, ha.objs, ha.asked, ?_, ha.seen, ha.owns.congr fun c => ?_, ?_⟩
        · dsimp only
          rw [List.map_set, List.map_set, ha.values]
          rfl
        · dsimp only
          have e1 := blocksOf_set w.digests i a (some b) c h1
          have e2 := blocksOf_set _ j b (some a) c hm
          simp only [Option.map_some, Option.getD_some] at e1 e2
          omega
        · intro k x hk hb
          dsimp only at hk
          rw [getVar_set _ j k b _ hm] at hk
          split at hk
          · cases hk; exact ha.empty i a h1 hb
          · rw [getVar_set _ i k a _ h1] at hk
            split at hk
            · cases hk; exact ha.empty j b k1 hb
            · exact ha.empty k x hk hb
  | destroy i =>
    rw [step, specStep]
    rcases var i with ⟨h1, h2⟩ | ⟨d, h1, h2⟩
    · rw [h1, h2]; exact ⟨w, rfl, ha⟩
    · rw [h1, h2]
      have hc : ∀ b, (blocksOf w.digests).count b = (d.block.toList ++ blocksOf (w.digests.set i .none)).count b := by
        intro b
        have e := blocksOf_set w.digests i d .none b h1
        rw [List.count_append]
        simp only [Option.map_none, Option.getD_none, List.count_nil] at e
        omega
      obtain ⟨h', e, o, -⟩ := PathMem.freeOpt_owns d.block (ha.owns.congr hc)
      refine ⟨{ w with heap := h', digests := w.digests.set i .none }, ?_, ha.objs, ?_, ?_, ha.seen, o, ?_⟩
      · dsimp only
        rw [e, Outcome.bind_ok]
        rfl
      · dsimp only
        rw [free_asked e, ha.asked]
      · dsimp only
        rw [List.map_set, ha.values]
        rfl
      · intro k x hk hb
        dsimp only at hk
        rw [getVar_set _ i k d _ h1] at hk
        split at hk
        · cases hk
        · exact ha.empty k x hk hb
  | same i j =>
    rw [step, specStep]
    rcases var i with ⟨h1, h2⟩ | ⟨a, h1, h2⟩
    · rw [h1, h2]; exact ⟨w, rfl, ha⟩
    · rcases var j with ⟨k1, k2⟩ | ⟨b, k1, k2⟩
      · rw [h1, h2, k1, k2]; exact ⟨w, rfl, ha⟩
      · rw [h1, h2, k1, k2]
        dsimp only
        rw [equals_eq ha h1 k1, Outcome.bind_ok]
        exact ⟨_, rfl, agree_see ha _⟩
  | sameList i list =>
    rw [step, specStep]
    rcases var i with ⟨h1, h2⟩ | ⟨a, h1, h2⟩
    · rw [h1, h2]; exact ⟨w, rfl, ha⟩
    · rw [h1, h2]
      dsimp only
      rw [equalsList_eq, Outcome.bind_ok]
      exact ⟨_, rfl, agree_see ha _⟩
  | index i k =>
    rw [step, specStep]
    rcases var i with ⟨h1, h2⟩ | ⟨a, h1, h2⟩
    · rw [h1, h2]; exact ⟨w, rfl, ha⟩
    · rw [h1, h2]
      dsimp only
      rw [MessageDigest.index, MessageDigest.size]
      by_cases hk : k < a.bytes.length
      · rw [if_pos hk, List.getElem?_eq_getElem hk]
        exact ⟨_, rfl, agree_see ha _⟩
      · rw [if_neg hk, List.getElem?_eq_none (by omega)]
        exact ⟨_, rfl, agree_see ha _⟩
  | bits i =>
    rw [step, specStep]
    rcases var i with ⟨h1, h2⟩ | ⟨a, h1, h2⟩
    · rw [h1, h2]; exact ⟨w, rfl, ha⟩
    · rw [h1, h2]
      refine ⟨_, rfl, ?_⟩
      rw [MessageDigest.getDigestLength, MessageDigest.size, wrap64_def, Nat.mul_comm]
      exact agree_see ha _

theorem agree_run {h : Host} {g : Policy} (hg : Fair g) (ops : List Op) : ∀ {w : World} {s : SWorld}, Agree h w s → Within h g s ops →
    ∃ w', run h g w ops = .ok w' ∧ Agree h w' (specRun g s ops) := by
  induction ops with
  | nil => intro w s ha _; exact ⟨w, rfl, ha⟩
  | cons op rest ih =>
    intro w s ha hw
    obtain ⟨w1, e1, ha1⟩ := agree_step hg ha op hw.1
    obtain ⟨w2, e2, ha2⟩ := ih ha1 hw.2
    exact ⟨w2, by rw [run, e1, Outcome.bind_ok, e2], ha2⟩

theorem agree_start (h : Host) : Agree h .start .start :=
  ⟨⟨rfl, rfl, fun i o m h1 _ => by simp [World.start] at h1⟩, rfl, rfl, rfl, ⟨fun _ => rfl, List.nodup_nil, fun _ hb => by simp [World.start] at hb⟩,
    fun i d hi => by simp [World.start, getVar] at hi⟩

end Solace.Hash.Digests
