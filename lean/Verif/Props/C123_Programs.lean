import Verif.Props.C123_PathMemory
/- C123: joining paths, and whole programs with paths, lose no memory. -/
namespace Solace.PathMem

/-! ### Joining -/

theorem joinCopies_owns (g : Policy) (cs : List (List Byte)) : ∀ (v : VObj) {h : Heap} {rest : List Nat},
    Owns h (v.blocks ++ rest) →
    ∃ h' v' e, joinCopies g h v cs = .ok (h', v', e) ∧ Owns h' (v'.blocks ++ rest) ∧ h.refused ≤ h'.refused ∧ v'.cap = v.cap ∧
      (e = none → h'.refused = h.refused) ∧ (Fair g → e ≠ none → h.refused < h'.refused) ∧
      (Fair g → e = none → v.elems.length + cs.length ≤ v.cap → v'.texts = v.texts ++ cs) := by
  induction cs with
  | nil =>
    intro v h rest ho
    exact ⟨h, v, none, rfl, ho, Nat.le_refl _, rfl, fun _ => rfl, fun _ hx => absurd rfl hx,
      fun _ _ _ => (List.append_nil _).symm⟩
  | cons c cs ih =>
    intro v h rest ho
    obtain ⟨h1, r, e1, m1⟩ := newStr_owns g c ho
    rw [joinCopies, e1, Outcome.bind_ok]
    cases r with
    | error e =>
      exact ⟨h1, v, some e, rfl, m1.1, m1.2.1, rfl, fun hx => (by cases hx), fun hf _ => m1.2.2 hf,
        fun _ hx => (by cases hx)⟩
    | ok o =>
      have hr := m1.2.1
      obtain ⟨h2, e2, o2, r2⟩ := push_drop_owns v o m1.1
      obtain ⟨h3, v3, e, e3, o3, r3, c3, n3, f3, t3⟩ := ih (pushBack v o).1 o2
      refine ⟨h3, v3, e, ?_, o3, by omega, c3.trans (pushBack_cap v o), fun hx => by have := n3 hx; omega,
        fun hf hx => by have := f3 hf hx; omega, fun hf hx hl => ?_⟩
      · dsimp only
        rw [e2, Outcome.bind_ok]; exact e3
      · rw [List.length_cons] at hl
        obtain ⟨p1, p2⟩ := pushBack_texts v o (by omega)
        rw [t3 hf hx (by rw [p2, pushBack_cap]; omega), p1, m1.2.2 hf, List.append_assoc]; rfl

theorem joinMoved_count (os : List SObj) : ∀ (v : VObj) (b : Nat),
    (joinMoved v os).1.blocks.count b + (strBlocks (joinMoved v os).2).count b = v.blocks.count b + (strBlocks os).count b := by
  induction os with
  | nil => intro v b; rfl
  | cons o os ih =>
    intro v b
    have h1 := ih (pushBack v o).1 b
    have h2 := pushBack_count v o b
    simp only [joinMoved, strBlocks, List.flatMap_cons, List.count_append] at h1 h2 ⊢
    omega

theorem joinMoved_cap (os : List SObj) : ∀ (v : VObj), (joinMoved v os).1.cap = v.cap := by
  induction os with
  | nil => intro v; rfl
  | cons o os ih => intro v; rw [joinMoved]; exact (ih _).trans (pushBack_cap v o)

theorem joinMoved_left_length (os : List SObj) : ∀ (v : VObj), (joinMoved v os).2.length = os.length := by
  induction os with
  | nil => intro v; rfl
  | cons o os ih => intro v; rw [joinMoved, List.length_cons, List.length_cons, ih]

theorem joinMoved_texts (os : List SObj) : ∀ (v : VObj), v.elems.length + os.length ≤ v.cap →
    (joinMoved v os).1.texts = v.texts ++ os.map SObj.text ∧ (joinMoved v os).2 = os.map fun _ => SObj.empty := by
  induction os with
  | nil => intro v _; exact ⟨(List.append_nil _).symm, rfl⟩
  | cons o os ih =>
    intro v hl
    rw [List.length_cons] at hl
    obtain ⟨p1, p2⟩ := pushBack_texts v o (by omega)
    obtain ⟨i1, i2⟩ := ih (pushBack v o).1 (by rw [p2, pushBack_cap]; omega)
    rw [joinMoved]
    refine ⟨?_, ?_⟩
    · show (joinMoved (pushBack v o).1 os).1.texts = _
      rw [i1, p1, List.append_assoc]; rfl
    · show (pushBack v o).2 :: (joinMoved (pushBack v o).1 os).2 = _
      rw [i2, pushBack, if_neg (by omega)]; rfl

theorem getVar_eq {vs : Vars} {i : Nat} {p : PObj} (h : getVar vs i = some p) : vs[i]? = some (some p) := by
  rw [getVar] at h
  cases hv : vs[i]? with
  | none => rw [hv] at h; cases h
  | some o => rw [hv] at h; exact congrArg some h

theorem getVar_set (vs : Vars) (i j : Nat) (p q : PObj) (hp : getVar vs i = some p) :
    getVar (vs.set i (some q)) j = if i = j then some q else getVar vs j := by
  have hl : i < vs.length := (List.getElem?_eq_some_iff.mp (getVar_eq hp)).1
  rw [getVar, getVar, List.getElem?_set]
  split
  · rfl
  · rfl

/-- Replacing a variable by another path exchanges its blocks. -/
theorem varBlocks_set (vs : Vars) : ∀ (i : Nat) (p : PObj) (q : Option PObj) (b : Nat), getVar vs i = some p →
    (varBlocks (vs.set i q)).count b + p.blocks.count b = (varBlocks vs).count b + ((q.map PObj.blocks).getD []).count b := by
  induction vs with
  | nil => intro i p q b h; cases h
  | cons o vs ih =>
    intro i p q b h
    cases i with
    | zero =>
      have ho : o = some p := by
        have := getVar_eq h
        simpa using this
      subst ho
      simp only [List.set_cons_zero, varBlocks, List.flatMap_cons, List.count_append, Option.map_some, Option.getD_some]
      omega
    | succ i =>
      have := ih i p q b h
      simp only [List.set_cons_succ, varBlocks, List.flatMap_cons, List.count_append] at this ⊢
      omega

theorem varBlocks_append (vs : Vars) (p : PObj) (b : Nat) :
    (varBlocks (vs ++ [some p])).count b = (varBlocks vs).count b + p.blocks.count b := by
  simp [varBlocks, List.flatMap_append, List.count_append]

theorem countArgs_set (vs : Vars) (i : Nat) (p q : PObj) (hp : getVar vs i = some p) (hq : q.elems.length = p.elems.length)
    (args : List Arg) : countArgs (vs.set i (some q)) args = countArgs vs args := by
  have hv : ∀ j n, ((getVar (vs.set i (some q)) j).map fun p => p.elems.length + n) =
      (getVar vs j).map fun p => p.elems.length + n := by
    intro j n
    rw [getVar_set vs i j p q hp]
    split
    · rename_i hij
      rw [← hij, hp, Option.map_some, Option.map_some, hq]
    · rfl
  induction args with
  | nil => rfl
  | cons a as ih =>
    rw [countArgs, countArgs, ih]
    cases a <;> simp only [hv]

theorem count_str {vs : Vars} {s : List Byte} {as : List Arg} {n : Nat} (h : countArgs vs (.str s :: as) = some n) :
    ∃ m, countArgs vs as = some m ∧ n = 1 + m := by
  rw [countArgs] at h
  cases hm : countArgs vs as with
  | none => rw [hm] at h; cases h
  | some m => rw [hm] at h; cases h; exact ⟨m, rfl, rfl⟩

theorem count_path {vs : Vars} {i : Nat} {as : List Arg} {n : Nat} (a : Arg) (ha : a = .copy i ∨ a = .move i)
    (h : countArgs vs (a :: as) = some n) :
    ∃ m p, countArgs vs as = some m ∧ getVar vs i = some p ∧ n = p.elems.length + m := by
  rw [countArgs] at h
  cases hm : countArgs vs as with
  | none => rw [hm] at h; cases h
  | some m =>
    rw [hm] at h
    cases hp : getVar vs i with
    | none => rcases ha with rfl | rfl <;> simp only [hp, Option.map_none] at h <;> cases h
    | some p =>
      refine ⟨m, p, rfl, rfl, ?_⟩
      rcases ha with rfl | rfl <;> simp only [hp, Option.map_some] at h <;> cases h <;> rfl

theorem joinArgs_owns (g : Policy) (args : List Arg) : ∀ (v : VObj) (vs : Vars) {h : Heap} {rest : List Nat} (n : Nat),
    countArgs vs args = some n → Owns h (v.blocks ++ (varBlocks vs ++ rest)) →
    ∃ h' v' vs' e, joinArgs g h v vs args = .ok (h', v', vs', e) ∧ Owns h' (v'.blocks ++ (varBlocks vs' ++ rest)) ∧
      h.refused ≤ h'.refused ∧ v'.cap = v.cap ∧ vs'.length = vs.length ∧
      (e = none → h'.refused = h.refused) ∧ (Fair g → e ≠ none → h.refused < h'.refused) ∧
      (Fair g → e = none → v.elems.length + n ≤ v.cap → v'.texts = v.texts ++ expected vs args) := by
  induction args with
  | nil =>
    intro v vs h rest n _ ho
    exact ⟨h, v, vs, none, rfl, ho, Nat.le_refl _, rfl, rfl, fun _ => rfl, fun _ hx => absurd rfl hx,
      fun _ _ _ => (List.append_nil _).symm⟩
  | cons a as ih =>
    intro v vs h rest n hn ho
    cases a with
    | str s =>
      obtain ⟨m, hm, rfl⟩ := count_str hn
      obtain ⟨h1, v1, e, e1, o1, r1, c1, n1, f1, t1⟩ := joinCopies_owns g [s] v ho
      rw [joinArgs, e1, Outcome.bind_ok]
      cases e with
      | some e =>
        exact ⟨h1, v1, vs, some e, rfl, o1, r1, c1, rfl, fun hx => (by cases hx), f1, fun _ hx => (by cases hx)⟩
      | none =>
        obtain ⟨h2, v2, vs2, e, e2, o2, r2, c2, l2, n2, f2, t2⟩ := ih v1 vs m hm o1
        have hr := n1 rfl
        refine ⟨h2, v2, vs2, e, e2, o2, by omega, c2.trans c1, l2, fun hx => by have := n2 hx; omega,
          fun hf hx => by have := f2 hf hx; omega, fun hf hx hl => ?_⟩
        have ht := t1 hf rfl (by simp only [List.length_cons, List.length_nil]; omega)
        have hlen : v1.elems.length = v.elems.length + 1 := by
          rw [← texts_length, ht, List.length_append, texts_length]; rfl
        rw [t2 hf hx (by omega), ht, List.append_assoc]; rfl
    | copy i =>
      obtain ⟨m, p, hm, hp, rfl⟩ := count_path _ (.inl rfl) hn
      obtain ⟨h1, v1, e, e1, o1, r1, c1, n1, f1, t1⟩ := joinCopies_owns g (p.elems.map SObj.text) v ho
      rw [joinArgs, hp]
      dsimp only
      rw [e1, Outcome.bind_ok]
      cases e with
      | some e =>
        exact ⟨h1, v1, vs, some e, rfl, o1, r1, c1, rfl, fun hx => (by cases hx), f1, fun _ hx => (by cases hx)⟩
      | none =>
        obtain ⟨h2, v2, vs2, e, e2, o2, r2, c2, l2, n2, f2, t2⟩ := ih v1 vs m hm o1
        have hr := n1 rfl
        refine ⟨h2, v2, vs2, e, e2, o2, by omega, c2.trans c1, l2, fun hx => by have := n2 hx; omega,
          fun hf hx => by have := f2 hf hx; omega, fun hf hx hl => ?_⟩
        have ht := t1 hf rfl (by rw [List.length_map]; omega)
        have hlen : v1.elems.length = v.elems.length + p.elems.length := by
          rw [← texts_length, ht, List.length_append, texts_length, List.length_map]
        rw [t2 hf hx (by omega), ht, List.append_assoc, expected, hp]
    | move i =>
      obtain ⟨m, p, hm, hp, rfl⟩ := count_path _ (.inr rfl) hn
      rw [joinArgs, hp]
      dsimp only
      obtain ⟨h2, v2, vs2, e, e2, o2, r2, c2, l2, n2, f2, t2⟩ := ih (joinMoved v p.elems).1
        (vs.set i (some { p with elems := (joinMoved v p.elems).2 })) (h := h) (rest := rest) m
        (by rw [countArgs_set vs i p _ hp (joinMoved_left_length p.elems v)]; exact hm)
        (ho.congr fun b => by
          have h1 := varBlocks_set vs i p (some { p with elems := (joinMoved v p.elems).2 }) b hp
          have h2 := joinMoved_count p.elems v b
          simp only [Option.map_some, Option.getD_some, PObj.blocks, List.count_append] at h1 h2 ⊢
          omega)
      refine ⟨h2, v2, vs2, e, e2, o2, r2, c2.trans (joinMoved_cap _ _), by rw [l2, List.length_set], n2, f2, fun hf hx hl => ?_⟩
      obtain ⟨t3, t4⟩ := joinMoved_texts p.elems v (by omega)
      have hlen : (joinMoved v p.elems).1.elems.length = v.elems.length + p.elems.length := by
        rw [← texts_length, t3, List.length_append, texts_length, List.length_map]
      rw [t2 hf hx (by rw [hlen, joinMoved_cap]; omega), t3, List.append_assoc, expected, hp, t4]

/-- **C123**, joining: no block is lost; it fails exactly if a request was refused, and otherwise the new path has the
components of the arguments. -/
theorem C123_join (g : Policy) (h : Heap) (vs : Vars) (rest : List Nat) (ho : Owns h (varBlocks vs ++ rest)) (args : List Arg)
    (n : Nat) (hn : countArgs vs args = some n) :
    ∃ h' vs' r, join g h vs args n = .ok (h', vs', r) ∧
      Made g h (varBlocks vs' ++ rest) PObj.blocks (fun p => n < 2 ^ 59 → p.view.comps = expected vs args) h' r ∧ vs'.length = vs.length := by
  rw [join]
  obtain ⟨h1, r, e1, m1, k1⟩ := newVec_owns g (wrap64 n) ho
  rw [e1]
  cases r with
  | error e => exact ⟨h1, vs, .error e, rfl, m1, rfl⟩
  | ok v =>
    obtain ⟨k2, k3⟩ := k1 v rfl
    have hr := m1.2.1
    obtain ⟨h2, v2, vs2, e, e2, o2, r2, c2, l2, n2, f2, t2⟩ := joinArgs_owns g args v vs n hn m1.1
    dsimp only
    rw [e2, Outcome.bind_ok]
    cases e with
    | some e =>
      obtain ⟨h3, e3, o3, r3⟩ := dropVec_owns v2 o2
      refine ⟨h3, vs2, .error e, ?_, ⟨o3, by omega, fun hf => ?_⟩, l2⟩
      · dsimp only
        rw [e3, Outcome.bind_ok]; rfl
      · have := f2 hf (by intro hx; cases hx)
        omega
    | none =>
      refine ⟨h2, vs2, .ok (ofVec v2), rfl, ⟨o2, by have := n2 rfl; omega, fun hf hl => ?_⟩, l2⟩
      rw [wrap64_of_lt (show n < 2 ^ 64 by omega), cap_eq n hl] at k3
      have := t2 hf rfl (by rw [k2, k3, List.length_nil]; omega)
      show v2.texts = _
      rw [this, VObj.texts, k2]; rfl

/-! ### Programs -/

/-- All blocks given out belong to the paths that are alive, each to one. -/
def Inv (p : Prog) : Prop := Owns p.heap (varBlocks p.vars)

theorem inv_append {h : Heap} {vs : Vars} {p : PObj} (ho : Owns h (p.blocks ++ varBlocks vs)) : Inv ⟨h, vs ++ [some p]⟩ :=
  ho.congr fun b => by rw [varBlocks_append, List.count_append]; omega

theorem keep_inv {g : Policy} {h : Heap} {vs : Vars} {good : PObj → Prop} {h' : Heap} {r : Except Err PObj}
    (hm : Made g h (varBlocks vs) PObj.blocks good h' r) : Inv (keep vs (h', r)) := by
  cases r with
  | ok p => exact inv_append hm.1
  | error e => exact hm.1

/-- The statements that end the program: `subpath` without memory for the array, and printing a path that has a buffer but no
components. -/
def Ends (g : Policy) (p : Prog) (o : Op) : Prop :=
  (∃ i a b e n, o = .subpath i a b ∧ g p.heap.asked n = .error e) ∨
  (∃ i d q, o = .print i d ∧ getVar p.vars i = some q ∧ q.noBuffer = false ∧ q.elems = [])

theorem step_inv (g : Policy) (p : Prog) (o : Op) (hi : Inv p) :
    (∃ q, step g p o = .ok q ∧ Inv q) ∨ (step g p o = .terminate ∧ Ends g p o) := by
  cases o with
  | parse fuel s d =>
    rw [step]
    cases hm : parse g p.heap fuel s d with
    | none => exact .inl ⟨p, rfl, hi⟩
    | some m =>
      obtain ⟨h1, r, rfl, m1⟩ := C123_parse g p.heap _ hi fuel s d m hm
      exact .inl ⟨_, rfl, keep_inv m1⟩
  | single s =>
    obtain ⟨h1, r, e1, m1⟩ := C123_single g p.heap _ hi s
    rw [step, e1]
    exact .inl ⟨_, rfl, keep_inv m1⟩
  | root =>
    obtain ⟨h1, q, e1, o1, _⟩ := C123_root g p.heap _ hi
    rw [step, e1]
    exact .inl ⟨_, rfl, inv_append o1⟩
  | normalize i =>
    rw [step]
    cases getVar p.vars i with
    | none => exact .inl ⟨p, rfl, hi⟩
    | some q =>
      obtain ⟨h1, q', e1, o1, _⟩ := C123_normalize_partial g p.heap _ hi q
      dsimp only
      rw [e1]
      exact .inl ⟨_, rfl, inv_append o1⟩
  | getParent i =>
    rw [step]
    cases getVar p.vars i with
    | none => exact .inl ⟨p, rfl, hi⟩
    | some q =>
      obtain ⟨h1, r, e1, _, m1⟩ := C123_getParent_partial g p.heap _ hi q
      dsimp only
      rw [e1]
      refine .inl ⟨_, rfl, ?_⟩
      cases r with
      | none => exact m1.1
      | some q' => exact inv_append m1.1
  | subpath i a b =>
    rw [step]
    cases getVar p.vars i with
    | none => exact .inl ⟨p, rfl, hi⟩
    | some q =>
      dsimp only
      rcases C123_subpath_partial g p.heap _ hi q a b with ⟨e1, e, n, he⟩ | ⟨h1, q', e1, o1, _⟩
      · rw [e1]; exact .inr ⟨rfl, .inl ⟨i, a, b, e, n, rfl, he⟩⟩
      · rw [e1]; exact .inl ⟨_, rfl, inv_append o1⟩
  | join args =>
    rw [step]
    cases hn : countArgs p.vars args with
    | none => exact .inl ⟨p, rfl, hi⟩
    | some n =>
      obtain ⟨h1, vs1, r, e1, m1, _⟩ := C123_join g p.heap p.vars [] (by rw [List.append_nil]; exact hi) args n hn
      dsimp only
      rw [e1]
      rw [List.append_nil] at m1
      exact .inl ⟨_, rfl, keep_inv m1⟩
  | print i d =>
    rw [step]
    cases hq : getVar p.vars i with
    | none => exact .inl ⟨p, rfl, hi⟩
    | some q =>
      dsimp only
      rcases C123_toString g p.heap _ hi q d with ⟨e1, hb, hn⟩ | ⟨h1, o, e1, o1⟩
      · rw [e1]; exact .inr ⟨rfl, .inr ⟨i, d, q, rfl, hq, hb, hn⟩⟩
      · obtain ⟨h2, e2, o2, _⟩ := dropStr_owns o o1
        rw [e1, Outcome.bind_ok]
        dsimp only
        rw [e2, Outcome.bind_ok]
        exact .inl ⟨_, rfl, o2⟩
  | moveCtor i =>
    rw [step]
    cases hq : getVar p.vars i with
    | none => exact .inl ⟨p, rfl, hi⟩
    | some q =>
      refine .inl ⟨_, rfl, Owns.congr hi fun b => ?_⟩
      have h1 := varBlocks_set p.vars i q (some .none) b hq
      rw [varBlocks_append]
      have h2 : ((some PObj.none).map PObj.blocks).getD [] = [] := rfl
      rw [h2, List.count_nil] at h1
      omega
  | swap i j =>
    rw [step]
    cases hq : getVar p.vars i with
    | none => exact .inl ⟨p, rfl, hi⟩
    | some a =>
      cases hb : getVar p.vars j with
      | none => exact .inl ⟨p, rfl, hi⟩
      | some b =>
        refine .inl ⟨_, rfl, Owns.congr hi fun c => ?_⟩
        have h1 := varBlocks_set p.vars i a (some b) c hq
        have hj := getVar_set p.vars i j a b hq
        simp only [Option.map_some, Option.getD_some] at h1
        by_cases hij : i = j
        · subst hij
          rw [hq] at hb
          cases hb
          rw [if_pos rfl] at hj
          have h2 := varBlocks_set _ i a (some a) c hj
          simp only [Option.map_some, Option.getD_some] at h2
          show (varBlocks p.vars).count c = (varBlocks ((p.vars.set i (some a)).set i (some a))).count c
          omega
        · rw [if_neg hij, hb] at hj
          have h2 := varBlocks_set _ j b (some a) c hj
          simp only [Option.map_some, Option.getD_some] at h2
          show (varBlocks p.vars).count c = (varBlocks ((p.vars.set i (some b)).set j (some a))).count c
          omega
  | destroy i =>
    rw [step]
    cases hq : getVar p.vars i with
    | none => exact .inl ⟨p, rfl, hi⟩
    | some q =>
      obtain ⟨h1, e1, o1, _⟩ := dropPath_owns q (h := p.heap) (rest := varBlocks (p.vars.set i none))
        (Owns.congr hi fun b => by
          have h1 := varBlocks_set p.vars i q none b hq
          have h2 : ((none : Option PObj).map PObj.blocks).getD [] = [] := rfl
          rw [h2, List.count_nil] at h1
          rw [List.count_append]
          omega)
      dsimp only
      rw [e1]
      exact .inl ⟨_, rfl, o1⟩

theorem run_inv (g : Policy) (ops : List Op) : ∀ p, Inv p → (∃ q, run g p ops = .ok q ∧ Inv q) ∨ run g p ops = .terminate := by
  induction ops with
  | nil => intro p hi; exact .inl ⟨p, rfl, hi⟩
  | cons o os ih =>
    intro p hi
    rw [run]
    rcases step_inv g p o hi with ⟨q, e, hq⟩ | ⟨e, _⟩
    · rw [e, Outcome.bind_ok]; exact ih q hq
    · rw [e]; exact .inr rfl

/-- **C123**, whole programs (full): for every program that makes, parses, joins, copies, moves, swaps, prints and destroys
paths, and every manager that refuses requests as it likes: no block is given back twice or without being given out, and the
blocks given out are at any time exactly those of the paths that are alive - unless the program was ended (`C123_ended`). -/
theorem C123_program (g : Policy) (ops : List Op) :
    (∃ q, run g init ops = .ok q ∧ q.heap.live.Perm (varBlocks q.vars) ∧ q.heap.live.Nodup) ∨
    run g init ops = .terminate := by
  rcases run_inv g ops init ⟨fun _ => rfl, List.nodup_nil, fun _ h => by cases h⟩ with ⟨q, e, hq⟩ | e
  · exact .inl ⟨q, e, List.perm_iff_count.mpr hq.count, hq.nodup⟩
  · exact .inr e

/-- **C123** (full): when all paths have been destroyed all memory has been given back. -/
theorem C123_all_back (g : Policy) (ops : List Op) (q : Prog) (hr : run g init ops = .ok q) (hv : ∀ o ∈ q.vars, o = none) :
    q.heap.live = [] := by
  rcases C123_program g ops with ⟨q', e, hp, _⟩ | e
  · rw [hr] at e
    cases e
    have : varBlocks q.vars = [] := by
      rw [varBlocks, List.flatMap_eq_nil_iff]
      intro o ho
      rw [hv o ho]; rfl
    rw [this] at hp
    exact hp.eq_nil
  · rw [hr] at e; cases e

/-- **C123**, what ends a program: only `subpath` when a request is refused, and printing a path that has a buffer but no
components. Every other statement is carried out, however little memory there is. -/
theorem C123_ended (g : Policy) (ops : List Op) (p : Prog) (hr : run g init ops = .ok p) (o : Op)
    (h : ∀ q, step g p o ≠ .ok q) : step g p o = .terminate ∧ Ends g p o := by
  have hi : Inv p := by
    rcases run_inv g ops init ⟨fun _ => rfl, List.nodup_nil, fun _ h => by cases h⟩ with ⟨q, e, hq⟩ | e
    · rw [hr] at e; cases e; exact hq
    · rw [hr] at e; cases e
  rcases step_inv g p o hi with ⟨q, e, _⟩ | e
  · exact absurd e (h q)
  · exact e

/-! ### What goes wrong without memory -/

/-- Refuses the requests with these numbers. -/
def refuse (ks : List Nat) : Policy := fun k n => if k ∈ ks then .error .nomem else .ok ⟨false, List.replicate n 0⟩

theorem refuse_fair (ks : List Nat) : Fair (refuse ks) := by
  intro k n v h
  rw [refuse] at h
  split at h
  · cases h
  · cases h; exact ⟨rfl, List.length_replicate ..⟩

/-- The path "a/b/..", holding the blocks 0 to 3. -/
def abUp : PObj := ⟨some 0, false, [⟨some 1, [0x61#8]⟩, ⟨some 2, [0x62#8]⟩, ⟨some 3, [0x2E#8, 0x2E#8]⟩]⟩

/-- **C123**, negation: a refused request makes `normalize` give a wrong path without telling. "a/b/.." becomes the path
without components instead of "a" when the copy of "b" is refused: the ".." then takes away the "a". -/
theorem C123_normalize_wrong :
    normalize (refuse [2]) ⟨0, 0, 4, [0, 1, 2, 3]⟩ abUp = .ok (⟨3, 1, 6, [4, 0, 1, 2, 3]⟩, ⟨some 4, false, []⟩) ∧
    (Path.normalize mem (fun _ => .ok ()) abUp.view).comps = [[0x61#8]] := by decide +kernel

/-- **C123**, negation: `getParent` and `subpath` leave out components whose copy is refused: the parent of "a/b/.." becomes
"b". -/
theorem C123_getParent_wrong :
    getParent (refuse [1]) ⟨0, 0, 4, [0, 1, 2, 3]⟩ abUp =
      .ok (⟨3, 1, 6, [5, 4, 0, 1, 2, 3]⟩, some ⟨some 4, false, [⟨some 5, [0x62#8]⟩]⟩) ∧
    subpath (refuse [1]) ⟨0, 0, 4, [0, 1, 2, 3]⟩ abUp 0 2 =
      .ok (⟨3, 1, 6, [5, 4, 0, 1, 2, 3]⟩, ⟨some 4, false, [⟨some 5, [0x62#8]⟩]⟩) := by decide +kernel

/-- **C123**, negation: joining that fails has taken the components of the paths given away; they are destroyed with the
unfinished array. -/
theorem C123_join_loses :
    join (refuse [1]) ⟨0, 0, 4, [0, 1, 2, 3]⟩ [some abUp] [.move 0, .str [0x63#8]] 4 =
      .ok (⟨2, 1, 5, [0]⟩, [some ⟨some 0, false, [.empty, .empty, .empty]⟩], .error .nomem) := by decide +kernel

/-- **C123**, a path that was moved from is an empty path, and can be printed: `toString` returns a string, unlike for a path
whose components were all taken one by one (`C123_toString`). -/
theorem C123_moved (g : Policy) (p : Prog) (i : Nat) (q : PObj) (hq : getVar p.vars i = some q) (hi : Owns p.heap (varBlocks p.vars)) :
    ∃ p' x, step g p (.moveCtor i) = .ok p' ∧ getVar p'.vars i = some x ∧ getVar p'.vars p.vars.length = some q ∧
      x.view.comps = [] ∧ x.view.isAbsolute = .ok false ∧
      ∀ d, ∃ h' o, toString g p'.heap x d = .ok (h', o) ∧ Owns h' (o.blocks ++ varBlocks p.vars) := by
  have hl : i < p.vars.length := by
    rcases Nat.lt_or_ge i p.vars.length with h | h
    · exact h
    · rw [getVar, List.getElem?_eq_none h] at hq; cases hq
  refine ⟨_, .none, by rw [step, hq], ?_, ?_, rfl, rfl, fun d => ?_⟩
  · rw [getVar, List.getElem?_append_left (by rw [List.length_set]; exact hl), List.getElem?_set_self hl]; rfl
  · rw [getVar, List.getElem?_append_right (by rw [List.length_set]; exact Nat.le_refl _), List.length_set, Nat.sub_self]; rfl
  · rcases C123_toString g p.heap _ hi .none d with ⟨_, h, _⟩ | h
    · cases h
    · exact h

example : ∃ p' x, step (refuse []) ⟨⟨0, 0, 4, [0, 1, 2, 3]⟩, [some abUp]⟩ (.moveCtor 0) = .ok p' ∧ getVar p'.vars 0 = some x ∧
    x.view.comps = [] := by
  obtain ⟨p', x, h1, h2, -, h3, -⟩ := C123_moved (refuse []) ⟨⟨0, 0, 4, [0, 1, 2, 3]⟩, [some abUp]⟩ 0 abUp rfl
    ⟨fun _ => rfl, by decide, by decide⟩
  exact ⟨p', x, h1, h2, h3⟩

/-! ### Examples -/

example : Owns ⟨0, 0, 4, [0, 1, 2, 3]⟩ (abUp.blocks ++ []) :=
  ⟨fun _ => rfl, by decide, by decide⟩

/-- A program that meets a refusal in the middle of `parse`: the path is not made, and in the end all is given back. -/
example : run (refuse [5]) init [.parse 20 [0x61#8, 0x2F#8, 0x62#8] [0x2F#8], .parse 20 [0x61#8, 0x2F#8, 0x62#8] [0x2F#8],
    .join [.move 0, .str [0x63#8]], .normalize 1, .print 1 [0x2F#8], .swap 0 1, .destroy 0, .destroy 1, .destroy 2] =
    .ok ⟨⟨13, 1, 12, []⟩, [none, none, none]⟩ := by decide +kernel

example : (parse (refuse []) ⟨0, 0, 4, [0, 1, 2, 3]⟩ 20 [0x61#8, 0x2F#8, 0x62#8] [0x2F#8]).isSome = true := by decide +kernel

example : Ends (refuse [0]) ⟨⟨0, 0, 4, [0, 1, 2, 3]⟩, [some abUp]⟩ (.subpath 0 0 1) :=
  .inl ⟨0, 0, 1, .nomem, 0, rfl, rfl⟩

example : countArgs [some abUp] [.move 0, .copy 0, .str [0x63#8]] = some 7 ∧
    expected [some abUp] [.move 0, .copy 0, .str [0x63#8]] =
      [[0x61#8], [0x62#8], [0x2E#8, 0x2E#8], [], [], [], [0x63#8]] := by decide +kernel

end Solace.PathMem
