import Verif.Spec.NestedMemory
import Verif.Lemmas.PathMemory
/- Helper lemmas for containers of owning objects. -/
namespace Solace.Nested
open PathMem

theorem blocksAll_append (as bs : List Val) : blocksAll (as ++ bs) = blocksAll as ++ blocksAll bs := by
  induction as with
  | nil => rfl
  | cons a as ih => simp only [List.cons_append, blocksAll, ih, List.append_assoc]

theorem blocksAll_reverse (as : List Val) (c : Nat) : (blocksAll as.reverse).count c = (blocksAll as).count c := by
  induction as with
  | nil => rfl
  | cons a as ih =>
    simp only [List.reverse_cons, blocksAll_append, blocksAll, List.append_nil, List.count_append, ih]
    omega

theorem empty_blocks (k : Kind) : k.empty.blocks = [] := by cases k <;> rfl

theorem left_blocks (v : Val) : v.left.blocks = [] := empty_blocks _

theorem left_kind (v : Val) : v.left.kind = v.kind := by cases v <;> rfl

theorem blocksAll_replicate (n : Nat) (k : Kind) : blocksAll (List.replicate n k.empty) = [] := by
  induction n with
  | zero => rfl
  | succ n ih => rw [List.replicate_succ, blocksAll, ih, empty_blocks]; rfl

theorem blocksAll_set (es : List Val) : ∀ (k : Nat) (x y : Val) (c : Nat), es[k]? = some x →
    (blocksAll (es.set k y)).count c + x.blocks.count c = (blocksAll es).count c + y.blocks.count c := by
  induction es with
  | nil => intro k x y c h; cases h
  | cons e es ih =>
    intro k x y c h
    cases k with
    | zero =>
      cases h
      simp only [List.set_cons_zero, blocksAll, List.count_append]
      omega
    | succ k =>
      have := ih k x y c h
      simp only [List.set_cons_succ, blocksAll, List.count_append] at this ⊢
      omega

theorem withElems_blocks (v : Val) (es es' : List Val) (h : v.elems = some es) (c : Nat) :
    (v.withElems es').blocks.count c + (blocksAll es).count c = v.blocks.count c + (blocksAll es').count c := by
  cases v with
  | str o => cases h
  | dict => cases h
  | vec b k l => cases h; simp only [Val.withElems, Val.blocks, List.count_append]; omega
  | arr b l => cases h; simp only [Val.withElems, Val.blocks, List.count_append]; omega

mutual
theorem drop_owns : ∀ (v : Val) {h : Heap} {rest : List Nat}, Owns h (v.blocks ++ rest) →
    ∃ h', drop v h = .ok h' ∧ Owns h' rest ∧ h'.refused = h.refused
  | .str o, h, rest, ho => dropStr_owns o ho
  | .vec b _ es, h, rest, ho => by
    rw [Val.blocks] at ho
    obtain ⟨h1, e1, o1, r1⟩ := dropAll_owns es (rest := b.toList ++ rest) (ho.congr fun c => by simp only [List.count_append]; omega)
    obtain ⟨h2, e2, o2, r2⟩ := freeOpt_owns b o1
    exact ⟨h2, by rw [drop, e1, Outcome.bind_ok, e2], o2, r2.trans r1⟩
  | .arr b es, h, rest, ho => by
    rw [Val.blocks] at ho
    obtain ⟨h1, e1, o1, r1⟩ := dropAll_owns es (rest := b.toList ++ rest) (ho.congr fun c => by simp only [List.count_append]; omega)
    obtain ⟨h2, e2, o2, r2⟩ := freeOpt_owns b o1
    exact ⟨h2, by rw [drop, e1, Outcome.bind_ok, e2], o2, r2.trans r1⟩
  | .dict kb _ ks vb _ vs, h, rest, ho => by
    rw [Val.blocks] at ho
    obtain ⟨h1, e1, o1, r1⟩ := dropAll_owns vs (rest := vb.toList ++ (blocksAll ks ++ (kb.toList ++ rest)))
      (ho.congr fun c => by simp only [List.count_append]; omega)
    obtain ⟨h2, e2, o2, r2⟩ := freeOpt_owns vb o1
    obtain ⟨h3, e3, o3, r3⟩ := dropAll_owns ks o2
    obtain ⟨h4, e4, o4, r4⟩ := freeOpt_owns kb o3
    exact ⟨h4, by rw [drop, e1, Outcome.bind_ok, e2, Outcome.bind_ok, e3, Outcome.bind_ok, e4], o4, by omega⟩
theorem dropAll_owns : ∀ (vs : List Val) {h : Heap} {rest : List Nat}, Owns h (blocksAll vs ++ rest) →
    ∃ h', dropAll vs h = .ok h' ∧ Owns h' rest ∧ h'.refused = h.refused
  | [], h, rest, ho => ⟨h, by rw [dropAll], ho, rfl⟩
  | v :: vs, h, rest, ho => by
    rw [blocksAll, List.append_assoc] at ho
    obtain ⟨h1, e1, o1, r1⟩ := drop_owns v ho
    obtain ⟨h2, e2, o2, r2⟩ := dropAll_owns vs o1
    exact ⟨h2, by rw [dropAll, e1, Outcome.bind_ok, e2], o2, r2.trans r1⟩
end

/-! ### Nothing that is not given out can be given back -/

/-- An outcome that is undefined, or that leaves no more blocks out than before and started with `b` out. -/
def Needs (b : Nat) (h : Heap) (r : Outcome Heap) : Prop :=
  r = .ub ∨ ∃ h', r = .ok h' ∧ b ∈ h.live

def Shrinks (h : Heap) (r : Outcome Heap) : Prop :=
  r = .ub ∨ ∃ h', r = .ok h' ∧ ∀ b, b ∈ h'.live → b ∈ h.live

theorem free_shrinks (h : Heap) (b : Nat) : Shrinks h (free h b) := by
  rw [free]
  split
  · exact .inr ⟨_, rfl, fun c hc => List.mem_of_mem_erase hc⟩
  · exact .inl rfl

theorem freeOpt_shrinks (h : Heap) (b : Option Nat) : Shrinks h (freeOpt h b) := by
  cases b with
  | none => exact .inr ⟨h, rfl, fun _ hc => hc⟩
  | some b => exact free_shrinks h b

theorem bind_shrinks {h : Heap} {r : Outcome Heap} {f : Heap → Outcome Heap} (hr : Shrinks h r) (hf : ∀ h', Shrinks h' (f h')) :
    Shrinks h (r >>= f) := by
  rcases hr with rfl | ⟨h1, rfl, s1⟩
  · exact .inl rfl
  · rw [Outcome.bind_ok]
    rcases hf h1 with e | ⟨h2, e, s2⟩
    · exact .inl e
    · exact .inr ⟨h2, e, fun b hb => s1 b (s2 b hb)⟩

mutual
theorem drop_shrinks : ∀ (v : Val) (h : Heap), Shrinks h (drop v h)
  | .str o, h => by rw [drop]; exact freeOpt_shrinks h o.block
  | .vec b _ es, h => by rw [drop]; exact bind_shrinks (dropAll_shrinks es h) fun h' => freeOpt_shrinks h' b
  | .arr b es, h => by rw [drop]; exact bind_shrinks (dropAll_shrinks es h) fun h' => freeOpt_shrinks h' b
  | .dict kb _ ks vb _ vs, h => by
    rw [drop]
    exact bind_shrinks (dropAll_shrinks vs h) fun h1 => bind_shrinks (freeOpt_shrinks h1 vb) fun h2 =>
      bind_shrinks (dropAll_shrinks ks h2) fun h3 => freeOpt_shrinks h3 kb
theorem dropAll_shrinks : ∀ (vs : List Val) (h : Heap), Shrinks h (dropAll vs h)
  | [], h => by rw [dropAll]; exact .inr ⟨h, rfl, fun _ hc => hc⟩
  | v :: vs, h => by rw [dropAll]; exact bind_shrinks (drop_shrinks v h) fun h' => dropAll_shrinks vs h'
end

theorem needs_left {h : Heap} {r : Outcome Heap} {f : Heap → Outcome Heap} {b : Nat} (hr : Needs b h r) (hf : ∀ h', Shrinks h' (f h')) :
    Needs b h (r >>= f) := by
  rcases hr with rfl | ⟨h1, rfl, m⟩
  · exact .inl rfl
  · rw [Outcome.bind_ok]
    rcases hf h1 with e | ⟨h2, e, _⟩
    · exact .inl e
    · exact .inr ⟨h2, e, m⟩

theorem needs_right {h : Heap} {r : Outcome Heap} {f : Heap → Outcome Heap} {b : Nat} (hr : Shrinks h r) (hf : ∀ h', Needs b h' (f h')) :
    Needs b h (r >>= f) := by
  rcases hr with rfl | ⟨h1, rfl, s1⟩
  · exact .inl rfl
  · rw [Outcome.bind_ok]
    rcases hf h1 with e | ⟨h2, e, m⟩
    · exact .inl e
    · exact .inr ⟨h2, e, s1 b m⟩

theorem freeOpt_needs {b : Nat} (o : Option Nat) (hb : b ∈ o.toList) (h : Heap) : Needs b h (freeOpt h o) := by
  cases o with
  | none => cases hb
  | some c =>
    have : b = c := by simpa using hb
    subst this
    rw [freeOpt, free]
    split
    · rename_i hm; exact .inr ⟨_, rfl, hm⟩
    · exact .inl rfl

mutual
theorem drop_needs : ∀ (v : Val) {b : Nat}, b ∈ v.blocks → ∀ h, Needs b h (drop v h)
  | .str o, b, hb, h => by rw [drop]; exact freeOpt_needs o.block hb h
  | .vec b' _ es, b, hb, h => by
    rw [drop]
    rw [Val.blocks] at hb
    rcases List.mem_append.mp hb with hb | hb
    · exact needs_right (dropAll_shrinks es h) fun h' => freeOpt_needs b' hb h'
    · exact needs_left (dropAll_needs es hb h) fun h' => freeOpt_shrinks h' b'
  | .arr b' es, b, hb, h => by
    rw [drop]
    rw [Val.blocks] at hb
    rcases List.mem_append.mp hb with hb | hb
    · exact needs_right (dropAll_shrinks es h) fun h' => freeOpt_needs b' hb h'
    · exact needs_left (dropAll_needs es hb h) fun h' => freeOpt_shrinks h' b'
  | .dict kb _ ks vb _ vs, b, hb, h => by
    rw [drop]
    rw [Val.blocks] at hb
    have s3 : ∀ h, Shrinks h (freeOpt h kb) := fun h => freeOpt_shrinks h kb
    have s2 : ∀ h, Shrinks h (dropAll ks h >>= fun h3 => freeOpt h3 kb) := fun h => bind_shrinks (dropAll_shrinks ks h) s3
    have s1 : ∀ h, Shrinks h (freeOpt h vb >>= fun h2 => dropAll ks h2 >>= fun h3 => freeOpt h3 kb) :=
      fun h => bind_shrinks (freeOpt_shrinks h vb) s2
    rcases List.mem_append.mp hb with hb | hb
    · rcases List.mem_append.mp hb with hb | hb
      · exact needs_right (dropAll_shrinks vs h) fun h1 => needs_right (freeOpt_shrinks h1 vb) fun h2 =>
          needs_right (dropAll_shrinks ks h2) fun h3 => freeOpt_needs kb hb h3
      · exact needs_right (dropAll_shrinks vs h) fun h1 => needs_right (freeOpt_shrinks h1 vb) fun h2 =>
          needs_left (dropAll_needs ks hb h2) s3
    · rcases List.mem_append.mp hb with hb | hb
      · exact needs_right (dropAll_shrinks vs h) fun h1 => needs_left (freeOpt_needs vb hb h1) s2
      · exact needs_left (dropAll_needs vs hb h) s1
theorem dropAll_needs : ∀ (vs : List Val) {b : Nat}, b ∈ blocksAll vs → ∀ h, Needs b h (dropAll vs h)
  | [], b, hb, h => by cases hb
  | v :: vs, b, hb, h => by
    rw [dropAll]
    rw [blocksAll] at hb
    rcases List.mem_append.mp hb with hb | hb
    · exact needs_left (drop_needs v hb h) fun h' => dropAll_shrinks vs h'
    · exact needs_right (drop_shrinks v h) fun h' => dropAll_needs vs hb h'
end

/-! ### Variables -/

theorem get_eq {vs : Vars} {i : Nat} {v : Val} (h : get vs i = some v) : vs[i]? = some (some v) := by
  rw [get] at h
  cases hv : vs[i]? with
  | none => rw [hv] at h; cases h
  | some o => rw [hv] at h; exact congrArg some h

theorem get_set (vs : Vars) (i j : Nat) (p q : Val) (hp : get vs i = some p) :
    get (vs.set i (some q)) j = if i = j then some q else get vs j := by
  have hl : i < vs.length := (List.getElem?_eq_some_iff.mp (get_eq hp)).1
  rw [get, get, List.getElem?_set]
  split
  · rename_i h
    subst h
    rfl
  · rfl

theorem allBlocks_set (vs : Vars) : ∀ (i : Nat) (p : Val) (q : Option Val) (b : Nat), get vs i = some p →
    (allBlocks (vs.set i q)).count b + p.blocks.count b = (allBlocks vs).count b + ((q.map Val.blocks).getD []).count b := by
  induction vs with
  | nil => intro i p q b h; cases h
  | cons o vs ih =>
    intro i p q b h
    cases i with
    | zero =>
      have ho : o = some p := by
        have := get_eq h
        simpa using this
      subst ho
      simp only [List.set_cons_zero, allBlocks, List.flatMap_cons, List.count_append, Option.map_some, Option.getD_some]
      omega
    | succ i =>
      have := ih i p q b h
      simp only [List.set_cons_succ, allBlocks, List.flatMap_cons, List.count_append] at this ⊢
      omega

/-- A variable gets another value. -/
theorem count_set {vs : Vars} {i : Nat} {p : Val} (q : Val) (b : Nat) (h : get vs i = some p) :
    (allBlocks (vs.set i (some q))).count b + p.blocks.count b = (allBlocks vs).count b + q.blocks.count b :=
  allBlocks_set vs i p (some q) b h

theorem count_append (vs : Vars) (p : Val) (b : Nat) :
    (allBlocks (vs ++ [some p])).count b = (allBlocks vs).count b + p.blocks.count b := by
  simp [allBlocks, List.flatMap_append, List.count_append]

theorem moveAll_count (is : List Nat) : ∀ (vs vs' : Vars) (xs : List Val), moveAll vs is = some (xs, vs') →
    xs.length = is.length ∧ ∀ c, (allBlocks vs').count c + (blocksAll xs).count c = (allBlocks vs).count c := by
  induction is with
  | nil => intro vs vs' xs h; cases h; exact ⟨rfl, fun c => rfl⟩
  | cons i is ih =>
    intro vs vs' xs h
    rw [moveAll] at h
    cases hg : get vs i with
    | none => rw [hg] at h; cases h
    | some v =>
      rw [hg] at h
      dsimp only at h
      cases hm : moveAll (vs.set i (some v.left)) is with
      | none => rw [hm] at h; cases h
      | some r =>
        obtain ⟨ys, ws⟩ := r
        rw [hm] at h
        cases h
        obtain ⟨l, k⟩ := ih _ _ _ hm
        refine ⟨by simp only [List.length_cons, l], fun c => ?_⟩
        have h1 := k c
        have h2 := count_set v.left c hg
        rw [left_blocks, List.count_nil] at h2
        simp only [blocksAll, List.count_append]
        omega

end Solace.Nested
