import Verif.Spec.NestedViews
import Verif.Lemmas.NestedMemory
/- Lemmas on what blocks are used for in containers of owning objects. -/
namespace Solace.Nested
open PathMem

mutual
/-- The blocks of an object with what they are for: the characters of a string, or elements. -/
def Val.owners : Val → List (Nat × Option (List Byte))
  | .str o => (o.block.map fun b => (b, some o.text)).toList
  | .vec b _ es => (b.map fun b => (b, none)).toList ++ ownersAll es
  | .arr b es => (b.map fun b => (b, none)).toList ++ ownersAll es
  | .dict kb _ ks vb _ vs =>
    (kb.map fun b => (b, none)).toList ++ ownersAll ks ++ ((vb.map fun b => (b, none)).toList ++ ownersAll vs)
def ownersAll : List Val → List (Nat × Option (List Byte))
  | [] => []
  | v :: vs => v.owners ++ ownersAll vs
end

theorem opt_fst {α : Type} (b : Option Nat) (f : α) : ((b.map fun b => (b, f)).toList).map Prod.fst = b.toList := by
  cases b <;> rfl

mutual
theorem owners_fst : ∀ (v : Val), v.owners.map Prod.fst = v.blocks
  | .str o => by rw [Val.owners, Val.blocks, opt_fst]; rfl
  | .vec b _ es => by rw [Val.owners, Val.blocks, List.map_append, opt_fst, ownersAll_fst es]
  | .arr b es => by rw [Val.owners, Val.blocks, List.map_append, opt_fst, ownersAll_fst es]
  | .dict kb _ ks vb _ vs => by
    rw [Val.owners, Val.blocks, List.map_append, List.map_append, List.map_append, opt_fst, opt_fst, ownersAll_fst ks, ownersAll_fst vs]
theorem ownersAll_fst : ∀ (vs : List Val), (ownersAll vs).map Prod.fst = blocksAll vs
  | [] => rfl
  | v :: vs => by rw [ownersAll, blocksAll, List.map_append, owners_fst v, ownersAll_fst vs]
end

theorem opt_mem {α : Type} (b : Option Nat) (f : α) (c : Nat) (d : α) :
    (c, d) ∈ (b.map fun b => (b, f)).toList ↔ b = some c ∧ d = f := by
  cases b with
  | none => simp
  | some b => simp only [Option.map_some, Option.toList_some, List.mem_singleton, Prod.mk.injEq, Option.some.injEq, eq_comm]

mutual
theorem strings_iff (b : Nat) (t : List Byte) : ∀ (v : Val), (b, t) ∈ v.strings ↔ (b, some t) ∈ v.owners
  | .str o => by rw [Val.strings, Val.owners, opt_mem, opt_mem, Option.some.injEq]
  | .vec c _ es => by
    rw [Val.strings, Val.owners, List.mem_append, opt_mem, stringsAll_iff b t es]; simp
  | .arr c es => by rw [Val.strings, Val.owners, List.mem_append, opt_mem, stringsAll_iff b t es]; simp
  | .dict kb _ ks vb _ vs => by
    rw [Val.strings, Val.owners, List.mem_append, List.mem_append, List.mem_append, List.mem_append, opt_mem, opt_mem,
      stringsAll_iff b t ks, stringsAll_iff b t vs]; simp
theorem stringsAll_iff (b : Nat) (t : List Byte) : ∀ (vs : List Val), (b, t) ∈ stringsAll vs ↔ (b, some t) ∈ ownersAll vs
  | [] => by simp [stringsAll, ownersAll]
  | v :: vs => by rw [stringsAll, ownersAll, List.mem_append, List.mem_append, strings_iff b t v, stringsAll_iff b t vs]
end

theorem opt_exists (c : Option Nat) (b : Nat) (es : List Val) :
    (b, (none : Option (List Byte))) ∈ (c.map fun b => (b, none)).toList ↔ (b, es) ∈ (c.map fun b => (b, es)).toList := by
  rw [opt_mem, opt_mem]; simp

mutual
theorem arrays_iff (b : Nat) : ∀ (v : Val), (∃ es, (b, es) ∈ v.arrays) ↔ (b, none) ∈ v.owners
  | .str o => by rw [Val.owners, opt_mem]; simp [Val.arrays]
  | .vec c _ es => by
    simp only [Val.arrays, Val.owners, List.mem_append, opt_mem, ← arraysAll_iff b es, exists_or]; simp
  | .arr c es => by
    simp only [Val.arrays, Val.owners, List.mem_append, opt_mem, ← arraysAll_iff b es, exists_or]; simp
  | .dict kb _ ks vb _ vs => by
    simp only [Val.arrays, Val.owners, List.mem_append, opt_mem, ← arraysAll_iff b ks, ← arraysAll_iff b vs, exists_or]; simp
theorem arraysAll_iff (b : Nat) : ∀ (vs : List Val), (∃ es, (b, es) ∈ arraysAll vs) ↔ (b, none) ∈ ownersAll vs
  | [] => by simp [arraysAll, ownersAll]
  | v :: vs => by simp only [arraysAll, ownersAll, List.mem_append, exists_or, arrays_iff b v, arraysAll_iff b vs]
end

theorem mem_ownersAll {vs : List Val} {o : Nat × Option (List Byte)} : o ∈ ownersAll vs ↔ ∃ v ∈ vs, o ∈ v.owners := by
  induction vs with
  | nil => simp [ownersAll]
  | cons v vs ih => simp [ownersAll, ih]

theorem mem_arraysAll {vs : List Val} {o : Nat × List Val} : o ∈ arraysAll vs ↔ ∃ v ∈ vs, o ∈ v.arrays := by
  induction vs with
  | nil => simp [arraysAll]
  | cons v vs ih => simp [arraysAll, ih]

theorem empty_owners (k : Kind) : k.empty.owners = [] := by cases k <;> rfl

theorem left_owners (v : Val) : v.left.owners = [] := empty_owners _

theorem empty_arrays (k : Kind) : k.empty.arrays = [] := by cases k <;> rfl

theorem left_arrays (v : Val) : v.left.arrays = [] := empty_arrays _

/-- A block of the variables, with what it is for. -/
def Own (vs : Vars) (o : Nat × Option (List Byte)) : Prop := ∃ v, some v ∈ vs ∧ o ∈ v.owners

theorem get_mem {vs : Vars} {i : Nat} {v : Val} (h : get vs i = some v) : some v ∈ vs := List.mem_of_getElem? (get_eq h)

theorem own_get {vs : Vars} {i : Nat} {v : Val} {o : Nat × Option (List Byte)} (h : get vs i = some v) (ho : o ∈ v.owners) : Own vs o :=
  ⟨v, get_mem h, ho⟩

theorem own_set {vs : Vars} {i : Nat} {y : Val} {o : Nat × Option (List Byte)} (h : Own (vs.set i (some y)) o) : Own vs o ∨ o ∈ y.owners := by
  obtain ⟨v, hv, ho⟩ := h
  rcases List.mem_or_eq_of_mem_set hv with hv | hv
  · exact .inl ⟨v, hv, ho⟩
  · cases hv; exact .inr ho

theorem own_clear {vs : Vars} {i : Nat} {o : Nat × Option (List Byte)} (h : Own (vs.set i none) o) : Own vs o := by
  obtain ⟨v, hv, ho⟩ := h
  rcases List.mem_or_eq_of_mem_set hv with hv | hv
  · exact ⟨v, hv, ho⟩
  · cases hv

theorem own_left {vs : Vars} {i : Nat} {y : Val} {o : Nat × Option (List Byte)} (h : Own (vs.set i (some y.left)) o) : Own vs o := by
  rcases own_set h with h | h
  · exact h
  · rw [left_owners] at h; cases h

theorem own_empty {vs : Vars} {i : Nat} {k : Kind} {o : Nat × Option (List Byte)} (h : Own (vs.set i (some k.empty)) o) : Own vs o := by
  rcases own_set h with h | h
  · exact h
  · rw [empty_owners] at h; cases h

theorem own_append {vs : Vars} {y : Val} {o : Nat × Option (List Byte)} (h : Own (vs ++ [some y]) o) : Own vs o ∨ o ∈ y.owners := by
  obtain ⟨v, hv, ho⟩ := h
  rcases List.mem_append.mp hv with hv | hv
  · exact .inl ⟨v, hv, ho⟩
  · cases List.mem_singleton.mp hv; exact .inr ho

theorem mem_allBlocks {vs : Vars} {b : Nat} : b ∈ allBlocks vs ↔ ∃ v, some v ∈ vs ∧ b ∈ v.blocks := by
  rw [allBlocks, List.mem_flatMap]
  constructor
  · rintro ⟨o, ho, hb⟩
    cases o with
    | none => cases hb
    | some v => exact ⟨v, ho, hb⟩
  · rintro ⟨v, hv, hb⟩
    exact ⟨some v, hv, hb⟩

theorem own_blocks {vs : Vars} {b : Nat} : b ∈ allBlocks vs ↔ ∃ t, Own vs (b, t) := by
  rw [mem_allBlocks]
  constructor
  · rintro ⟨v, hv, hb⟩
    rw [← owners_fst, List.mem_map] at hb
    obtain ⟨⟨c, t⟩, hm, he⟩ := hb
    cases he
    exact ⟨t, v, hv, hm⟩
  · rintro ⟨t, v, hv, hm⟩
    refine ⟨v, hv, ?_⟩
    rw [← owners_fst, List.mem_map]
    exact ⟨_, hm, rfl⟩

theorem moveAll_own (is : List Nat) : ∀ (vs vs' : Vars) (xs : List Val), moveAll vs is = some (xs, vs') →
    (∀ o, Own vs' o → Own vs o) ∧ (∀ o, o ∈ ownersAll xs → Own vs o) := by
  induction is with
  | nil =>
    intro vs vs' xs h
    rw [moveAll] at h
    cases h
    exact ⟨fun _ h => h, fun o h => by cases h⟩
  | cons i is ih =>
    intro vs vs' xs h
    rw [moveAll] at h
    cases hg : get vs i with
    | none => rw [hg] at h; cases h
    | some v =>
      rw [hg] at h
      dsimp only at h
      cases hm : moveAll (vs.set i (some v.left)) is with
      | none => rw [hm] at h; cases h
      | some r =>
        obtain ⟨ys, ws⟩ := r
        rw [hm] at h
        cases h
        obtain ⟨h1, h2⟩ := ih _ _ _ hm
        refine ⟨fun o ho => own_left (h1 o ho), fun o ho => ?_⟩
        rw [ownersAll, List.mem_append] at ho
        exact ho.elim (own_get hg) fun h => own_left (h2 o h)

/-! ### Destruction gives no blocks out -/

def SameNext (h : Heap) (r : Outcome Heap) : Prop := ∀ h', r = .ok h' → h'.next = h.next

theorem freeOpt_next (h : Heap) (b : Option Nat) : SameNext h (freeOpt h b) := by
  intro h' e
  cases b with
  | none => cases e; rfl
  | some b =>
    rw [freeOpt, free] at e
    split at e
    · cases e; rfl
    · cases e

theorem bind_next {h : Heap} {r : Outcome Heap} {f : Heap → Outcome Heap} (hr : SameNext h r) (hf : ∀ h', SameNext h' (f h')) :
    SameNext h (r >>= f) := by
  intro h' e
  cases r with
  | ok h1 =>
    rw [Outcome.bind_ok] at e
    rw [hf h1 h' e, hr h1 rfl]
  | throws => cases e
  | terminate => cases e
  | ub => cases e

mutual
theorem drop_next : ∀ (v : Val) (h : Heap), SameNext h (drop v h)
  | .str o, h => by rw [drop]; exact freeOpt_next h o.block
  | .vec b _ es, h => by rw [drop]; exact bind_next (dropAll_next es h) fun h' => freeOpt_next h' b
  | .arr b es, h => by rw [drop]; exact bind_next (dropAll_next es h) fun h' => freeOpt_next h' b
  | .dict kb _ ks vb _ vs, h => by
    rw [drop]
    exact bind_next (dropAll_next vs h) fun h1 => bind_next (freeOpt_next h1 vb) fun h2 =>
      bind_next (dropAll_next ks h2) fun h3 => freeOpt_next h3 kb
theorem dropAll_next : ∀ (vs : List Val) (h : Heap), SameNext h (dropAll vs h)
  | [], h => by rw [dropAll]; intro h' e; cases e; rfl
  | v :: vs, h => by rw [dropAll]; exact bind_next (drop_next v h) fun h' => dropAll_next vs h'
end

/-- What follows a destruction that has an outcome. -/
theorem bind_some {α β : Type} {r : Outcome α} {f : α → Outcome β} {b : β} (h : (r >>= f) = .ok b) : ∃ a, r = .ok a ∧ f a = .ok b := by
  cases r with
  | ok a => exact ⟨a, rfl, h⟩
  | throws => cases h
  | terminate => cases h
  | ub => cases h

theorem allocate_next {g : Policy} {h h1 : Heap} {n : Nat} {r : Except Err (Nat × MutView)} (ha : allocate g h n = (h1, r)) :
    h.next ≤ h1.next ∧ (∀ b, b ∈ h.live → b ∈ h1.live) ∧ ∀ b v, r = .ok (b, v) → b = h.next ∧ h1.live = h.next :: h.live := by
  rw [allocate] at ha
  split at ha
  · cases ha; exact ⟨Nat.le_refl _, fun _ h => h, fun _ _ e => by cases e⟩
  · cases ha
    exact ⟨Nat.le_succ _, fun _ h => List.mem_cons_of_mem _ h, fun b v e => by cases e; exact ⟨rfl, rfl⟩⟩

/-- The block of a new string is new, and the request for it takes no block away. -/
theorem newStr_next {g : Policy} {h h' : Heap} {s : List Byte} {r : Except Err SObj} (e : newStr g h s = .ok (h', r)) :
    h.next ≤ h'.next ∧ (∀ b, b ∈ h.live → b < h.next → b ∈ h'.live) ∧ ∀ o b, r = .ok o → o.block = some b → h.next ≤ b := by
  rw [newStr] at e
  cases ha : allocate g h s.length with
  | mk h1 r1 =>
    rw [ha] at e
    obtain ⟨n1, l1, f1⟩ := allocate_next ha
    cases r1 with
    | error x => cases e; exact ⟨n1, fun b hb _ => l1 b hb, fun _ _ e => by cases e⟩
    | ok bv =>
      obtain ⟨b, v⟩ := bv
      obtain ⟨rfl, hl⟩ := f1 b v rfl
      dsimp only at e
      split at e
      · obtain ⟨h2, e2, e3⟩ := bind_some e
        cases e3
        have hn := freeOpt_next h1 (some h.next) h' e2
        refine ⟨by omega, fun b hb hlt => ?_, fun _ _ e => by cases e⟩
        rw [free, hl] at e2
        split at e2
        · cases e2
          show b ∈ (h.next :: h.live).erase h.next
          rw [List.erase_cons_head]; exact hb
        · cases e2
      · cases e
        exact ⟨n1, fun b hb _ => l1 b hb, fun o b e hb => by cases e; cases hb; exact Nat.le_refl _⟩

/-! ### Elements -/

theorem holds_set {vs : Vars} {i : Nat} {v : Val} {y : Option Val} {b : Nat} {es : List Val} (hg : get vs i = some v) (h : Holds vs b es) :
    Holds (vs.set i y) b es ∨ (b, es) ∈ v.arrays := by
  obtain ⟨w, hw, hm⟩ := h
  obtain ⟨k, hk⟩ := List.mem_iff_getElem?.mp hw
  by_cases hik : i = k
  · subst hik
    rw [get_eq hg] at hk
    cases hk
    exact .inr hm
  · refine .inl ⟨w, List.mem_iff_getElem?.mpr ⟨k, ?_⟩, hm⟩
    rw [List.getElem?_set_ne hik, hk]

theorem holds_new {vs : Vars} {i : Nat} {v y : Val} {b : Nat} {es : List Val} (hg : get vs i = some v) (h : (b, es) ∈ y.arrays) :
    Holds (vs.set i (some y)) b es := by
  refine ⟨y, List.mem_iff_getElem?.mpr ⟨i, ?_⟩, h⟩
  have := get_eq hg
  rw [List.getElem?_set_self]
  exact (List.getElem?_eq_some_iff.mp this).1

theorem holds_get {vs : Vars} {i : Nat} {y : Val} {b : Nat} {es : List Val} (hg : get vs i = some y) (h : (b, es) ∈ y.arrays) : Holds vs b es :=
  ⟨y, get_mem hg, h⟩

theorem holds_left {vs : Vars} {y : Option Val} {b : Nat} {es : List Val} (h : Holds vs b es) : Holds (vs ++ [y]) b es := by
  obtain ⟨w, hw, hm⟩ := h
  exact ⟨w, List.mem_append_left _ hw, hm⟩

theorem holds_last {vs : Vars} {y : Val} {b : Nat} {es : List Val} (h : (b, es) ∈ y.arrays) : Holds (vs ++ [some y]) b es :=
  ⟨y, List.mem_append_right _ (List.mem_singleton.mpr rfl), h⟩

theorem moveAll_holds (is : List Nat) : ∀ (vs vs' : Vars) (xs : List Val), moveAll vs is = some (xs, vs') →
    ∀ b es, Holds vs b es → Holds vs' b es ∨ (b, es) ∈ arraysAll xs := by
  induction is with
  | nil =>
    intro vs vs' xs h b es hh
    rw [moveAll] at h
    cases h
    exact .inl hh
  | cons i is ih =>
    intro vs vs' xs h b es hh
    rw [moveAll] at h
    cases hg : get vs i with
    | none => rw [hg] at h; cases h
    | some v =>
      rw [hg] at h
      dsimp only at h
      cases hm : moveAll (vs.set i (some v.left)) is with
      | none => rw [hm] at h; cases h
      | some r =>
        obtain ⟨ys, ws⟩ := r
        rw [hm] at h
        cases h
        rw [arraysAll, List.mem_append]
        rcases holds_set (y := some v.left) hg hh with h | h
        · exact (ih _ _ _ hm b es h).elim .inl fun h => .inr (.inr h)
        · exact .inr (.inl h)

end Solace.Nested
