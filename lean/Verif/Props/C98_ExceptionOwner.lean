import Verif.Model.ExceptionOwner
/-
C98: the memory of the text of an exception is freed exactly once, and the text survives moving.
-/
namespace Solace.ExnOwner

/-- A live variable. -/
def Live (w : World) (v : Nat) (o : Obj) : Prop := w.objs[v]? = some (some o)

/-- Some live variable will free the block. -/
def Owned (w : World) (b : Nat) : Prop := ∃ v o, Live w v o ∧ o.block = some b

/-- Allocated, not freed. -/
def Allocated (w : World) (b : Nat) : Prop := ∃ bytes, w.blocks[b]? = some (some bytes)

/-- Allocated and no longer reachable by a variable. -/
def Lost (w : World) (b : Nat) : Prop := Allocated w b ∧ ¬Owned w b

/-- Every block a variable points to is allocated, and has one owner. -/
structure Inv (w : World) : Prop where
  alive : ∀ v o b, Live w v o → o.block = some b → Allocated w b
  single : ∀ v u o o' b, Live w v o → Live w u o' → o.block = some b → o'.block = some b → v = u

/-! ### The operations, seen from their result -/

theorem live_upd (objs : List (Option Obj)) (v : Nat) (f : Obj → Obj) (u : Nat) :
    (upd objs v f)[u]? = if u = v then (objs[u]?).map (·.map f) else objs[u]? := by
  rw [upd, List.getElem?_modify]
  by_cases h : u = v
  · subst h; simp
  · have h' : ¬v = u := fun e => h e.symm
    simp [h, h']

theorem lt_of_live {w : World} {v : Nat} {o : Obj} (h : Live w v o) : v < w.objs.length :=
  (List.getElem?_eq_some_iff.mp h).1

theorem move_live {w : World} {v : Nat} {o : Obj} (h : Live w v o) (u : Nat) (o' : Obj) :
    Live (move w v) u o' ↔ (u ≠ v ∧ Live w u o') ∨ (u = v ∧ o' = ⟨o.size, none⟩) ∨ (u = w.objs.length ∧ o' = o) := by
  have hlt := lt_of_live h
  have hm : move w v = { w with objs := upd w.objs v ({ · with block := none }) ++ [some o] } := by
    unfold move; rw [show w.objs[v]? = some (some o) from h]
  have hlen : (upd w.objs v ({ · with block := none })).length = w.objs.length := by simp [upd]
  rw [hm]
  unfold Live at h ⊢
  simp only
  by_cases hu : u < w.objs.length
  · rw [List.getElem?_append_left (by omega), live_upd]
    by_cases e : u = v
    · subst e
      rw [if_pos rfl, h]
      simp only [Option.map_some, Option.some.injEq, ne_eq, not_true, false_and, true_and, false_or]
      constructor
      · intro e; exact .inl e.symm
      · rintro (e | ⟨e, _⟩)
        · exact e.symm
        · omega
    · rw [if_neg e]
      constructor
      · intro e'; exact .inl ⟨e, e'⟩
      · rintro (⟨_, e'⟩ | ⟨e', _⟩ | ⟨e', _⟩)
        · exact e'
        · exact absurd e' e
        · omega
  · by_cases e : u = w.objs.length
    · subst e
      rw [List.getElem?_append_right (by omega), hlen, Nat.sub_self]
      simp only [List.getElem?_cons_zero, Option.some.injEq]
      constructor
      · intro e; exact .inr (.inr ⟨trivial, e.symm⟩)
      · rintro (⟨_, e⟩ | ⟨e, _⟩ | ⟨_, e⟩)
        · rw [List.getElem?_eq_none (Nat.le_refl _)] at e; cases e
        · omega
        · exact e.symm
    · rw [List.getElem?_eq_none (by simp [hlen]; omega)]
      constructor
      · intro e; cases e
      · rintro (⟨_, e'⟩ | ⟨e', _⟩ | ⟨e', _⟩)
        · rw [List.getElem?_eq_none (by omega)] at e'; cases e'
        · omega
        · omega

theorem move_blocks (w : World) (v : Nat) : (move w v).blocks = w.blocks := by
  unfold move; split <;> rfl

theorem move_dead {w : World} {v : Nat} (h : ∀ o, ¬Live w v o) : move w v = w := by
  unfold move
  split
  · rename_i o ho; exact absurd ho (h o)
  · rfl

theorem assign_blocks (w : World) (v u : Nat) : (assign w v u).blocks = w.blocks := by
  unfold assign; split <;> rfl

theorem assign_live {w : World} {v u : Nat} {a b : Obj} (hv : Live w v a) (hu : Live w u b) (x : Nat) (o : Obj) :
    Live (assign w v u) x o ↔
      if v = u then Live w x o
      else if x = v then o = b
      else if x = u then o = ⟨0, none⟩
      else Live w x o := by
  have hm : assign w v u = ⟨w.blocks, upd (upd (upd (upd w.objs u (fun o => { o with size := 0 })) v
      (fun o => { o with size := b.size })) u (fun o => { o with block := none })) v (fun o => { o with block := b.block })⟩ := by
    unfold assign
    rw [show w.objs[v]? = some (some a) from hv, show w.objs[u]? = some (some b) from hu]
  rw [hm]
  unfold Live at hv hu ⊢
  simp only [live_upd]
  by_cases e : v = u
  · subst e
    rw [hv] at hu
    cases hu
    rw [if_pos rfl]
    by_cases ex : x = v
    · subst ex
      simp [hv]
    · simp [ex]
  · rw [if_neg e]
    by_cases ex : x = v
    · subst ex
      simp only [if_true, if_neg e, hv, Option.map_some, Option.some.injEq]
      exact eq_comm
    · simp only [if_neg ex]
      by_cases eu : x = u
      · subst eu
        simp only [if_true, hu, Option.map_some, Option.some.injEq]
        exact eq_comm
      · simp only [if_neg eu]

theorem assign_dead {w : World} {v u : Nat} (h : (∀ o, ¬Live w v o) ∨ ∀ o, ¬Live w u o) : assign w v u = w := by
  unfold assign
  split
  · rename_i a b hv hu
    rcases h with h | h
    · exact absurd hv (h _)
    · exact absurd hu (h _)
  · rfl

theorem make_live (w : World) (s : Exn.ErrorString) (x : Nat) (o : Obj) :
    Live (make w s) x o ↔ Live w x o ∨ (x = w.objs.length ∧ o = ⟨s.size, s.message.map fun _ => w.blocks.length⟩) := by
  have hobjs : (make w s).objs = w.objs ++ [some ⟨s.size, s.message.map fun _ => w.blocks.length⟩] := by
    unfold make; split <;> rename_i h <;> simp [h]
  unfold Live
  rw [hobjs]
  by_cases hx : x < w.objs.length
  · rw [List.getElem?_append_left hx]
    constructor
    · exact .inl
    · rintro (h | ⟨h, _⟩)
      · exact h
      · omega
  · by_cases e : x = w.objs.length
    · subst e
      simp only [List.getElem?_append_right (Nat.le_refl _), Nat.sub_self, List.getElem?_cons_zero, Option.some.injEq,
        List.getElem?_eq_none (Nat.le_refl _), true_and]
      constructor
      · intro h; exact .inr h.symm
      · rintro (h | h)
        · cases h
        · exact h.symm
    · rw [List.getElem?_eq_none (by simp; omega), List.getElem?_eq_none (by omega)]
      simp [e]

theorem make_blocks (w : World) (s : Exn.ErrorString) :
    (make w s).blocks = w.blocks ++ (match s.message with | none => [] | some b => [some b]) := by
  unfold make; split <;> rename_i h <;> simp [h]

theorem append_alloc {w : World} {b : Nat} (l : List (Option (List Byte))) (h : Allocated w b) :
    Allocated { w with blocks := w.blocks ++ l } b := by
  obtain ⟨bytes, h⟩ := h
  exact ⟨bytes, by
    simp only
    rw [List.getElem?_append_left (List.getElem?_eq_some_iff.mp h).1]
    exact h⟩

/-! ### The invariant -/

theorem lt_of_owned {w : World} (h : Inv w) {v : Nat} {o : Obj} {b : Nat} (hv : Live w v o) (hb : o.block = some b) :
    b < w.blocks.length := by
  obtain ⟨_, hy⟩ := h.alive v o b hv hb
  exact (List.getElem?_eq_some_iff.mp hy).1

theorem Inv.make {w : World} (h : Inv w) (s : Exn.ErrorString) : Inv (make w s) := by
  have hnew : ∀ b, (⟨s.size, s.message.map fun _ => w.blocks.length⟩ : Obj).block = some b → b = w.blocks.length := by
    intro b hb
    simp only [Option.map_eq_some_iff] at hb
    obtain ⟨_, _, e⟩ := hb
    exact e.symm
  constructor
  · intro v o b hv hb
    rw [make_live] at hv
    rcases hv with hv | ⟨_, rfl⟩
    · have ha := h.alive v o b hv hb
      obtain ⟨y, hy⟩ := ha
      exact ⟨y, by rw [make_blocks, List.getElem?_append_left (List.getElem?_eq_some_iff.mp hy).1]; exact hy⟩
    · have := hnew b hb
      subst this
      simp only [Option.map_eq_some_iff] at hb
      obtain ⟨m, hm, _⟩ := hb
      exact ⟨m, by rw [make_blocks, hm, List.getElem?_append_right (Nat.le_refl _), Nat.sub_self]; rfl⟩
  · intro v u o o' b hv hu hb hb'
    rw [make_live] at hv hu
    rcases hv with hv | ⟨e, rfl⟩ <;> rcases hu with hu | ⟨e', rfl⟩
    · exact h.single v u o o' b hv hu hb hb'
    · have := hnew b hb'
      have := lt_of_owned h hv hb
      omega
    · have := hnew b hb
      have := lt_of_owned h hu hb'
      omega
    · omega

theorem Inv.move {w : World} (h : Inv w) (v : Nat) : Inv (move w v) := by
  by_cases hl : ∃ o, Live w v o
  · obtain ⟨o, ho⟩ := hl
    constructor
    · intro x p b hx hb
      rw [move_live ho] at hx
      have : Allocated w b := by
        rcases hx with ⟨_, hx⟩ | ⟨_, rfl⟩ | ⟨_, rfl⟩
        · exact h.alive x p b hx hb
        · cases hb
        · exact h.alive v p b ho hb
      obtain ⟨y, hy⟩ := this
      exact ⟨y, by rw [move_blocks]; exact hy⟩
    · intro x y p q b hx hy hb hb'
      rw [move_live ho] at hx hy
      rcases hx with ⟨n1, hx⟩ | ⟨_, rfl⟩ | ⟨e1, rfl⟩ <;> rcases hy with ⟨n2, hy⟩ | ⟨_, rfl⟩ | ⟨e2, rfl⟩
      · exact h.single x y p q b hx hy hb hb'
      · cases hb'
      · exact absurd (h.single x v p q b hx ho hb hb') n1
      · cases hb
      · cases hb
      · cases hb
      · exact absurd (h.single y v q p b hy ho hb' hb) n2
      · cases hb'
      · omega
  · rw [move_dead (fun o ho => hl ⟨o, ho⟩)]
    exact h

theorem Inv.assign {w : World} (h : Inv w) (v u : Nat) : Inv (assign w v u) := by
  by_cases hl : ∃ a b, Live w v a ∧ Live w u b
  · obtain ⟨a, b, hv, hu⟩ := hl
    by_cases e : v = u
    · have key : ∀ x o, Live (ExnOwner.assign w v u) x o ↔ Live w x o := by
        intro x o; rw [assign_live hv hu, if_pos e]
      constructor
      · intro x o b hx hb
        obtain ⟨y, hy⟩ := h.alive x o b ((key x o).mp hx) hb
        exact ⟨y, by rw [assign_blocks]; exact hy⟩
      · intro x y o o' b hx hy
        exact h.single x y o o' b ((key x o).mp hx) ((key y o').mp hy)
    · have key : ∀ x o, Live (ExnOwner.assign w v u) x o → (x = v ∧ o = b) ∨ (x = u ∧ o = ⟨0, none⟩) ∨ (x ≠ v ∧ x ≠ u ∧ Live w x o) := by
        intro x o hx
        rw [assign_live hv hu, if_neg e] at hx
        by_cases ex : x = v
        · rw [if_pos ex] at hx; exact .inl ⟨ex, hx⟩
        · rw [if_neg ex] at hx
          by_cases eu : x = u
          · rw [if_pos eu] at hx; exact .inr (.inl ⟨eu, hx⟩)
          · rw [if_neg eu] at hx; exact .inr (.inr ⟨ex, eu, hx⟩)
      constructor
      · intro x o c hx hb
        have : Allocated w c := by
          rcases key x o hx with ⟨_, rfl⟩ | ⟨_, rfl⟩ | ⟨_, _, hx⟩
          · exact h.alive u o c hu hb
          · cases hb
          · exact h.alive x o c hx hb
        obtain ⟨y, hy⟩ := this
        exact ⟨y, by rw [assign_blocks]; exact hy⟩
      · intro x y o o' c hx hy hb hb'
        rcases key x o hx with ⟨e1, rfl⟩ | ⟨_, rfl⟩ | ⟨n1, n1', hx⟩ <;>
          rcases key y o' hy with ⟨e2, rfl⟩ | ⟨_, rfl⟩ | ⟨n2, n2', hy⟩
        · omega
        · cases hb'
        · exact absurd (h.single y u o' o c hy hu hb' hb) n2'
        · cases hb
        · cases hb
        · cases hb
        · exact absurd (h.single x u o o' c hx hu hb hb') n1'
        · cases hb'
        · exact h.single x y o o' c hx hy hb hb'
  · rw [assign_dead]
    · exact h
    · by_cases hv : ∃ a, Live w v a
      · obtain ⟨a, hv⟩ := hv
        exact .inr fun o ho => hl ⟨a, o, hv, ho⟩
      · exact .inl fun o ho => hv ⟨o, ho⟩

theorem Inv.drop {w : World} (h : Inv w) (bytes : List Byte) : Inv (drop w bytes) :=
  ⟨fun v o b hv hb => append_alloc [some bytes] (h.alive v o b hv hb), h.single⟩

/-- Destroying a live variable: it is gone, its block is freed, nothing else changes. -/
theorem destroy_live {w : World} (h : Inv w) {v : Nat} {o : Obj} (hv : Live w v o) :
    ∃ w', destroy w v = .ok w' ∧ w'.objs = w.objs.set v none ∧
      ∀ b, w'.blocks[b]? = if o.block = some b then some none else w.blocks[b]? := by
  unfold destroy
  rw [show w.objs[v]? = some (some o) from hv]
  simp only
  cases ho : o.block with
  | none => exact ⟨_, rfl, rfl, fun b => by simp⟩
  | some c =>
    obtain ⟨y, hy⟩ := h.alive v o c hv ho
    have hlt := (List.getElem?_eq_some_iff.mp hy).1
    simp only [hy]
    refine ⟨_, rfl, rfl, fun b => ?_⟩
    simp only [Option.some.injEq]
    by_cases e : c = b
    · subst e; simp [hlt]
    · rw [List.getElem?_set_ne e, if_neg e]

theorem destroy_dead {w : World} {v : Nat} (h : ∀ o, ¬Live w v o) : destroy w v = .ok w := by
  unfold destroy
  split
  · rename_i o ho; exact absurd ho (h o)
  · rfl

theorem live_set_none {w w' : World} {v : Nat} (hw : w'.objs = w.objs.set v none) (x : Nat) (p : Obj) :
    Live w' x p ↔ x ≠ v ∧ Live w x p := by
  unfold Live
  rw [hw]
  by_cases e : x = v
  · subst e
    by_cases hlt : x < w.objs.length
    · simp [hlt]
    · simp [hlt]
  · rw [List.getElem?_set_ne (fun h => e h.symm)]
    simp [e]

theorem Inv.destroy {w w' : World} (h : Inv w) (v : Nat) (hd : destroy w v = .ok w') : Inv w' := by
  by_cases hl : ∃ o, Live w v o
  · obtain ⟨o, ho⟩ := hl
    obtain ⟨w1, e1, e2, e3⟩ := destroy_live h ho
    rw [e1] at hd
    cases hd
    constructor
    · intro x p b hx hb
      rw [live_set_none e2] at hx
      obtain ⟨y, hy⟩ := h.alive x p b hx.2 hb
      refine ⟨y, ?_⟩
      rw [e3, if_neg (fun hc => hx.1 (h.single x v p o b hx.2 ho hb hc))]
      exact hy
    · intro x y p q b hx hy
      rw [live_set_none e2] at hx hy
      exact h.single x y p q b hx.2 hy.2
  · rw [destroy_dead (fun o ho => hl ⟨o, ho⟩)] at hd
    cases hd
    exact h

theorem step_ok {w : World} (h : Inv w) (op : Op) : ∃ w', step w op = .ok w' ∧ Inv w' := by
  cases op with
  | make s => exact ⟨_, rfl, h.make s⟩
  | move v => exact ⟨_, rfl, h.move v⟩
  | assign v u => exact ⟨_, rfl, h.assign v u⟩
  | drop b => exact ⟨_, rfl, h.drop b⟩
  | destroy v =>
    by_cases hl : ∃ o, Live w v o
    · obtain ⟨o, ho⟩ := hl
      obtain ⟨w1, e1, _⟩ := destroy_live h ho
      exact ⟨w1, e1, h.destroy v e1⟩
    · have e := destroy_dead (fun o ho => hl ⟨o, ho⟩)
      exact ⟨w, e, h⟩

theorem run_ok {w : World} (h : Inv w) (ops : List Op) : ∃ w', run w ops = .ok w' ∧ Inv w' := by
  induction ops generalizing w with
  | nil => exact ⟨w, rfl, h⟩
  | cons op ops ih =>
    obtain ⟨w1, e1, h1⟩ := step_ok h op
    obtain ⟨w2, e2, h2⟩ := ih h1
    exact ⟨w2, by rw [run, e1]; exact e2, h2⟩

theorem init_inv : Inv World.init := by
  constructor
  · intro v o b hv; simp [Live, World.init] at hv
  · intro v u o o' b hv; simp [Live, World.init] at hv

/-! ### C98 -/

/-- **C98** (full): no sequence of constructions, moves, assignments and destructions frees memory twice; at any time a
variable's memory is allocated and is no other variable's. -/
theorem C98_never_twice (ops : List Op) :
    ∃ w, run .init ops = .ok w ∧
      (∀ v o b, Live w v o → o.block = some b → Allocated w b) ∧
      ∀ v u o o' b, Live w v o → Live w u o' → o.block = some b → o'.block = some b → v = u := by
  obtain ⟨w, h1, h2⟩ := run_ok init_inv ops
  exact ⟨w, h1, h2.alive, h2.single⟩

/-- **C98**: what one operation loses. A block becomes unreachable exactly when a writer is dropped without `build`, or when
another text is assigned to the variable that owns it. -/
theorem C98_lost_iff (w w' : World) (h : Inv w) (op : Op) (hs : step w op = .ok w') (b : Nat) :
    Lost w' b ↔ Lost w b ∨ (∃ bytes, op = .drop bytes ∧ b = w.blocks.length) ∨
      ∃ v u a c, op = .assign v u ∧ v ≠ u ∧ Live w v a ∧ Live w u c ∧ a.block = some b := by
  cases op with
  | make s =>
    cases hs
    simp only [reduceCtorEq, false_and, exists_false, or_false]
    unfold Lost Owned
    constructor
    · rintro ⟨⟨y, hy⟩, ho⟩
      rw [make_blocks] at hy
      by_cases hb : b < w.blocks.length
      · rw [List.getElem?_append_left hb] at hy
        exact ⟨⟨y, hy⟩, fun ⟨v, o, hv, hob⟩ => ho ⟨v, o, (make_live w s v o).mpr (.inl hv), hob⟩⟩
      · exfalso
        apply ho
        have hm := make_live w s w.objs.length ⟨s.size, s.message.map fun _ => w.blocks.length⟩
        refine ⟨_, _, hm.mpr (.inr ⟨rfl, rfl⟩), ?_⟩
        cases hmsg : s.message with
        | none => rw [hmsg, List.append_nil, List.getElem?_eq_none (by omega)] at hy; cases hy
        | some m =>
          rw [hmsg] at hy
          have := (List.getElem?_eq_some_iff.mp hy).1
          simp at this
          simp only [Option.map_some, Option.some.injEq]
          omega
    · rintro ⟨⟨y, hy⟩, ho⟩
      have hb := (List.getElem?_eq_some_iff.mp hy).1
      refine ⟨⟨y, by rw [make_blocks, List.getElem?_append_left hb]; exact hy⟩, ?_⟩
      rintro ⟨v, o, hv, hob⟩
      rw [make_live] at hv
      rcases hv with hv | ⟨_, rfl⟩
      · exact ho ⟨v, o, hv, hob⟩
      · simp only [Option.map_eq_some_iff] at hob
        obtain ⟨_, _, e⟩ := hob
        omega
  | move v =>
    cases hs
    simp only [reduceCtorEq, false_and, exists_false, or_false]
    by_cases hl : ∃ o, Live w v o
    · obtain ⟨o, ho⟩ := hl
      have hown : Owned (move w v) b ↔ Owned w b := by
        unfold Owned
        constructor
        · rintro ⟨x, p, hx, hp⟩
          rw [move_live ho] at hx
          rcases hx with ⟨_, hx⟩ | ⟨_, rfl⟩ | ⟨_, rfl⟩
          · exact ⟨x, p, hx, hp⟩
          · cases hp
          · exact ⟨v, p, ho, hp⟩
        · rintro ⟨x, p, hx, hp⟩
          by_cases e : x = v
          · subst e
            have : o = p := by
              have := hx; unfold Live at this ho; rw [ho] at this; cases this; rfl
            subst this
            exact ⟨w.objs.length, o, (move_live ho _ _).mpr (.inr (.inr ⟨rfl, rfl⟩)), hp⟩
          · exact ⟨x, p, (move_live ho _ _).mpr (.inl ⟨e, hx⟩), hp⟩
      unfold Lost Allocated
      rw [hown, move_blocks]
    · rw [move_dead (fun o ho => hl ⟨o, ho⟩)]
  | assign v u =>
    cases hs
    simp only [reduceCtorEq, false_and, exists_false, false_or, Op.assign.injEq]
    by_cases hl : ∃ a c, Live w v a ∧ Live w u c
    · obtain ⟨a, c, hv, hu⟩ := hl
      unfold Lost Allocated
      rw [assign_blocks]
      by_cases e : v = u
      · have hown : Owned (assign w v u) b ↔ Owned w b := by
          unfold Owned
          simp only [assign_live hv hu, if_pos e]
        rw [hown]
        constructor
        · exact .inl
        · rintro (h | ⟨_, _, _, _, ⟨rfl, rfl⟩, hn, _⟩)
          · exact h
          · exact absurd e hn
      · have hown : Owned (assign w v u) b ↔ Owned w b ∧ a.block ≠ some b := by
          unfold Owned
          constructor
          · rintro ⟨x, p, hx, hp⟩
            rw [assign_live hv hu, if_neg e] at hx
            by_cases ex : x = v
            · rw [if_pos ex] at hx
              subst hx
              exact ⟨⟨u, p, hu, hp⟩, fun hc => e (h.single v u a p b hv hu hc hp)⟩
            · rw [if_neg ex] at hx
              by_cases eu : x = u
              · rw [if_pos eu] at hx; subst hx; cases hp
              · rw [if_neg eu] at hx
                exact ⟨⟨x, p, hx, hp⟩, fun hc => ex (h.single x v p a b hx hv hp hc)⟩
          · rintro ⟨⟨x, p, hx, hp⟩, hn⟩
            have ex : x ≠ v := by
              intro ex
              subst ex
              apply hn
              unfold Live at hx hv
              rw [hv] at hx
              cases hx
              exact hp
            by_cases eu : x = u
            · subst eu
              refine ⟨v, c, (assign_live hv hu _ _).mpr (by rw [if_neg e, if_pos rfl]), ?_⟩
              unfold Live at hx hu
              rw [hu] at hx
              cases hx
              exact hp
            · exact ⟨x, p, (assign_live hv hu _ _).mpr (by rw [if_neg e, if_neg ex, if_neg eu]; exact hx), hp⟩
        rw [hown]
        constructor
        · rintro ⟨hal, hno⟩
          by_cases ho : Owned w b
          · right
            refine ⟨v, u, a, c, ⟨rfl, rfl⟩, e, hv, hu, ?_⟩
            by_cases ha : a.block = some b
            · exact ha
            · exact absurd ⟨ho, ha⟩ hno
          · exact .inl ⟨hal, ho⟩
        · rintro (⟨hal, hno⟩ | ⟨_, _, a', _, ⟨rfl, rfl⟩, _, ha', _, hb⟩)
          · exact ⟨hal, fun hc => hno hc.1⟩
          · have : a' = a := by unfold Live at ha' hv; rw [hv] at ha'; cases ha'; rfl
            subst this
            exact ⟨h.alive _ _ b ha' hb, fun hc => hc.2 hb⟩
    · rw [assign_dead]
      · constructor
        · exact .inl
        · rintro (h | ⟨_, _, a, c, ⟨rfl, rfl⟩, _, hv, hu, _⟩)
          · exact h
          · exact absurd ⟨a, c, hv, hu⟩ hl
      · by_cases hv : ∃ a, Live w v a
        · obtain ⟨a, hv⟩ := hv
          exact .inr fun o ho => hl ⟨a, o, hv, ho⟩
        · exact .inl fun o ho => hv ⟨o, ho⟩
  | destroy v =>
    simp only [reduceCtorEq, false_and, exists_false, or_false]
    have hs' : destroy w v = .ok w' := hs
    by_cases hl : ∃ o, Live w v o
    · obtain ⟨o, ho⟩ := hl
      obtain ⟨w1, e1, e2, e3⟩ := destroy_live h ho
      rw [e1] at hs'
      cases hs'
      unfold Lost Allocated Owned
      constructor
      · rintro ⟨⟨y, hy⟩, hno⟩
        rw [e3] at hy
        by_cases hob : o.block = some b
        · rw [if_pos hob] at hy; cases hy
        · rw [if_neg hob] at hy
          refine ⟨⟨y, hy⟩, fun ⟨x, p, hx, hp⟩ => hno ⟨x, p, (live_set_none e2 x p).mpr ⟨?_, hx⟩, hp⟩⟩
          intro ex
          subst ex
          unfold Live at hx ho
          rw [ho] at hx
          cases hx
          exact hob hp
      · rintro ⟨⟨y, hy⟩, hno⟩
        have hob : o.block ≠ some b := fun hob => hno ⟨v, o, ho, hob⟩
        refine ⟨⟨y, by rw [e3, if_neg hob]; exact hy⟩, ?_⟩
        rintro ⟨x, p, hx, hp⟩
        exact hno ⟨x, p, ((live_set_none e2 x p).mp hx).2, hp⟩
    · rw [destroy_dead (fun o ho => hl ⟨o, ho⟩)] at hs'
      cases hs'
      exact Iff.rfl
  | drop bytes =>
    cases hs
    simp only [Op.drop.injEq, reduceCtorEq, false_and, exists_false, or_false]
    have hown : Owned (drop w bytes) b ↔ Owned w b := Iff.rfl
    unfold Lost
    rw [hown]
    constructor
    · rintro ⟨⟨y, hy⟩, hno⟩
      have hy' : (w.blocks ++ [some bytes])[b]? = some (some y) := hy
      by_cases hb : b < w.blocks.length
      · rw [List.getElem?_append_left hb] at hy'
        exact .inl ⟨⟨y, hy'⟩, hno⟩
      · have := (List.getElem?_eq_some_iff.mp hy').1
        simp at this
        exact .inr ⟨bytes, rfl, by omega⟩
    · rintro (⟨hal, hno⟩ | ⟨_, rfl, rfl⟩)
      · exact ⟨append_alloc [some bytes] hal, hno⟩
      · refine ⟨⟨bytes, ?_⟩, ?_⟩
        · show (w.blocks ++ [some bytes])[w.blocks.length]? = _
          rw [List.getElem?_append_right (Nat.le_refl _), Nat.sub_self]
          rfl
        · rintro ⟨v, o, hv, hob⟩
          have := lt_of_owned h hv hob
          omega

/-- **C98** (partial: no assignment and no writer dropped): no memory is ever lost; when all variables are destroyed every
block has been freed. Missing: assignment, where the negation below holds. -/
theorem C98_no_leak_partial (ops : List Op) (hops : ∀ op ∈ ops, (∀ v u, op ≠ .assign v u) ∧ ∀ b, op ≠ .drop b) :
    ∃ w, run .init ops = .ok w ∧ (∀ b, ¬Lost w b) ∧
      ((∀ v o, ¬Live w v o) → ∀ b, b < w.blocks.length → w.blocks[b]? = some none) := by
  have key : ∀ (ops : List Op) (w : World), Inv w → (∀ b, ¬Lost w b) →
      (∀ op ∈ ops, (∀ v u, op ≠ .assign v u) ∧ ∀ b, op ≠ .drop b) →
      ∃ w', run w ops = .ok w' ∧ ∀ b, ¬Lost w' b := by
    intro ops
    induction ops with
    | nil => intro w _ hl _; exact ⟨w, rfl, hl⟩
    | cons op ops ih =>
      intro w hi hl ho
      obtain ⟨w1, e1, h1⟩ := step_ok hi op
      obtain ⟨w2, e2, h2⟩ := ih w1 h1 (by
        intro b hb
        rw [C98_lost_iff w w1 hi op e1] at hb
        rcases hb with hb | ⟨y, hb, _⟩ | ⟨v, u, _, _, hb, _⟩
        · exact hl b hb
        · exact (ho op (by simp)).2 y hb
        · exact (ho op (by simp)).1 v u hb) (fun op h => ho op (by simp [h]))
      exact ⟨w2, by rw [run, e1]; exact e2, h2⟩
  obtain ⟨w, e, hl⟩ := key ops .init init_inv (fun b ⟨⟨y, hy⟩, _⟩ => by simp [World.init] at hy) hops
  refine ⟨w, e, hl, fun hn b hb => ?_⟩
  cases hc : w.blocks[b] with
  | none => rw [List.getElem?_eq_getElem hb, hc]
  | some y =>
    exact absurd ⟨⟨y, by rw [List.getElem?_eq_getElem hb, hc]⟩, fun ⟨v, o, hv, _⟩ => hn v o hv⟩ (hl b)

/-- **C98, negation**: assigning to a variable that holds a text loses its memory, and whatever the program does
afterwards it is never freed. -/
theorem C98_assign_leaks (w : World) (h : Inv w) (v u : Nat) (a c : Obj) (hvu : v ≠ u) (hv : Live w v a) (hu : Live w u c)
    (b : Nat) (hb : a.block = some b) (ops : List Op) :
    ∃ w', run w (.assign v u :: ops) = .ok w' ∧ Allocated w' b ∧ ¬Owned w' b := by
  have key : ∀ (ops : List Op) (w : World), Inv w → Lost w b → ∃ w', run w ops = .ok w' ∧ Lost w' b := by
    intro ops
    induction ops with
    | nil => intro w _ hl; exact ⟨w, rfl, hl⟩
    | cons op ops ih =>
      intro w hi hl
      obtain ⟨w1, e1, h1⟩ := step_ok hi op
      obtain ⟨w2, e2, h2⟩ := ih w1 h1 ((C98_lost_iff w w1 hi op e1 b).mpr (.inl hl))
      exact ⟨w2, by rw [run, e1]; exact e2, h2⟩
  obtain ⟨w', e, hl⟩ := key ops _ (h.assign v u)
    ((C98_lost_iff w _ h (.assign v u) rfl b).mpr (.inr (.inr ⟨v, u, a, c, rfl, hvu, hv, hu, hb⟩)))
  exact ⟨w', e, hl.1, hl.2⟩

/-- **C98**: the moved-to variable has the text of the source, as a view and as a C string. -/
theorem C98_move_keeps_text (w : World) (v : Nat) (o : Obj) (hv : Live w v o) :
    view (move w v) w.objs.length = view w v ∧ what (move w v) w.objs.length = what w v := by
  have hn : (move w v).objs[w.objs.length]? = some (some o) := (move_live hv _ _).mpr (.inr (.inr ⟨rfl, rfl⟩))
  have hv' : w.objs[v]? = some (some o) := hv
  constructor
  · unfold view; rw [hn, hv', move_blocks]
  · unfold what; rw [hn, hv', move_blocks]

/-- **C98, negation**: a moved-from exception still claims the size of its text but has none: `what()` is the null pointer and
reading `getMessage()` is undefined unless the text was empty. -/
theorem C98_moved_from (w : World) (v : Nat) (o : Obj) (hv : Live w v o) :
    what (move w v) v = .ok none ∧ view (move w v) v = if o.size = 0 then .ok [] else .ub := by
  have hn : (move w v).objs[v]? = some (some ⟨o.size, none⟩) := (move_live hv _ _).mpr (.inr (.inl ⟨rfl, rfl⟩))
  constructor
  · unfold what; rw [hn]
  · unfold view; rw [hn]

/-- **C98**: assignment between two variables moves the text and leaves the source empty; to itself it does nothing. -/
theorem C98_assign (w : World) (v u : Nat) (a c : Obj) (hv : Live w v a) (hu : Live w u c) :
    (v ≠ u → view (assign w v u) v = view w u ∧ what (assign w v u) v = what w u ∧
      view (assign w v u) u = .ok [] ∧ what (assign w v u) u = .ok none) ∧
    (v = u → view (assign w v u) v = view w v ∧ what (assign w v u) v = what w v) := by
  have hu' : w.objs[u]? = some (some c) := hu
  constructor
  · intro e
    have h1 : (assign w v u).objs[v]? = some (some c) := (assign_live hv hu v c).mpr (by rw [if_neg e, if_pos rfl])
    have h2 : (assign w v u).objs[u]? = some (some ⟨0, none⟩) :=
      (assign_live hv hu u ⟨0, none⟩).mpr (by rw [if_neg e, if_neg (fun h => e h.symm), if_pos rfl])
    refine ⟨?_, ?_, ?_, ?_⟩
    · unfold view; rw [h1, hu', assign_blocks]
    · unfold what; rw [h1, hu', assign_blocks]
    · unfold view; rw [h2]; rfl
    · unfold what; rw [h2]
  · intro e
    subst e
    have h1 : (assign w v v).objs[v]? = some (some a) := (assign_live hv hu v a).mpr (by rw [if_pos rfl]; exact hv)
    have hv' : w.objs[v]? = some (some a) := hv
    constructor
    · unfold view; rw [h1, hv', assign_blocks]
    · unfold what; rw [h1, hv', assign_blocks]

/-- The operation names the variable. -/
def names (v : Nat) : Op → Prop
  | .make _ => False
  | .move x => x = v
  | .assign x y => x = v ∨ y = v
  | .destroy x => x = v
  | .drop _ => False

/-- **C98**: the text of a variable is not affected by what is done to others. -/
theorem C98_text_stays (w : World) (h : Inv w) (v : Nat) (o : Obj) (hv : Live w v o) (ops : List Op)
    (hops : ∀ op ∈ ops, ¬names v op) :
    ∃ w', run w ops = .ok w' ∧ view w' v = view w v ∧ what w' v = what w v := by
  have hst : ∀ (w : World) (op : Op), Inv w → Live w v o → ¬names v op →
      ∃ w', step w op = .ok w' ∧ Inv w' ∧ Live w' v o ∧ ∀ b, o.block = some b → w'.blocks[b]? = w.blocks[b]? := by
    intro w op hi hl hn
    obtain ⟨w', e, hi'⟩ := step_ok hi op
    refine ⟨w', e, hi', ?_⟩
    cases op with
    | make s =>
      cases e
      refine ⟨(make_live w s v o).mpr (.inl hl), fun b hb => ?_⟩
      rw [make_blocks, List.getElem?_append_left (lt_of_owned hi hl hb)]
    | move x =>
      cases e
      refine ⟨?_, fun b _ => by rw [move_blocks]⟩
      by_cases hx : ∃ p, Live w x p
      · obtain ⟨p, hp⟩ := hx
        exact (move_live hp v o).mpr (.inl ⟨fun e => hn e.symm, hl⟩)
      · rw [move_dead (fun p hp => hx ⟨p, hp⟩)]; exact hl
    | assign x y =>
      cases e
      refine ⟨?_, fun b _ => by rw [assign_blocks]⟩
      have hx : v ≠ x := fun e => hn (.inl e.symm)
      have hy : v ≠ y := fun e => hn (.inr e.symm)
      by_cases hxy : ∃ p q, Live w x p ∧ Live w y q
      · obtain ⟨p, q, hp, hq⟩ := hxy
        rw [assign_live hp hq, if_neg hx, if_neg hy]
        split <;> exact hl
      · rw [assign_dead]
        · exact hl
        · by_cases hp : ∃ p, Live w x p
          · obtain ⟨p, hp⟩ := hp
            exact .inr fun q hq => hxy ⟨p, q, hp, hq⟩
          · exact .inl fun p hp' => hp ⟨p, hp'⟩
    | destroy x =>
      have e' : destroy w x = .ok w' := e
      by_cases hx : ∃ p, Live w x p
      · obtain ⟨p, hp⟩ := hx
        obtain ⟨w1, e1, e2, e3⟩ := destroy_live hi hp
        rw [e1] at e'
        cases e'
        refine ⟨(live_set_none e2 v o).mpr ⟨fun e => hn e.symm, hl⟩, fun b hb => ?_⟩
        rw [e3, if_neg (fun hc => hn (hi.single x v p o b hp hl hc hb))]
      · rw [destroy_dead (fun p hp => hx ⟨p, hp⟩)] at e'
        cases e'
        exact ⟨hl, fun _ _ => rfl⟩
    | drop y =>
      cases e
      refine ⟨hl, fun b hb => ?_⟩
      show (w.blocks ++ [some y])[b]? = _
      rw [List.getElem?_append_left (lt_of_owned hi hl hb)]
  have key : ∀ (ops : List Op) (w : World), Inv w → Live w v o → (∀ op ∈ ops, ¬names v op) →
      ∃ w', run w ops = .ok w' ∧ Live w' v o ∧ ∀ b, o.block = some b → w'.blocks[b]? = w.blocks[b]? := by
    intro ops
    induction ops with
    | nil => intro w _ hl _; exact ⟨w, rfl, hl, fun _ _ => rfl⟩
    | cons op ops ih =>
      intro w hi hl hn
      obtain ⟨w1, e1, hi1, hl1, hb1⟩ := hst w op hi hl (hn op (by simp))
      obtain ⟨w2, e2, hl2, hb2⟩ := ih w1 hi1 hl1 (fun op h => hn op (by simp [h]))
      exact ⟨w2, by rw [run, e1]; exact e2, hl2, fun b hb => (hb2 b hb).trans (hb1 b hb)⟩
  obtain ⟨w', e, hl', hb⟩ := key ops w h hv hops
  refine ⟨w', e, ?_, ?_⟩
  · unfold view
    rw [show w'.objs[v]? = some (some o) from hl', show w.objs[v]? = some (some o) from hv]
    simp only
    cases ho : o.block with
    | none => rfl
    | some b => simp only [hb b ho]
  · unfold what
    rw [show w'.objs[v]? = some (some o) from hl', show w.objs[v]? = some (some o) from hv]
    simp only
    cases ho : o.block with
    | none => rfl
    | some b => simp only [hb b ho]

/-- **C98**: a new exception has the text its constructor composed (C67). -/
theorem C98_made (w : World) (s : Exn.ErrorString) :
    view (make w s) w.objs.length = s.view ∧ what (make w s) w.objs.length = s.what := by
  have hn : (make w s).objs[w.objs.length]? = some (some ⟨s.size, s.message.map fun _ => w.blocks.length⟩) :=
    (make_live w s _ _).mpr (.inr ⟨rfl, rfl⟩)
  have hb := make_blocks w s
  obtain ⟨n, m⟩ := s
  cases m with
  | none =>
    refine ⟨?_, ?_⟩
    · unfold view; rw [hn]; rfl
    · unfold what; rw [hn]; rfl
  | some bytes =>
    have hg : (make w ⟨n, some bytes⟩).blocks[w.blocks.length]? = some (some bytes) := by
      rw [hb, List.getElem?_append_right (Nat.le_refl _), Nat.sub_self]; rfl
    refine ⟨?_, ?_⟩
    · unfold view; rw [hn]; simp only [Option.map_some, hg]; rfl
    · unfold what; rw [hn]; simp only [Option.map_some, hg]; rfl

/-! Non-trivial cases. -/

/-- "ab". -/
def sample : Exn.ErrorString := ⟨2, some [0x61#8, 0x62#8, 0#8]⟩

example : run .init [.make sample, .move 0, .destroy 0, .destroy 1] = .ok ⟨[none], [none, none]⟩ := by decide
example : view (move (make .init sample) 0) 1 = .ok [0x61#8, 0x62#8] ∧ view (move (make .init sample) 0) 0 = .ub := by decide
example : run .init [.make sample, .make sample, .assign 0 1, .destroy 0, .destroy 1] =
    .ok ⟨[some [0x61#8, 0x62#8, 0#8], none], [none, none]⟩ := by decide
example : Inv (make (make .init sample) sample) := (init_inv.make sample).make sample
example : Live (make (make .init sample) sample) 0 ⟨2, some 0⟩ ∧ Live (make (make .init sample) sample) 1 ⟨2, some 1⟩ := by
  constructor <;> rfl

end Solace.ExnOwner
