import Verif.Model.StringOwner
import Verif.Lemmas.MemoryView
/-
C86: strings as owners of their text.
-/
namespace Solace.Owner

/-! Specification: variables simply hold texts. -/

/-- The manager returned memory that the text fits in. -/
def granted (s : List Byte) : Except Err MutView → Prop
  | .error _ => False
  | .ok v => v.null = false ∧ s.length ≤ v.bytes.length

instance (s : List Byte) (mem : Except Err MutView) : Decidable (granted s mem) := by
  cases mem <;> unfold granted <;> infer_instance

/-- What each operation means for the variables: `none` is a variable whose life has ended. -/
def specStep (a : List (Option (List Byte))) : Op → List (Option (List Byte))
  | .make s mem => if granted s mem then a ++ [some s] else a
  | .literal s => a ++ [some s]
  | .empty => a ++ [some []]
  | .adopt b n => a ++ [some (b.take n)]
  | .copy v mem =>
    match a[v]? with
    | some (some s) => if granted s mem then a ++ [some s] else a
    | _ => a
  | .moveCtor v =>
    match a[v]? with
    | some (some s) => a.set v (some []) ++ [some s]
    | _ => a
  | .swap v u =>
    match a[v]?, a[u]? with
    | some (some s), some (some t) => (a.set v (some t)).set u (some s)
    | _, _ => a
  | .destroy v => a.set v none

def spec (ops : List Op) : List (Option (List Byte)) := ops.foldl specStep []

/-! Invariant. -/

/-- Variable `v` refers to block `id`. -/
def Holds (w : World) (v id : Nat) : Prop := ∃ o, w.vars[v]? = some (some o) ∧ o.loc = .heap id

def Alive (w : World) (id : Nat) : Prop := ∃ b, w.heap[id]? = some ⟨b, true⟩
def Dead (w : World) (id : Nat) : Prop := ∃ b, w.heap[id]? = some ⟨b, false⟩

structure Inv (w : World) : Prop where
  /-- the owners of blocks have a disposer, their blocks are alive -/
  owner : ∀ (v : Nat) (o : Obj) (id : Nat), w.vars[v]? = some (some o) → o.loc = .heap id → o.disposer = true ∧ Alive w id
  /-- a block has at most one owner -/
  one : ∀ v u id, Holds w v id → Holds w u id → v = u
  /-- a living block has an owner -/
  some_ : ∀ id, Alive w id → ∃ v, Holds w v id
  nodup : w.log.Nodup
  log : ∀ id, id ∈ w.log ↔ Dead w id

theorem inv_init : Inv World.init := by
  constructor <;> simp [World.init, Holds, Alive, Dead]

theorem lt_of_some {α} {l : List α} {i : Nat} {x : α} (h : l[i]? = some x) : i < l.length := by
  rw [List.getElem?_eq_some_iff] at h; exact h.1

theorem get_append_one {α} (l : List α) (x : α) (i : Nat) (y : α) :
    (l ++ [x])[i]? = some y ↔ (l[i]? = some y) ∨ (i = l.length ∧ x = y) := by
  rw [List.getElem?_append]
  by_cases h : i < l.length
  · rw [if_pos h]
    exact ⟨.inl, fun h' => h'.resolve_right (by omega)⟩
  · rw [if_neg h, List.getElem?_eq_none (l := l) (by omega)]
    by_cases h2 : i = l.length
    · subst h2; simp
    · rw [List.getElem?_eq_none (by simp; omega)]
      simp [h2]

/-- A new block, and maybe a variable that owns it. -/
theorem inv_new {w : World} (hi : Inv w) (bytes : List Byte) (n : Nat) :
    Inv { w with heap := w.heap ++ [⟨bytes, true⟩], vars := w.vars ++ [some ⟨.heap w.heap.length, true, n⟩] } := by
  have hold : ∀ v id, Holds ⟨w.heap ++ [⟨bytes, true⟩], w.vars ++ [some ⟨.heap w.heap.length, true, n⟩], w.log⟩ v id ↔
      Holds w v id ∨ (v = w.vars.length ∧ id = w.heap.length) := by
    intro v id
    simp only [Holds, get_append_one]
    constructor
    · rintro ⟨o, h | ⟨rfl, h⟩, hl⟩
      · exact .inl ⟨o, h, hl⟩
      · cases h; cases hl; exact .inr ⟨rfl, rfl⟩
    · rintro (⟨o, h, hl⟩ | ⟨rfl, rfl⟩)
      · exact ⟨o, .inl h, hl⟩
      · exact ⟨_, .inr ⟨rfl, rfl⟩, rfl⟩
  have lt : ∀ v id, Holds w v id → id < w.heap.length := by
    rintro v id ⟨o, h, hl⟩
    obtain ⟨b, hb⟩ := (hi.owner v o id h hl).2
    exact lt_of_some hb
  constructor
  · intro v o id h hl
    simp only [get_append_one] at h
    rcases h with h | ⟨rfl, h⟩
    · obtain ⟨h1, b, hb⟩ := hi.owner v o id h hl
      exact ⟨h1, b, (get_append_one _ _ _ _).mpr (.inl hb)⟩
    · cases h; cases hl
      exact ⟨rfl, bytes, (get_append_one _ _ _ _).mpr (.inr ⟨rfl, rfl⟩)⟩
  · intro v u id h1 h2
    rw [hold] at h1 h2
    rcases h1 with h1 | ⟨rfl, e1⟩ <;> rcases h2 with h2 | ⟨rfl, e2⟩
    · exact hi.one v u id h1 h2
    · have := lt _ _ h1; omega
    · have := lt _ _ h2; omega
    · rfl
  · rintro id ⟨b, hb⟩
    rcases (get_append_one _ _ _ _).mp hb with hb | ⟨rfl, hb⟩
    · obtain ⟨v, hv⟩ := hi.some_ id ⟨b, hb⟩
      exact ⟨v, (hold v id).mpr (.inl hv)⟩
    · exact ⟨_, (hold _ _).mpr (.inr ⟨rfl, rfl⟩)⟩
  · exact hi.nodup
  · intro id
    rw [hi.log id]
    simp only [Dead, get_append_one]
    simp

/-- A block obtained and given back. -/
theorem inv_lost {w : World} (hi : Inv w) (bytes : List Byte) :
    Inv { w with heap := w.heap ++ [⟨bytes, false⟩], log := w.log ++ [w.heap.length] } := by
  constructor
  · intro v o id h hl
    obtain ⟨h1, b, hb⟩ := hi.owner v o id h hl
    exact ⟨h1, b, (get_append_one _ _ _ _).mpr (.inl hb)⟩
  · exact fun v u id h1 h2 => hi.one v u id h1 h2
  · rintro id ⟨b, hb⟩
    rcases (get_append_one _ _ _ _).mp hb with h | ⟨_, h⟩
    · exact hi.some_ id ⟨b, h⟩
    · cases h
  · show (w.log ++ [w.heap.length]).Nodup
    rw [List.nodup_append]
    refine ⟨hi.nodup, by simp, ?_⟩
    intro a ha b hb
    rw [List.mem_singleton] at hb
    obtain ⟨x, hx⟩ := (hi.log a).mp ha
    have := lt_of_some hx
    omega
  · intro id
    show id ∈ w.log ++ [w.heap.length] ↔ _
    rw [List.mem_append, hi.log id, List.mem_singleton]
    simp only [Dead, get_append_one]
    constructor
    · rintro (⟨b, h⟩ | rfl)
      · exact ⟨b, .inl h⟩
      · exact ⟨bytes, .inr ⟨rfl, rfl⟩⟩
    · rintro ⟨b, h | ⟨rfl, _⟩⟩
      · exact .inl ⟨b, h⟩
      · exact .inr rfl

/-- A new variable that owns nothing. -/
theorem inv_plain {w : World} (hi : Inv w) (o : Obj) (ho : ∀ id, o.loc ≠ .heap id) :
    Inv { w with vars := w.vars ++ [some o] } := by
  have hold : ∀ v id, Holds { w with vars := w.vars ++ [some o] } v id ↔ Holds w v id := by
    intro v id
    simp only [Holds, get_append_one]
    constructor
    · rintro ⟨o', h | ⟨rfl, h⟩, hl⟩
      · exact ⟨o', h, hl⟩
      · cases h; exact absurd hl (ho id)
    · rintro ⟨o', h, hl⟩
      exact ⟨o', .inl h, hl⟩
  constructor
  · intro v o' id h hl
    rcases (get_append_one _ _ _ _).mp h with h' | ⟨_, h'⟩
    · exact hi.owner v o' id h' hl
    · cases h'; exact absurd hl (ho id)
  · exact fun v u id h1 h2 => hi.one v u id ((hold _ _).mp h1) ((hold _ _).mp h2)
  · intro id h
    obtain ⟨v, hv⟩ := hi.some_ id h
    exact ⟨v, (hold _ _).mpr hv⟩
  · exact hi.nodup
  · exact hi.log

/-- The variables are a rearrangement of the old ones, as far as blocks are concerned. -/
theorem inv_vars {w : World} (hi : Inv w) (vars : List (Option Obj)) (π : Nat → Nat)
    (h1 : ∀ (v : Nat) (o : Obj) id, vars[v]? = some (some o) → o.loc = .heap id → w.vars[π v]? = some (some o))
    (h2 : ∀ u id, Holds w u id → ∃ v, Holds { w with vars := vars } v id)
    (hπ : ∀ v u, π v = π u → (∃ id, Holds { w with vars := vars } v id) → (∃ id, Holds { w with vars := vars } u id) →
      v = u) :
    Inv { w with vars := vars } := by
  constructor
  · exact fun v o id h hl => hi.owner (π v) o id (h1 v o id h hl) hl
  · rintro v u id ⟨o, ho, hl⟩ ⟨o', ho', hl'⟩
    have := hi.one (π v) (π u) id ⟨o, h1 v o id ho hl, hl⟩ ⟨o', h1 u o' id ho' hl', hl'⟩
    exact hπ v u this ⟨id, o, ho, hl⟩ ⟨id, o', ho', hl'⟩
  · intro id h
    obtain ⟨v, hv⟩ := hi.some_ id h
    exact h2 v id hv
  · exact hi.nodup
  · exact hi.log

theorem inv_make {w : World} (hi : Inv w) (s : List Byte) (mem : Except Err MutView) : Inv (make w s mem) := by
  unfold make
  split
  · exact hi
  · split
    · split
      · exact hi
      · exact inv_lost hi _
    · exact inv_new hi _ _

theorem get_swap (vars : List (Option Obj)) (v u : Nat) (a b : Obj) (ha : vars[v]? = some (some a))
    (hb : vars[u]? = some (some b)) (i : Nat) :
    ((vars.set v (some b)).set u (some a))[i]? = vars[if i = u then v else if i = v then u else i]? := by
  have hv := lt_of_some ha
  have hu := lt_of_some hb
  rw [List.getElem?_set, List.length_set, List.getElem?_set]
  by_cases h1 : i = u
  · rw [if_pos h1.symm, if_pos hu, if_pos h1, ha]
  · rw [if_neg (Ne.symm h1), if_neg h1]
    by_cases h2 : i = v
    · rw [if_pos h2.symm, if_pos hv, if_pos h2, hb]
    · rw [if_neg (Ne.symm h2), if_neg h2]

theorem inv_swap {w : World} (hi : Inv w) (v u : Nat) : Inv (swap w v u) := by
  unfold swap
  split
  · rename_i a b ha hb
    have hg := get_swap w.vars v u a b ha hb
    apply inv_vars hi _ (fun i => if i = u then v else if i = v then u else i)
    · intro i o id h _
      rw [hg] at h
      exact h
    · rintro i id ⟨o, h, hl⟩
      refine ⟨if i = u then v else if i = v then u else i, o, ?_, hl⟩
      show ((w.vars.set v (some b)).set u (some a))[_]? = _
      rw [hg, ← h]
      congr 1
      by_cases h1 : i = u
      · by_cases h2 : v = u
        · simp [h1, h2]
        · simp [h1, h2]
      · by_cases h2 : i = v
        · simp [h2]
        · simp [h1, h2]
    · intro i j h _ _
      split at h <;> split at h <;> (try split at h) <;> (try split at h) <;> omega
  · exact hi

theorem inv_moveCtor {w : World} (hi : Inv w) (v : Nat) : Inv (moveCtor w v) := by
  unfold moveCtor
  split
  · rename_i o ho
    have hv := lt_of_some ho
    have hg : ∀ (i : Nat) (o' : Obj), (w.vars.set v (some ⟨.null, false, 0⟩) ++ [some o])[i]? = some (some o') ↔
        (i ≠ v ∧ w.vars[i]? = some (some o')) ∨ (i = v ∧ o' = ⟨.null, false, 0⟩) ∨ (i = w.vars.length ∧ o' = o) := by
      intro i o'
      rw [get_append_one, List.getElem?_set, List.length_set]
      by_cases h : v = i
      · subst h
        simp only [if_true, hv, ne_eq, not_true, false_and, true_and, false_or, Option.some.injEq]
        constructor
        · rintro (h | ⟨h, h'⟩)
          · exact .inl h.symm
          · omega
        · rintro (h | ⟨h, h'⟩)
          · exact .inl h.symm
          · omega
      · simp only [if_neg h, ne_eq, Ne.symm h, not_false_eq_true, true_and, false_and, false_or, Option.some.injEq]
        constructor
        · rintro (h | ⟨h, h'⟩)
          · exact .inl h
          · exact .inr ⟨h, h'.symm⟩
        · rintro (h | ⟨h, h'⟩)
          · exact .inl h
          · exact .inr ⟨h, h'.symm⟩
    apply inv_vars hi _ (fun i => if i = w.vars.length then v else i)
    · intro i o' id h hl
      rcases (hg i o').mp h with ⟨_, h⟩ | ⟨_, rfl⟩ | ⟨rfl, rfl⟩
      · have := lt_of_some h
        rw [if_neg (by omega)]
        exact h
      · cases hl
      · rw [if_pos rfl]; exact ho
    · rintro i id ⟨o', h, hl⟩
      by_cases hiv : i = v
      · subst hiv
        rw [h] at ho
        have e : o' = o := by cases ho; rfl
        exact ⟨w.vars.length, o', (hg _ _).mpr (.inr (.inr ⟨rfl, e⟩)), hl⟩
      · exact ⟨i, o', (hg _ _).mpr (.inl ⟨hiv, h⟩), hl⟩
    · rintro i j h ⟨id, o1, h1, hl1⟩ ⟨id', o2, h2, hl2⟩
      rcases (hg i o1).mp h1 with ⟨hi1, k1⟩ | ⟨_, rfl⟩ | ⟨ei, _⟩
      · have hlt := lt_of_some k1
        rcases (hg j o2).mp h2 with ⟨hj1, k2⟩ | ⟨_, rfl⟩ | ⟨ej, _⟩
        · have hlt' := lt_of_some k2
          rw [if_neg (by omega), if_neg (by omega)] at h
          exact h
        · cases hl2
        · rw [if_neg (by omega), if_pos ej] at h
          exact absurd h hi1
      · cases hl1
      · rcases (hg j o2).mp h2 with ⟨hj1, k2⟩ | ⟨_, rfl⟩ | ⟨ej, _⟩
        · have hlt := lt_of_some k2
          rw [if_pos ei, if_neg (by omega)] at h
          exact absurd h.symm hj1
        · cases hl2
        · rw [ei, ej]
  · exact hi

theorem get_modify (heap : List Block) (id j : Nat) (b : Block) :
    (heap.modify id fun b => { b with alive := false })[j]? = some b ↔
      (j ≠ id ∧ heap[j]? = some b) ∨ (j = id ∧ ∃ x, heap[j]? = some x ∧ b = { x with alive := false }) := by
  rw [List.getElem?_modify]
  by_cases h : id = j
  · subst h
    cases hx : heap[id]? with
    | none => simp
    | some x => simp [eq_comm]
  · simp only [if_neg h, ne_eq, Ne.symm h, not_false_eq_true, true_and, false_and, or_false]
    cases heap[j]? <;> simp

theorem inv_destroy {w : World} (hi : Inv w) (v : Nat) : Inv (destroy w v) := by
  unfold destroy
  split
  · rename_i o ho
    have hv := lt_of_some ho
    have hg : ∀ (i : Nat) (o' : Obj), (w.vars.set v none)[i]? = some (some o') ↔ i ≠ v ∧ w.vars[i]? = some (some o') := by
      intro i o'
      rw [List.getElem?_set]
      by_cases h : v = i
      · subst h; simp [hv]
      · simp [h, Ne.symm h]
    split
    · rename_i id hd hl
      obtain ⟨_, bytes, hb⟩ := hi.owner v o id ho hl
      have other : ∀ i j, i ≠ v → Holds w i j → j ≠ id := by
        rintro i j hne hh rfl
        exact hne (hi.one i v j hh ⟨o, ho, hl⟩)
      constructor
      · intro i o' j h hl'
        obtain ⟨hne, h⟩ := (hg i o').mp h
        obtain ⟨h1, b, hb'⟩ := hi.owner i o' j h hl'
        exact ⟨h1, b, (get_modify _ _ _ _).mpr (.inl ⟨other i j hne ⟨o', h, hl'⟩, hb'⟩)⟩
      · rintro i k j ⟨o1, h1, l1⟩ ⟨o2, h2, l2⟩
        exact hi.one i k j ⟨o1, ((hg _ _).mp h1).2, l1⟩ ⟨o2, ((hg _ _).mp h2).2, l2⟩
      · rintro j ⟨b, h⟩
        rcases (get_modify _ _ _ _).mp h with ⟨hne, h⟩ | ⟨_, x, _, hx⟩
        · obtain ⟨i, o', h', hl'⟩ := hi.some_ j ⟨b, h⟩
          refine ⟨i, o', (hg _ _).mpr ⟨?_, h'⟩, hl'⟩
          rintro rfl
          rw [ho] at h'
          cases h'
          rw [hl] at hl'
          cases hl'
          exact hne rfl
        · cases hx
      · show (w.log ++ [id]).Nodup
        rw [List.nodup_append]
        refine ⟨hi.nodup, by simp, ?_⟩
        rintro a ha b hb' rfl
        rw [List.mem_singleton] at hb'
        subst hb'
        obtain ⟨x, hx⟩ := (hi.log a).mp ha
        rw [hb] at hx
        cases hx
      · intro j
        show j ∈ w.log ++ [id] ↔ ∃ b, (w.heap.modify id fun b => { b with alive := false })[j]? = some ⟨b, false⟩
        rw [List.mem_append, hi.log j, List.mem_singleton]
        simp only [get_modify]
        constructor
        · rintro (⟨b, h⟩ | rfl)
          · refine ⟨b, .inl ⟨?_, h⟩⟩
            rintro rfl
            rw [hb] at h
            cases h
          · exact ⟨bytes, .inr ⟨rfl, _, hb, rfl⟩⟩
        · rintro ⟨b, ⟨_, h⟩ | ⟨rfl, _⟩⟩
          · exact .inl ⟨b, h⟩
          · exact .inr rfl
    · rename_i hno
      apply inv_vars hi _ id
      · exact fun i o' j h _ => ((hg i o').mp h).2
      · rintro i j ⟨o', h, hl⟩
        refine ⟨i, o', (hg _ _).mpr ⟨?_, h⟩, hl⟩
        rintro rfl
        rw [ho] at h
        cases h
        exact hno j (hi.owner i o j ho hl).1 hl
      · exact fun _ _ h _ _ => h
  · exact hi

theorem inv_step {w : World} (hi : Inv w) (op : Op) : Inv (step w op) := by
  cases op with
  | make s mem => exact inv_make hi s mem
  | literal s => exact inv_plain hi _ (by simp)
  | empty => exact inv_plain hi _ (by simp)
  | adopt b n => exact inv_new hi b n
  | copy v mem =>
    show Inv (copy w v mem)
    unfold copy
    split
    · split
      · exact inv_make hi _ mem
      · exact hi
    · exact hi
  | moveCtor v => exact inv_moveCtor hi v
  | swap v u => exact inv_swap hi v u
  | destroy v => exact inv_destroy hi v

theorem inv_runFrom {w : World} (hi : Inv w) (ops : List Op) : Inv (runFrom w ops) := by
  induction ops generalizing w with
  | nil => exact hi
  | cons op ops ih => exact ih (inv_step hi op)

theorem inv_run (ops : List Op) : Inv (run ops) := inv_runFrom inv_init ops

/-! The texts. -/

/-- What reading each variable gives. -/
def shown (w : World) : List (Option (Outcome (List Byte))) := w.vars.map (Option.map (text w))

theorem take_slice (b : List Byte) (n : Nat) : MemoryView.slice b 0 n = b.take n := by
  rw [slice_eq]; simp

/-- Adding a block does not change what the existing variables show. -/
theorem text_grow {w : World} (hi : Inv w) (heap : List Block) (vars : List (Option Obj)) (log : List Nat)
    (hh : ∀ (id : Nat) (b : List Byte), w.heap[id]? = some ⟨b, true⟩ → heap[id]? = some ⟨b, true⟩) :
    ∀ x ∈ w.vars, x.map (text ⟨heap, vars, log⟩) = x.map (text w) := by
  intro x hx
  cases x with
  | none => rfl
  | some o =>
    obtain ⟨v, hv, he⟩ := List.mem_iff_getElem.mp hx
    have hv' : w.vars[v]? = some (some o) := by rw [List.getElem?_eq_getElem hv, he]
    simp only [Option.map_some, Option.some.injEq]
    unfold text
    cases hl : o.loc with
    | null => rfl
    | lit b => rfl
    | heap id =>
      obtain ⟨_, b, hb⟩ := hi.owner v o id hv' hl
      simp only
      rw [hb, hh id b hb]

theorem shown_new {w : World} (hi : Inv w) (bytes : List Byte) (n : Nat) :
    shown { w with heap := w.heap ++ [⟨bytes, true⟩], vars := w.vars ++ [some ⟨.heap w.heap.length, true, n⟩] } =
      shown w ++ [some (.ok (bytes.take n))] := by
  rw [shown, List.map_append, shown]
  congr 1
  · exact List.map_congr_left (text_grow hi _ _ _ fun id b h => (get_append_one _ _ _ _).mpr (.inl h))
  · simp [text, take_slice]

theorem shown_make {w : World} (hi : Inv w) (s : List Byte) (mem : Except Err MutView) :
    shown (make w s mem) = if granted s mem then shown w ++ [some (.ok s)] else shown w := by
  unfold make
  cases mem with
  | error e => simp [granted]
  | ok v =>
    simp only [MutView.write, granted]
    by_cases hn : v.null = true
    · simp [hn]
    · have hn' : v.null = false := by simpa using hn
      simp only [hn', Bool.false_eq_true, if_false, true_and]
      by_cases hl : s.length > v.bytes.length
      · rw [if_pos hl, if_neg (by omega)]
        simp only
        exact List.map_congr_left (text_grow hi _ _ _ fun id b h => (get_append_one _ _ _ _).mpr (.inl h))
      · rw [if_neg hl, if_pos (by omega)]
        simp only
        rw [shown_new hi]
        simp

theorem text_same_heap (w : World) (vars : List (Option Obj)) : text { w with vars := vars } = text w := rfl

theorem shown_get (w : World) (a : List (Option (List Byte))) (h : shown w = a.map (Option.map Outcome.ok)) (v : Nat) :
    (∀ s, a[v]? = some (some s) → ∃ o, w.vars[v]? = some (some o) ∧ text w o = .ok s) ∧
    (∀ o, w.vars[v]? = some (some o) → ∃ s, a[v]? = some (some s) ∧ text w o = .ok s) := by
  have hv : (shown w)[v]? = (a.map (Option.map Outcome.ok))[v]? := by rw [h]
  rw [shown, List.getElem?_map, List.getElem?_map] at hv
  constructor
  · intro s hs
    rw [hs] at hv
    cases ho : w.vars[v]? with
    | none => rw [ho] at hv; cases hv
    | some x =>
      cases x with
      | none => rw [ho] at hv; cases hv
      | some o =>
        rw [ho] at hv
        simp only [Option.map_some, Option.some.injEq] at hv
        exact ⟨o, rfl, hv⟩
  · intro o ho
    rw [ho] at hv
    cases ha : a[v]? with
    | none => rw [ha] at hv; cases hv
    | some x =>
      cases x with
      | none => rw [ha] at hv; cases hv
      | some s =>
        rw [ha] at hv
        simp only [Option.map_some, Option.some.injEq] at hv
        exact ⟨s, rfl, hv⟩

theorem shown_step {w : World} (hi : Inv w) (a : List (Option (List Byte)))
    (h : shown w = a.map (Option.map Outcome.ok)) (op : Op) :
    shown (step w op) = (specStep a op).map (Option.map Outcome.ok) := by
  cases op with
  | make s mem =>
    show shown (make w s mem) = _
    rw [shown_make hi, specStep, h]
    split <;> simp
  | literal s =>
    show shown (literal w s) = _
    have : shown (literal w s) = shown w ++ [some (.ok s)] := by
      rw [shown, literal, List.map_append, shown]
      congr 1
      simp [text, take_slice]
    rw [this, h, specStep]
    simp
  | empty =>
    show shown (empty w) = _
    have : shown (empty w) = shown w ++ [some (.ok [])] := by
      rw [shown, empty, List.map_append, shown]
      congr 1
    rw [this, h, specStep]
    simp
  | adopt b n =>
    show shown (adopt w b n) = _
    rw [adopt, shown_new hi, h, specStep]
    simp
  | copy v mem =>
    show shown (copy w v mem) = _
    rw [specStep, copy]
    obtain ⟨h1, h2⟩ := shown_get w a h v
    split
    · rename_i o ho
      obtain ⟨s, hs, ht⟩ := h2 o ho
      rw [hs, ht]
      simp only
      rw [shown_make hi, h]
      split <;> simp
    · rename_i hno
      split
      · rename_i s hs
        obtain ⟨o, ho, _⟩ := h1 s hs
        exact absurd ho (hno o)
      · exact h
  | moveCtor v =>
    show shown (moveCtor w v) = _
    rw [specStep, moveCtor]
    obtain ⟨h1, h2⟩ := shown_get w a h v
    split
    · rename_i o ho
      obtain ⟨s, hs, ht⟩ := h2 o ho
      rw [hs]
      simp only
      rw [shown, List.map_append, List.map_set, List.map_append, List.map_set, ← h, shown]
      simp only [List.map_cons, List.map_nil, Option.map_some]
      rw [text_same_heap, ht]
      rfl
    · rename_i hno
      split
      · rename_i s hs
        obtain ⟨o, ho, _⟩ := h1 s hs
        exact absurd ho (hno o)
      · exact h
  | swap v u =>
    show shown (swap w v u) = _
    rw [specStep, swap]
    obtain ⟨h1, h2⟩ := shown_get w a h v
    obtain ⟨h1', h2'⟩ := shown_get w a h u
    split
    · rename_i x y hx hy
      obtain ⟨s, hs, ht⟩ := h2 x hx
      obtain ⟨s', hs', ht'⟩ := h2' y hy
      rw [hs, hs']
      simp only
      rw [shown, List.map_set, List.map_set, List.map_set, List.map_set, ← h, shown]
      simp only [Option.map_some]
      rw [text_same_heap, ht, ht']
    · rename_i hno
      split
      · rename_i s s' hs hs'
        obtain ⟨o, ho, _⟩ := h1 s hs
        obtain ⟨o', ho', _⟩ := h1' s' hs'
        exact absurd ho' (hno o o' ho)
      · exact h
  | destroy v =>
    show shown (destroy w v) = _
    rw [specStep, List.map_set, ← h]
    unfold destroy
    split
    · rename_i o ho
      split
      · rename_i id hd hl
        have other : ∀ i o', i ≠ v → w.vars[i]? = some (some o') → o'.loc ≠ .heap id := by
          intro i o' hne ho' hl'
          exact hne (hi.one i v id ⟨o', ho', hl'⟩ ⟨o, ho, hl⟩)
        apply List.ext_getElem?
        intro i
        rw [shown, List.getElem?_map, List.getElem?_set, List.getElem?_set, shown, List.length_map, List.getElem?_map]
        by_cases hiv : v = i
        · subst hiv
          simp only [if_true]
          split <;> rfl
        · rw [if_neg hiv, if_neg hiv]
          cases hx : w.vars[i]? with
          | none => rfl
          | some x =>
            cases x with
            | none => rfl
            | some o' =>
              simp only [Option.map_some, Option.some.injEq]
              have hne := other i o' (Ne.symm hiv) hx
              unfold text
              cases hl' : o'.loc with
              | null => rfl
              | lit b => rfl
              | heap j =>
                have hj : j ≠ id := by rintro rfl; exact hne hl'
                obtain ⟨_, b, hb⟩ := hi.owner i o' j hx hl'
                simp only
                have hm : (w.heap.modify id fun b => { b with alive := false })[j]? = some ⟨b, true⟩ :=
                  (get_modify _ _ _ _).mpr (.inl ⟨hj, hb⟩)
                rw [hb, hm]
      · rw [shown, List.map_set]; rfl
    · rename_i hno
      apply List.ext_getElem?
      intro i
      rw [List.getElem?_set]
      split
      · rename_i hvi
        subst hvi
        cases hx : w.vars[v]? with
        | none =>
          rw [shown, List.getElem?_map, hx, List.length_map,
            if_neg (by rw [List.getElem?_eq_none_iff] at hx; omega)]
          rfl
        | some x =>
          cases x with
          | none =>
            rw [shown, List.getElem?_map, hx, List.length_map, if_pos (lt_of_some hx)]
            rfl
          | some o => exact absurd hx (hno o)
      · rfl

theorem shown_runFrom (w : World) (hi : Inv w) (a : List (Option (List Byte)))
    (h : shown w = a.map (Option.map Outcome.ok)) (ops : List Op) :
    shown (runFrom w ops) = (ops.foldl specStep a).map (Option.map Outcome.ok) := by
  induction ops generalizing w a with
  | nil => exact h
  | cons op ops ih => exact ih (step w op) (inv_step hi op) _ (shown_step hi a h op)

/-- **C86** (full): in every program that makes strings from texts, literals, memory and other strings, moves them, assigns
them, swaps them (also with themselves) and ends their lives, every living variable shows the text that the program gave it:
a moved-from string is empty, move assignment and `swap` exchange texts, copies are independent of the original, and no
memory is read after it was given back. -/
theorem C86_texts (ops : List Op) : shown (run ops) = (spec ops).map (Option.map Outcome.ok) :=
  shown_runFrom _ inv_init [] rfl ops

/-- **C86** (full): no block is given back twice or before the end of its owner's life, and when all variables have ended
every block was given back. -/
theorem C86_blocks (ops : List Op) :
    (run ops).log.Nodup ∧
    (∀ id, id ∈ (run ops).log → id < (run ops).heap.length ∧ ∀ v, ¬Holds (run ops) v id) ∧
    ((∀ x ∈ (run ops).vars, x = none) → ∀ id, id < (run ops).heap.length → id ∈ (run ops).log) := by
  have hi := inv_run ops
  refine ⟨hi.nodup, fun id h => ?_, fun hall id hid => ?_⟩
  · obtain ⟨b, hb⟩ := (hi.log id).mp h
    refine ⟨lt_of_some hb, fun v ⟨o, ho, hl⟩ => ?_⟩
    obtain ⟨_, b', hb'⟩ := hi.owner v o id ho hl
    rw [hb] at hb'
    cases hb'
  · rw [hi.log id]
    cases hb : (run ops).heap[id]'hid with
    | mk b alive =>
      have hb' : (run ops).heap[id]? = some ⟨b, alive⟩ := by rw [List.getElem?_eq_getElem hid, hb]
      cases alive with
      | false => exact ⟨b, hb'⟩
      | true =>
        obtain ⟨v, o, ho, _⟩ := hi.some_ id ⟨b, hb'⟩
        have := hall _ (List.mem_of_getElem? ho)
        cases this

/-- A variable has a disposer exactly if its memory is a block of the memory manager. -/
def Matched (w : World) : Prop :=
  ∀ (v : Nat) (o : Obj), w.vars[v]? = some (some o) → (o.disposer = true ↔ ∃ id, o.loc = .heap id)

theorem matched_vars {w : World} (h : Matched w) (w' : World)
    (hv : ∀ (v : Nat) (o : Obj), w'.vars[v]? = some (some o) → (∃ u : Nat, w.vars[u]? = some (some o)) ∨ o.disposer = false ∧ ∀ id, o.loc ≠ .heap id) :
    Matched w' := by
  intro v o ho
  rcases hv v o ho with ⟨u, hu⟩ | ⟨h1, h2⟩
  · exact h u o hu
  · exact ⟨fun hd => (by rw [h1] at hd; cases hd), fun ⟨id, hid⟩ => absurd hid (h2 id)⟩

theorem matched_append {w : World} (h : Matched w) (w' : World) (x : Obj) (hw : w'.vars = w.vars ++ [some x])
    (hx : x.disposer = true ↔ ∃ id, x.loc = .heap id) : Matched w' := by
  intro v o ho
  rw [hw] at ho
  rcases (get_append_one _ _ _ _).mp ho with ho | ⟨_, ho⟩
  · exact h v o ho
  · rw [← Option.some.inj ho]; exact hx

theorem matched_step {w : World} (h : Matched w) (op : Op) : Matched (step w op) := by
  have mk : ∀ s mem, Matched (make w s mem) := by
    intro s mem
    unfold make
    split
    · exact h
    · split
      · split
        · exact h
        · exact h
      · exact matched_append h _ _ rfl ⟨fun _ => ⟨_, rfl⟩, fun _ => rfl⟩
  cases op with
  | make s mem => exact mk s mem
  | literal s => exact matched_append h _ _ rfl ⟨nofun, fun ⟨_, h⟩ => nomatch h⟩
  | empty => exact matched_append h _ _ rfl ⟨nofun, fun ⟨_, h⟩ => nomatch h⟩
  | adopt x n => exact matched_append h _ _ rfl ⟨fun _ => ⟨_, rfl⟩, fun _ => rfl⟩
  | copy v mem =>
    show Matched (copy w v mem)
    unfold copy
    split
    · split
      · exact mk _ mem
      · exact h
    · exact h
  | moveCtor v =>
    show Matched (moveCtor w v)
    unfold moveCtor
    split
    · rename_i o ho
      refine matched_vars h _ fun u x hx => ?_
      rcases (get_append_one _ _ _ _).mp hx with hx | ⟨_, hx⟩
      · rw [List.getElem?_set] at hx
        split at hx
        · split at hx
          · rw [← Option.some.inj (Option.some.inj hx)]
            exact .inr ⟨rfl, nofun⟩
          · cases hx
        · exact .inl ⟨u, hx⟩
      · exact .inl ⟨v, by rw [ho, hx]⟩
    · exact h
  | swap v u =>
    show Matched (swap w v u)
    unfold swap
    split
    · rename_i a b ha hb
      refine matched_vars h _ fun i x hx => ?_
      rw [List.getElem?_set] at hx
      split at hx
      · split at hx
        · exact .inl ⟨v, by rw [ha, Option.some.inj hx]⟩
        · cases hx
      · rw [List.getElem?_set] at hx
        split at hx
        · split at hx
          · exact .inl ⟨u, by rw [hb, Option.some.inj hx]⟩
          · cases hx
        · exact .inl ⟨i, hx⟩
    · exact h
  | destroy v =>
    have key : ∀ (i : Nat) (x : Obj), (w.vars.set v none)[i]? = some (some x) → ∃ u : Nat, w.vars[u]? = some (some x) := by
      intro i x hx
      rw [List.getElem?_set] at hx
      split at hx
      · split at hx
        · cases hx
        · cases hx
      · exact ⟨i, hx⟩
    show Matched (destroy w v)
    unfold destroy
    split
    · split
      · exact matched_vars h _ fun i x hx => .inl (key i x hx)
      · exact matched_vars h _ fun i x hx => .inl (key i x hx)
    · exact h

/-- **C86** (full): a string gives memory back at the end of its life exactly if the memory is a block of the memory manager:
the characters of a literal, and nothing at all, are never handed to the disposer. -/
theorem C86_disposer (ops : List Op) (v : Nat) (o : Obj) (hv : (run ops).vars[v]? = some (some o)) :
    o.disposer = true ↔ ∃ id, o.loc = .heap id := by
  have key : ∀ (ops : List Op) (w : World), Matched w → Matched (runFrom w ops) := by
    intro ops
    induction ops with
    | nil => exact fun w h => h
    | cons op ops ih => exact fun w h => ih _ (matched_step h op)
  exact key ops World.init (fun v o h => by cases h) v o hv

/-- The bytes of a block never change. -/
theorem heap_step (w : World) (op : Op) (id : Nat) (b : Block) (h : w.heap[id]? = some b) :
    ∃ b', (step w op).heap[id]? = some b' ∧ b'.bytes = b.bytes := by
  have grow : ∀ x : Block, (w.heap ++ [x])[id]? = some b := fun x => (get_append_one _ _ _ _).mpr (.inl h)
  have mk : ∀ s mem, ∃ b', (make w s mem).heap[id]? = some b' ∧ b'.bytes = b.bytes := by
    intro s mem
    unfold make
    split
    · exact ⟨b, h, rfl⟩
    · split
      · split
        · exact ⟨b, h, rfl⟩
        · exact ⟨b, grow _, rfl⟩
      · exact ⟨b, grow _, rfl⟩
  cases op with
  | make s mem => exact mk s mem
  | literal s => exact ⟨b, h, rfl⟩
  | empty => exact ⟨b, h, rfl⟩
  | adopt x n => exact ⟨b, grow _, rfl⟩
  | copy v mem =>
    show ∃ b', (copy w v mem).heap[id]? = some b' ∧ _
    unfold copy
    split
    · split
      · exact mk _ mem
      · exact ⟨b, h, rfl⟩
    · exact ⟨b, h, rfl⟩
  | moveCtor v =>
    show ∃ b', (moveCtor w v).heap[id]? = some b' ∧ _
    unfold moveCtor
    split <;> exact ⟨b, h, rfl⟩
  | swap v u =>
    show ∃ b', (swap w v u).heap[id]? = some b' ∧ _
    unfold swap
    split <;> exact ⟨b, h, rfl⟩
  | destroy v =>
    show ∃ b', (destroy w v).heap[id]? = some b' ∧ _
    unfold destroy
    split
    · split
      · rename_i j _ _
        by_cases hj : id = j
        · exact ⟨{ b with alive := false }, (get_modify _ _ _ _).mpr (.inr ⟨hj, b, h, rfl⟩), rfl⟩
        · exact ⟨b, (get_modify _ _ _ _).mpr (.inl ⟨hj, h⟩), rfl⟩
      · exact ⟨b, h, rfl⟩
    · exact ⟨b, h, rfl⟩

theorem heap_runFrom (w : World) (ops : List Op) (id : Nat) (b : Block) (h : w.heap[id]? = some b) :
    ∃ b', (runFrom w ops).heap[id]? = some b' ∧ b'.bytes = b.bytes := by
  induction ops generalizing w b with
  | nil => exact ⟨b, h, rfl⟩
  | cons op ops ih =>
    obtain ⟨b1, h1, e1⟩ := heap_step w op id b h
    obtain ⟨b2, h2, e2⟩ := ih (step w op) b1 h1
    exact ⟨b2, h2, e2.trans e1⟩

/-- **C86** (full), views taken earlier: a view of a string that was taken at some point of a program still shows the same
characters at any later point at which some variable - the same or one that the string was moved to - owns the memory;
otherwise it is dangling. -/
theorem C86_views (before later : List Op) (v : Nat) (o : Obj) (hv : (run before).vars[v]? = some (some o)) :
    (o.loc = .null ∨ (∃ b, o.loc = .lit b) ∨
        (∃ id u, o.loc = .heap id ∧ Holds (runFrom (run before) later) u id) →
      text (runFrom (run before) later) o = text (run before) o) ∧
    (∀ id, o.loc = .heap id → (∀ u, ¬Holds (runFrom (run before) later) u id) →
      text (runFrom (run before) later) o = .ub) := by
  have hi := inv_run before
  have hi' := inv_runFrom hi later
  refine ⟨?_, fun id hl hno => ?_⟩
  · rintro (hl | ⟨b, hl⟩ | ⟨id, u, hl, hu⟩)
    · simp [text, hl]
    · simp [text, hl]
    · obtain ⟨_, b, hb⟩ := hi.owner v o id hv hl
      obtain ⟨b', hb', e⟩ := heap_runFrom _ later id _ hb
      obtain ⟨o', ho', hl'⟩ := hu
      obtain ⟨_, b2, hb2⟩ := hi'.owner u o' id ho' hl'
      rw [hb2] at hb'
      cases hb'
      unfold text
      rw [hl]
      simp only
      rw [hb, hb2]
      simp only at e ⊢
      rw [e]
  · unfold text
    rw [hl]
    simp only
    split
    · rename_i b hb
      obtain ⟨u, hu⟩ := hi'.some_ id ⟨b, hb⟩
      exact absurd hu (hno u)
    · rfl

/-- The length is that of the text, as long as no string was made with a length beyond its memory (which the constructor's
documentation forbids). -/
def Fits : Op → Prop
  | .adopt b n => n ≤ b.length
  | _ => True

/-- Size of every variable within its memory. -/
def Sized (w : World) : Prop :=
  ∀ (v : Nat) (o : Obj), w.vars[v]? = some (some o) → match o.loc with
    | .null => o.size = 0
    | .lit b => o.size ≤ b.length
    | .heap id => ∀ b, w.heap[id]? = some b → o.size ≤ b.bytes.length

theorem sized_step {w : World} (hi : Inv w) (hs : Sized w) (op : Op) (hf : Fits op) : Sized (step w op) := by
  have grown : ∀ (x : Block) (n : Nat) (log : List Nat), n ≤ x.bytes.length →
      Sized ⟨w.heap ++ [x], w.vars ++ [some ⟨.heap w.heap.length, true, n⟩], log⟩ := by
    intro x n log hn v o hv
    rcases (get_append_one _ _ _ _).mp hv with hv | ⟨_, hv'⟩
    · have := hs v o hv
      cases hl : o.loc with
      | null => rw [hl] at this; exact this
      | lit b => rw [hl] at this; exact this
      | heap id =>
        rw [hl] at this
        intro b hb
        rcases (get_append_one _ _ _ _).mp hb with hb | ⟨rfl, hb⟩
        · exact this b hb
        · obtain ⟨_, b', hb'⟩ := hi.owner v o _ hv hl
          have := lt_of_some hb'
          omega
    · cases hv'
      intro b hb
      rcases (get_append_one _ _ _ _).mp hb with hb | ⟨_, hb⟩
      · have := lt_of_some hb; omega
      · rw [← hb]; exact hn
  have lost : ∀ (x : Block) (log : List Nat), Sized ⟨w.heap ++ [x], w.vars, log⟩ := by
    intro x log v o hv
    have := hs v o hv
    cases hl : o.loc with
    | null => rw [hl] at this; exact this
    | lit b => rw [hl] at this; exact this
    | heap id =>
      rw [hl] at this
      intro b hb
      rcases (get_append_one _ _ _ _).mp hb with hb | ⟨rfl, hb⟩
      · exact this b hb
      · obtain ⟨_, b', hb'⟩ := hi.owner v o _ hv hl
        have := lt_of_some hb'
        omega
  have plain : ∀ o : Obj, (match o.loc with
      | .null => o.size = 0
      | .lit b => o.size ≤ b.length
      | .heap _ => False) → Sized { w with vars := w.vars ++ [some o] } := by
    intro o ho v o' hv
    rcases (get_append_one _ _ _ _).mp hv with hv | ⟨_, hv'⟩
    · exact hs v o' hv
    · cases hv'
      cases hl : o.loc with
      | null => rw [hl] at ho; exact ho
      | lit b => rw [hl] at ho; exact ho
      | heap id => rw [hl] at ho; exact ho.elim
  have mk : ∀ s mem, Sized (make w s mem) := by
    intro s mem
    unfold make
    cases mem with
    | error e => exact hs
    | ok v =>
      simp only [MutView.write]
      by_cases hn : v.null = true
      · simp only [hn, if_true]; exact hs
      · simp only [hn]
        by_cases hl : s.length > v.bytes.length
        · rw [if_pos hl]; exact lost _ _
        · rw [if_neg hl]
          exact grown _ _ _ (by simp)
  have reord : ∀ vars : List (Option Obj), (∀ (v : Nat) o, vars[v]? = some (some o) →
      (∃ u : Nat, w.vars[u]? = some (some o)) ∨ o = ⟨.null, false, 0⟩) → Sized { w with vars := vars } := by
    intro vars h v o hv
    rcases h v o hv with ⟨u, hu⟩ | rfl
    · exact hs u o hu
    · rfl
  cases op with
  | make s mem => exact mk s mem
  | literal s => exact plain _ (Nat.le_refl _)
  | empty => exact plain _ rfl
  | adopt b n => exact grown _ _ _ hf
  | copy v mem =>
    show Sized (copy w v mem)
    unfold copy
    split
    · split
      · exact mk _ mem
      · exact hs
    · exact hs
  | moveCtor v =>
    show Sized (moveCtor w v)
    unfold moveCtor
    split
    · rename_i o ho
      apply reord
      intro i o' h
      rcases (get_append_one _ _ _ _).mp h with h | ⟨_, h⟩
      · rw [List.getElem?_set] at h
        split at h
        · split at h
          · cases h; exact .inr rfl
          · cases h
        · exact .inl ⟨i, h⟩
      · cases h; exact .inl ⟨v, ho⟩
    · exact hs
  | swap v u =>
    show Sized (swap w v u)
    unfold swap
    split
    · rename_i a b ha hb
      apply reord
      intro i o' h
      rw [get_swap w.vars v u a b ha hb] at h
      exact .inl ⟨_, h⟩
    · exact hs
  | destroy v =>
    show Sized (destroy w v)
    have hset : ∀ (i : Nat) o', (w.vars.set v none)[i]? = some (some o') → w.vars[i]? = some (some o') := by
      intro i o' h
      rw [List.getElem?_set] at h
      split at h
      · split at h <;> cases h
      · exact h
    unfold destroy
    split
    · split
      · rename_i id _ _
        intro i o' h
        have := hs i o' (hset i o' h)
        cases hl : o'.loc with
        | null => rw [hl] at this; exact this
        | lit b => rw [hl] at this; exact this
        | heap j =>
          rw [hl] at this
          intro b hb
          rcases (get_modify _ _ _ _).mp hb with ⟨_, hb⟩ | ⟨_, x, hx, e⟩
          · exact this b hb
          · rw [e]; exact this x hx
      · exact reord _ fun i o' h => .inl ⟨i, hset i o' h⟩
    · exact hs

/-- **C86**, `length()` (full for programs that respect the constructor's precondition): it is the number of characters
shown. -/
theorem C86_length (ops : List Op) (hf : ∀ op ∈ ops, Fits op) (v : Nat) (o : Obj)
    (hv : (run ops).vars[v]? = some (some o)) : ∃ s, text (run ops) o = .ok s ∧ s.length = length o := by
  have key : ∀ (ops : List Op) (w : World), Inv w → Sized w → (∀ op ∈ ops, Fits op) → Sized (runFrom w ops) := by
    intro ops
    induction ops with
    | nil => exact fun w _ h _ => h
    | cons op ops ih =>
      intro w hi hs hf
      exact ih (step w op) (inv_step hi op) (sized_step hi hs op (hf op (by simp))) fun x hx => hf x (by simp [hx])
  have hs := key ops World.init inv_init (by intro v o h; simp [World.init] at h) hf v o hv
  have hi := inv_run ops
  unfold text
  cases hl : o.loc with
  | null =>
    rw [hl] at hs
    exact ⟨_, rfl, by simp [take_slice, length, show o.size = 0 from hs]⟩
  | lit b =>
    rw [hl] at hs
    have hs' : o.size ≤ b.length := hs
    exact ⟨_, rfl, by rw [take_slice, List.length_take, length]; omega⟩
  | heap id =>
    rw [hl] at hs
    obtain ⟨_, b, hb⟩ := hi.owner v o id hv hl
    have hs' := hs _ hb
    simp only
    change (run ops).heap[id]? = _ at hb
    rw [hb]
    exact ⟨_, rfl, by rw [take_slice, List.length_take, length]; simp only at hs'; omega⟩

/-- A program whose strings are copied, moved, swapped and destroyed. -/
example : spec [.make [1#8, 2#8] (.ok ⟨false, [0#8, 0#8]⟩), .literal [3#8], .copy 0 (.ok ⟨false, [9#8, 9#8]⟩), .swap 0 1,
    .moveCtor 1, .destroy 0, .make [4#8] (.error .nomem)] = [none, some [], some [1#8, 2#8], some [1#8, 2#8]] := by
  decide +kernel

example : shown (run [.make [1#8, 2#8] (.ok ⟨false, [0#8, 0#8]⟩), .literal [3#8], .copy 0 (.ok ⟨false, [9#8, 9#8]⟩),
    .swap 0 1, .moveCtor 1, .destroy 0]) = [none, some (.ok []), some (.ok [1#8, 2#8]), some (.ok [1#8, 2#8])] := by
  decide +kernel

/-- A view that dangles: the string was moved and the new owner destroyed. -/
example : text (run [.make [1#8] (.ok ⟨false, [0#8]⟩), .moveCtor 0, .destroy 1]) ⟨.heap 0, true, 1⟩ = .ub := by
  decide +kernel

end Solace.Owner
