import Verif.Props.C44_Vector
import Verif.Props.C46_Guard
/-
C45: the elements of vectors and arrays are destroyed exactly once.
-/
namespace Solace.Lifetimes
open Lifetime

/-- The objects a container is responsible for. -/
def contents (sz : Nat) (c : Cont) : List Nat := (c.store.cells.take (Vec.viewSize sz c.store)).filterMap id

def heldBy (sz : Nat) : Option Cont → List Nat
  | none => []
  | some c => contents sz c

def held (sz : Nat) (vars : List (Option Cont)) : List Nat := vars.flatMap (heldBy sz)

/-- The container is in order: the part of its storage that it shows has objects in all cells. -/
def Good (sz : Nat) : Cont → Prop
  | ⟨.vector, s⟩ => ∃ ids, Vec.Holds sz s ids
  | ⟨.array, s⟩ => ∃ ids : List Nat, Vec.viewSize sz s = ids.length ∧ s.cells.take (Vec.viewSize sz s) = ids.map some

theorem Good.cells {sz : Nat} {c : Cont} (h : Good sz c) :
    c.store.cells.take (Vec.viewSize sz c.store) = (contents sz c).map some := by
  have key : ∃ ids : List Nat, c.store.cells.take (Vec.viewSize sz c.store) = ids.map some := by
    rcases c with ⟨_ | _, s⟩
    · obtain ⟨ids, h⟩ := h
      exact ⟨ids, by rw [h.viewSize_eq, h.content]⟩
    · obtain ⟨ids, -, h⟩ := h
      exact ⟨ids, h⟩
  obtain ⟨ids, hids⟩ := key
  rw [contents, hids, List.filterMap_map]
  simp

theorem contents_of_holds {sz : Nat} {s : Vec Nat} {ids : List Nat} {k : Kind} (h : Vec.Holds sz s ids) :
    contents sz ⟨k, s⟩ = ids := by
  rw [contents, h.viewSize_eq, h.content, List.filterMap_map]
  simp

theorem good_of_holds {sz : Nat} {s : Vec Nat} {ids : List Nat} {k : Kind} (h : Vec.Holds sz s ids) : Good sz ⟨k, s⟩ := by
  cases k with
  | vector => exact ⟨ids, h⟩
  | array => exact ⟨ids, h.viewSize_eq, by rw [h.viewSize_eq, h.content]⟩

theorem holds_empty {sz : Nat} (hsz : 0 < sz) : Vec.Holds sz (Vec.empty : Vec Nat) [] where
  sz_pos := hsz
  machine := by simp [Vec.empty]
  cells := by simp [Vec.empty]
  fits := Nat.zero_le _
  next := rfl
  content := rfl

theorem destroyCells_some (ids : List Nat) : destroyCells (ids.map some) = ids.map .destroy := by
  rw [destroyCells, List.map_map]
  rfl

/-! ### The variables -/

theorem held_set (sz : Nat) (x : Option Cont) : ∀ (vars : List (Option Cont)) (v : Nat), v < vars.length →
    (held sz (vars.set v x)).Perm (heldBy sz x ++ held sz (vars.set v none)) := by
  intro vars
  induction vars with
  | nil => intro v h; simp at h
  | cons y ys ih =>
    intro v h
    cases v with
    | zero => simp [held, heldBy]
    | succ n =>
      simp only [held, List.set_cons_succ, List.flatMap_cons] at ih ⊢
      have := (ih n (by simpa using h)).append_left (heldBy sz y)
      refine this.trans ?_
      rw [← List.append_assoc, ← List.append_assoc]
      exact List.perm_append_comm.append_right _

theorem held_get (sz : Nat) {vars : List (Option Cont)} {v : Nat} {x : Option Cont} (h : vars[v]? = some x) :
    (held sz vars).Perm (heldBy sz x ++ held sz (vars.set v none)) := by
  obtain ⟨hv, rfl⟩ := List.getElem?_eq_some_iff.mp h
  have := held_set sz vars[v] vars v hv
  rwa [List.set_getElem_self] at this

theorem held_append (sz : Nat) (a b : List (Option Cont)) : held sz (a ++ b) = held sz a ++ held sz b := by
  rw [held, held, held, List.flatMap_append]

/-- What holds between operations. -/
structure Inv (sz : Nat) (w : World) : Prop where
  sz_pos : 0 < sz
  good : ∀ c, some c ∈ w.vars → Good sz c
  log : Leaves w.log w.next (held sz w.vars)

theorem inv_init {sz : Nat} (hsz : 0 < sz) : Inv sz World.init := ⟨hsz, by simp [World.init], Leaves.nil⟩

theorem Inv.goodAt {sz : Nat} {w : World} (h : Inv sz w) {v : Nat} {c : Cont} (hv : w.vars[v]? = some (some c)) : Good sz c :=
  h.good c (List.mem_of_getElem? hv)

theorem good_set {sz : Nat} {vars : List (Option Cont)} (h : ∀ c, some c ∈ vars → Good sz c) {v : Nat} {x : Option Cont}
    (hx : ∀ c, x = some c → Good sz c) : ∀ c, some c ∈ vars.set v x → Good sz c := by
  intro c hc
  rcases List.mem_or_eq_of_mem_set hc with hc | hc
  · exact h c hc
  · exact hx c hc.symm

theorem good_append {sz : Nat} {vars : List (Option Cont)} (h : ∀ c, some c ∈ vars → Good sz c) {x : Cont}
    (hx : Good sz x) : ∀ c, some c ∈ vars ++ [some x] → Good sz c := by
  intro c hc
  rcases List.mem_append.mp hc with hc | hc
  · exact h c hc
  · simp only [List.mem_singleton, Option.some.injEq] at hc
    exact hc ▸ hx

/-- The log before, with the objects of variable `v` in front. -/
theorem Inv.front {sz : Nat} {w : World} (h : Inv sz w) {v : Nat} {c : Cont} (hv : w.vars[v]? = some (some c)) :
    Leaves w.log w.next (contents sz c ++ held sz (w.vars.set v none)) :=
  h.log.perm (held_get sz hv)

/-- Replace variable `v`, given the log for its new content. -/
theorem Inv.replace {sz : Nat} {w : World} (h : Inv sz w) {v : Nat} {c : Option Cont} {x : Option Cont} {log : List Event}
    {next : Nat} (hv : w.vars[v]? = some c) (hx : ∀ c, x = some c → Good sz c)
    (hl : Leaves log next (heldBy sz x ++ held sz (w.vars.set v none))) : Inv sz ⟨w.vars.set v x, log, next⟩ := by
  obtain ⟨hlt, -⟩ := List.getElem?_eq_some_iff.mp hv
  exact ⟨h.sz_pos, good_set h.good hx, hl.perm (held_set sz x w.vars v hlt).symm⟩

/-! ### Building -/

theorem map_shift_construct (base n : Nat) :
    ((List.range n).map Event.construct).map (shift base) = (List.range n).map fun i => Event.construct (base + i) := by
  rw [List.map_map]; rfl

theorem map_shift_destroy (base : Nat) (ids : List Nat) :
    (ids.map Event.destroy).map (shift base) = (ids.map (base + ·)).map Event.destroy := by
  rw [List.map_map, List.map_map]; rfl

theorem build_inv {sz : Nat} {w : World} (h : Inv sz w) (kind : Kind) (n : Nat) (throwsAt : List Nat)
    (hn : kind = .vector → n * sz < 2 ^ 64) : Inv sz (build sz w kind n throwsAt) := by
  have hsz := h.sz_pos
  have hcnt : (if kind = .array then wrap64 (n * sz) / sz else n) = wrap64 (n * sz) / sz := by
    cases kind with
    | array => simp
    | vector => rw [wrap64_of_lt (hn rfl), Nat.mul_div_cancel _ hsz]; simp
  have hview : Vec.viewSize sz (⟨wrap64 (n * sz), (List.range (wrap64 (n * sz) / sz)).map fun i => some (w.next + i), n⟩ :
      Vec Nat) = wrap64 (n * sz) / sz := by
    rw [Vec.viewSize, Nat.mul_comm sz n]
    by_cases h0 : wrap64 (n * sz) = 0
    · simp only [h0]
      rw [MutableMemoryView.slice, if_pos rfl]
    · rw [Vec.slice_inside (Nat.pos_of_ne_zero h0) (Nat.le_refl _), Nat.sub_zero]
  have hcells : ((List.range (wrap64 (n * sz) / sz)).map fun i => some (w.next + i)).take (wrap64 (n * sz) / sz) =
      ((List.range (wrap64 (n * sz) / sz)).map (w.next + ·)).map some := by
    rw [List.take_of_length_le (by simp), List.map_map]; rfl
  rw [build]
  simp only [hcnt]
  obtain ⟨h1, h2, h3⟩ := Guard.C46_exception_safe (fun i => throwsAt.contains i) _ (wrap64 (n * sz) / sz) (Nat.le_refl _)
  by_cases ht : (Guard.build (fun i => throwsAt.contains i) (wrap64 (n * sz) / sz) (wrap64 (n * sz) / sz)).2 = .throws
  · obtain ⟨k, hk, hthrow⟩ := h1.mp ht
    obtain ⟨k, hk, ht, hfirst⟩ : ∃ k, k < wrap64 (n * sz) / sz ∧ throwsAt.contains k = true ∧
        ∀ j, j < k → throwsAt.contains j = false := by
      induction k using Nat.strongRecOn with
      | ind k ih =>
        by_cases he : ∃ j, j < k ∧ throwsAt.contains j = true
        · obtain ⟨j, hj, htj⟩ := he
          exact ih j hj (by omega) htj
        · exact ⟨k, hk, hthrow, fun j hj => Bool.eq_false_iff.mpr fun hc => he ⟨j, hj, hc⟩⟩
    rw [Guard.C46_throws _ _ _ k (Nat.le_refl _) hk ht hfirst]
    simp only
    refine ⟨hsz, h.good, ?_⟩
    have hc := h.log.constructAll k
    have hd := Leaves.destroyAll ((List.range k).map (w.next + ·)).reverse
      (hc.perm ((List.reverse_perm _).symm.append_right _))
    rw [List.map_append, map_shift_construct, map_shift_destroy, ← List.append_assoc, List.map_reverse]
    exact hd.mono (Nat.add_le_add_left (Nat.le_of_lt hk) _)
  · have hok := h3 ht
    have hno : ∀ j, j < wrap64 (n * sz) / sz → throwsAt.contains j = false := fun j hj =>
      Bool.eq_false_iff.mpr fun hc => ht (h1.mpr ⟨j, hj, hc⟩)
    rw [Guard.C46_completes _ _ _ (Nat.le_refl _) hno]
    simp only
    have hcont : contents sz ⟨kind, ⟨wrap64 (n * sz), (List.range (wrap64 (n * sz) / sz)).map fun i => some (w.next + i), n⟩⟩ =
        (List.range (wrap64 (n * sz) / sz)).map (w.next + ·) := by
      rw [contents, hview, hcells, List.filterMap_map]; simp
    refine ⟨hsz, good_append h.good ?_, ?_⟩
    · cases kind with
      | array => exact ⟨(List.range (wrap64 (n * sz) / sz)).map (w.next + ·), by rw [hview]; simp, by rw [hview]; exact hcells⟩
      | vector =>
        have hlt := hn rfl
        have hdiv : wrap64 (n * sz) / sz = n := by rw [wrap64_of_lt hlt, Nat.mul_div_cancel _ hsz]
        refine ⟨(List.range n).map (w.next + ·), hsz, wrap64_lt _, by simp, by simp [hdiv], by simp, ?_⟩
        rw [hdiv] at hcells
        simpa [hdiv] using hcells
    · rw [held_append, map_shift_construct]
      have : held sz [some (⟨kind, ⟨wrap64 (n * sz), (List.range (wrap64 (n * sz) / sz)).map fun i => some (w.next + i), n⟩⟩ :
          Cont)] = (List.range (wrap64 (n * sz) / sz)).map (w.next + ·) := by
        rw [← hcont]; simp [held, heldBy]
      rw [this]
      exact (h.log.constructAll _).perm List.perm_append_comm

/-- The operations for which the code keeps its promise: not `array = nullptr` on an array with elements, and no exception
from the constructor in `ArrayView::emplace` (an exception because the index is out of range is harmless). -/
def allowed (sz : Nat) (w : World) : Op → Bool
  | .assignNull v =>
    match w.vars[v]? with
    | some (some ⟨.array, s⟩) => Vec.viewSize sz s == 0
    | _ => true
  | .emplaceAt a i throws =>
    match w.vars[a]? with
    | some (some c) => !throws || decide (Vec.viewSize sz c.store ≤ i)
    | _ => true
  | _ => true

theorem dispose_holds {sz : Nat} {s : Vec Nat} {ids : List Nat} (h : Vec.Holds sz s ids) :
    Vec.Holds sz (Vec.dispose sz s).1 [] ∧ (Vec.dispose sz s).2 = ids.map some := by
  refine ⟨⟨h.sz_pos, h.machine, h.cells, Nat.zero_le _, rfl, rfl⟩, ?_⟩
  show s.cells.take (Vec.viewSize sz s) = _
  rw [h.viewSize_eq, h.content]

theorem step_inv {sz : Nat} {w : World} (h : Inv sz w) (op : Op) (ha : allowed sz w op = true) : Inv sz (step sz w op) := by
  have hsz := h.sz_pos
  cases op with
  | newVector n =>
    rw [step]
    have hm := Vec.holds_make (α := Nat) sz n hsz
    refine ⟨hsz, good_append h.good (good_of_holds hm), ?_⟩
    rw [held_append]
    have : held sz [some ⟨.vector, Vec.make sz n⟩] = [] := by
      simp [held, heldBy, contents_of_holds hm]
    simp only [this, List.append_nil]
    exact h.log
  | newVectorOf n t =>
    rw [step]
    split
    · exact build_inv h _ n t fun _ => ‹_›
    · exact h
  | newArray n t => exact build_inv h .array n t (by simp)
  | emplaceBack v throws =>
    rw [step]
    split
    · rename_i s hv
      obtain ⟨ids, hs⟩ := h.goodAt hv
      have hfront := h.front hv
      rw [contents_of_holds hs] at hfront
      have hkeep : ∀ s', s' = s → Inv sz { w with vars := w.vars.set v (some ⟨.vector, s'⟩) } := by
        rintro s' rfl
        refine h.replace hv (fun c hc => by cases hc; exact good_of_holds hs) ?_
        rw [heldBy, contents_of_holds hs]
        exact hfront
      by_cases hf : ids.length < s.bytes / sz
      · cases throws with
        | true =>
          rw [if_pos rfl, Vec.emplaceBack_throws hs hf]
          exact hkeep s rfl
        | false =>
          obtain ⟨s', h1, h2, -⟩ := Vec.emplaceBack_room hs w.next hf
          rw [if_neg (by simp), h1]
          refine h.replace hv (fun c hc => by cases hc; exact good_of_holds h2) ?_
          rw [heldBy, contents_of_holds h2, List.append_assoc]
          exact hfront.construct.perm List.perm_middle.symm
      · rw [Vec.emplaceBack_full hs _ (by have := hs.fits; omega)]
        exact hkeep s rfl
    · exact h
  | popBack v =>
    rw [step]
    split
    · rename_i s hv
      obtain ⟨ids, hs⟩ := h.goodAt hv
      have hfront := h.front hv
      rw [contents_of_holds hs] at hfront
      by_cases hne : ids = []
      · subst hne
        rw [Vec.popBack_nil hs]
        refine h.replace hv (fun c hc => by cases hc; exact good_of_holds hs) ?_
        rw [heldBy, contents_of_holds hs]
        simpa [destroyCells] using hfront
      · obtain ⟨ys, y, rfl⟩ : ∃ ys y, ids = ys ++ [y] :=
          ⟨ids.dropLast, ids.getLast hne, (List.dropLast_concat_getLast hne).symm⟩
        obtain ⟨s', h1, h2, -⟩ := Vec.popBack_concat hs
        rw [h1]
        refine h.replace hv (fun c hc => by cases hc; exact good_of_holds h2) ?_
        rw [heldBy, contents_of_holds h2]
        rw [List.append_assoc, List.singleton_append] at hfront
        exact (hfront.perm List.perm_middle).destroy
    · exact h
  | clear v =>
    rw [step]
    split
    · rename_i s hv
      obtain ⟨ids, hs⟩ := h.goodAt hv
      have hfront := h.front hv
      rw [contents_of_holds hs] at hfront
      obtain ⟨s', h1, h2, -⟩ := Vec.clearLoop_eq ids.length hs rfl (s.next + 1) (by rw [hs.next]; omega)
      rw [h1]
      refine h.replace hv (fun c hc => by cases hc; exact good_of_holds h2) ?_
      rw [heldBy, contents_of_holds h2, List.nil_append, destroyCells_some]
      exact Leaves.destroyAll _ (hfront.perm ((List.reverse_perm _).symm.append_right _))
    · exact h
  | assignNull v =>
    rw [step]
    split
    · rename_i s hv
      obtain ⟨ids, hs⟩ := h.goodAt hv
      have hfront := h.front hv
      rw [contents_of_holds hs] at hfront
      obtain ⟨h1, h2⟩ := dispose_holds hs
      refine h.replace hv (fun c hc => by cases hc; exact good_of_holds h1) ?_
      rw [heldBy, contents_of_holds h1, List.nil_append, h2, destroyCells_some]
      exact Leaves.destroyAll _ hfront
    · rename_i s hv
      rw [allowed, hv] at ha
      rw [beq_iff_eq.mp ha, List.take_zero]
      simpa [destroyCells] using h
    · exact h
  | swap a b =>
    rw [step]
    split
    · rename_i x y hx hy
      split
      · obtain ⟨ha', hxe⟩ := List.getElem?_eq_some_iff.mp hx
        obtain ⟨hb', hye⟩ := List.getElem?_eq_some_iff.mp hy
        refine ⟨hsz, good_set (good_set h.good fun c hc => by cases hc; exact h.goodAt hy)
          (fun c hc => by cases hc; exact h.goodAt hx), ?_⟩
        have hp := List.set_set_perm ha' hb'
        rw [hxe, hye] at hp
        exact h.log.perm (hp.flatMap_right (heldBy sz)).symm
      · exact h
    · exact h
  | moveCtor a =>
    rw [step]
    split
    · rename_i c hv
      have he := holds_empty hsz
      have hr := h.replace (x := some ⟨c.kind, Vec.empty⟩) (log := w.log) (next := w.next) hv
      refine ⟨hsz, good_append (good_set h.good fun c' hc => by cases hc; exact good_of_holds he) (h.goodAt hv), ?_⟩
      rw [held_append]
      have h1 : held sz [some c] = contents sz c := by simp [held, heldBy]
      rw [h1]
      obtain ⟨hlt, -⟩ := List.getElem?_eq_some_iff.mp hv
      have h2 := held_set sz (some ⟨c.kind, Vec.empty⟩) w.vars a hlt
      rw [heldBy, contents_of_holds he, List.nil_append] at h2
      exact (h.front hv).perm (List.perm_append_comm.trans (h2.symm.append_right _))
    · exact h
  | toArray a =>
    rw [step]
    split
    · rename_i s hv
      have he := holds_empty hsz
      obtain ⟨ids, hs⟩ := h.goodAt hv
      refine ⟨hsz, good_append (good_set h.good fun c' hc => by cases hc; exact good_of_holds he) (good_of_holds hs), ?_⟩
      rw [held_append]
      have h1 : held sz [some ⟨.array, s⟩] = contents sz ⟨.vector, s⟩ := by
        rw [contents_of_holds hs]; simp [held, heldBy, contents_of_holds hs]
      rw [h1]
      obtain ⟨hlt, -⟩ := List.getElem?_eq_some_iff.mp hv
      have h2 := held_set sz (some ⟨.vector, Vec.empty⟩) w.vars a hlt
      rw [heldBy, contents_of_holds he, List.nil_append] at h2
      exact (h.front hv).perm (List.perm_append_comm.trans (h2.symm.append_right _))
    · exact h
  | emplaceAt a i throws =>
    rw [step]
    split
    · rename_i k s hv
      split
      · rename_i hi
        have hth : throws = false := by
          rw [allowed, hv] at ha
          have hn : ¬ Vec.viewSize sz s ≤ i := by omega
          simpa [hn] using ha
        subst hth
        have hg := h.goodAt hv
        have hcells := hg.cells
        have hfront := h.front hv
        simp only at hcells
        have hview : ∀ x : Option Nat, Vec.viewSize sz { s with cells := s.cells.set i x } = Vec.viewSize sz s := fun _ => rfl
        have hlen : (contents sz ⟨k, s⟩).length = min (Vec.viewSize sz s) s.cells.length := by
          have := congrArg List.length hcells
          simpa using this.symm
        by_cases hc : i < s.cells.length
        · have hil : i < (contents sz ⟨k, s⟩).length := by omega
          have hcell : s.cells[i]? = some (some (contents sz ⟨k, s⟩)[i]) := by
            have := congrArg (·[i]?) hcells
            simpa [List.getElem?_take, hi, hil] using this
          have hnewcells : (s.cells.set i (some w.next)).take (Vec.viewSize sz s) =
              ((contents sz ⟨k, s⟩).set i w.next).map some := by
            rw [List.take_set, hcells, List.map_set]
          have hnew : contents sz ⟨k, { s with cells := s.cells.set i (some w.next) }⟩ = (contents sz ⟨k, s⟩).set i w.next := by
            rw [contents]
            simp only [hview, hnewcells]
            rw [List.filterMap_map]; simp
          simp only [Bool.false_eq_true, if_false]
          refine h.replace hv (fun c hc' => ?_) ?_
          · cases hc'
            cases k with
            | array =>
              refine ⟨(contents sz ⟨.array, s⟩).set i w.next, ?_, by rw [hview]; exact hnewcells⟩
              obtain ⟨ids, hl, hid⟩ := hg
              rw [hview, hl, List.length_set]
              have := congrArg List.length (hcells.symm.trans hid)
              simpa using this.symm
            | vector =>
              obtain ⟨ids, hs⟩ := hg
              have hci : contents sz ⟨.vector, s⟩ = ids := contents_of_holds hs
              rw [hci, hs.viewSize_eq] at hnewcells
              refine ⟨ids.set i w.next, hs.sz_pos, hs.machine, by simpa using hs.cells, by simpa using hs.fits,
                by simpa using hs.next, by simpa using hnewcells⟩
          · rw [heldBy, hnew, hcell]
            simp only [Option.toList_some, destroyCells, List.map_cons, List.map_nil]
            generalize hL : contents sz ⟨k, s⟩ = L at *
            have hsplit : L = L.take i ++ L[i] :: L.drop (i + 1) := by
              rw [List.getElem_cons_drop, List.take_append_drop]
            have hset : L.set i w.next = L.take i ++ w.next :: L.drop (i + 1) := by
              rw [List.set_eq_take_append_cons_drop, if_pos hil]
            have hp1 : (L ++ held sz (w.vars.set a none)).Perm
                (L[i] :: (L.take i ++ L.drop (i + 1) ++ held sz (w.vars.set a none))) := by
              conv => lhs; rw [hsplit]
              exact List.perm_middle.append_right _
            have hp2 : (w.next :: (L.take i ++ L.drop (i + 1) ++ held sz (w.vars.set a none))).Perm
                (L.set i w.next ++ held sz (w.vars.set a none)) := by
              rw [hset]
              exact (List.perm_middle.append_right _).symm
            exact ((hfront.perm hp1).destroy.construct).perm hp2
        · exfalso
          cases k with
          | vector =>
            obtain ⟨ids, hs⟩ := hg
            rw [hs.viewSize_eq] at hi
            have := hs.fits
            have := hs.cells
            omega
          | array =>
            obtain ⟨ids, hl, hid⟩ := hg
            have := congrArg List.length hid
            simp at this
            omega
      · exact h
    · exact h
  | destroy v =>
    rw [step]
    split
    · rename_i c hv
      have hfront := h.front hv
      rw [(h.goodAt hv).cells, destroyCells_some]
      refine h.replace hv (fun c hc => by cases hc) ?_
      rw [heldBy, List.nil_append]
      exact Leaves.destroyAll _ hfront
    · exact h

/-- A history in which every operation is allowed. -/
def allowedAll (sz : Nat) : World → List Op → Bool
  | _, [] => true
  | w, o :: os => allowed sz w o && allowedAll sz (step sz w o) os

theorem run_inv {sz : Nat} (ops : List Op) : ∀ {w : World}, Inv sz w → allowedAll sz w ops = true → Inv sz (run sz w ops) := by
  induction ops with
  | nil => intro w h _; exact h
  | cons o os ih =>
    intro w h ha
    rw [allowedAll, Bool.and_eq_true] at ha
    exact ih (step_inv h o ha.1) ha.2

theorem closing_allowed {sz : Nat} (ns : List Nat) : ∀ w : World, allowedAll sz w (ns.map .destroy) = true := by
  induction ns with
  | nil => intro w; rfl
  | cons n ns ih => intro w; rw [List.map_cons, allowedAll, ih, allowed, Bool.and_self]; all_goals simp

theorem step_destroy_vars (sz : Nat) (w : World) (v : Nat) : (step sz w (.destroy v)).vars = w.vars.set v none := by
  rw [step]
  split
  · rfl
  · rename_i h
    cases hv : w.vars[v]? with
    | none => rw [List.set_eq_of_length_le (by simpa using hv)]
    | some x =>
      cases x with
      | some c => exact absurd hv (h c)
      | none =>
        obtain ⟨hlt, hx⟩ := List.getElem?_eq_some_iff.mp hv
        conv => rhs; rw [← hx]
        rw [List.set_getElem_self]

theorem closing_vars (sz : Nat) (ns : List Nat) : ∀ (w : World) (v : Nat), v < w.vars.length → v ∈ ns ∨ w.vars[v]? = some none →
    (run sz w (ns.map .destroy)).vars[v]? = some none := by
  induction ns with
  | nil => intro w v _ h; simpa [run] using h
  | cons n ns ih =>
    intro w v hv h
    rw [List.map_cons, run, List.foldl_cons]
    refine ih _ v (by rw [step_destroy_vars]; simpa using hv) ?_
    rw [step_destroy_vars, List.getElem?_set]
    rcases h with h | h
    · rcases List.mem_cons.mp h with rfl | h
      · right; simp [hv]
      · exact .inl h
    · right
      split
      · simp_all
      · exact h

theorem closing_length (sz : Nat) (ns : List Nat) : ∀ (w : World), (run sz w (ns.map .destroy)).vars.length = w.vars.length := by
  induction ns with
  | nil => intro w; rfl
  | cons n ns ih =>
    intro w
    rw [List.map_cons, run, List.foldl_cons]
    refine (ih _).trans ?_
    rw [step_destroy_vars, List.length_set]

/-- **C45** (partial: histories without `array = nullptr` on an array that has elements and without an exception in
`ArrayView::emplace`): at the end of the program every element ever constructed has been destroyed exactly once, and nothing
else has been destroyed. -/
theorem C45_exactly_once_partial (sz : Nat) (hsz : 0 < sz) (ops : List Op) (ha : allowedAll sz .init ops = true) :
    Clean (run sz (run sz .init ops) (closing (run sz .init ops))).log := by
  have h1 := run_inv ops (inv_init hsz) ha
  have h2 := run_inv _ h1 (closing_allowed (List.range (run sz .init ops).vars.length) _)
  have h3 := h2.log
  have h4 : held sz (run sz (run sz .init ops) (closing (run sz .init ops))).vars = [] := by
    rw [held, List.flatMap_eq_nil_iff]
    intro x hx
    obtain ⟨v, hv⟩ := List.mem_iff_getElem?.mp hx
    have hlt : v < (run sz .init ops).vars.length := by
      have := (List.getElem?_eq_some_iff.mp hv).1
      rwa [closing, closing_length] at this
    rw [closing, closing_vars sz _ _ v hlt (.inl (List.mem_range.mpr hlt))] at hv
    cases hv
    rfl
  rw [closing] at h4
  rw [h4] at h3
  exact h3.clean

/-- **C45** (partial), in counts. -/
theorem C45_counts_partial (sz : Nat) (hsz : 0 < sz) (ops : List Op) (ha : allowedAll sz .init ops = true) (id : Nat) :
    let log := (run sz (run sz .init ops) (closing (run sz .init ops))).log
    log.count (.construct id) ≤ 1 ∧ log.count (.destroy id) = log.count (.construct id) :=
  (C45_exactly_once_partial sz hsz ops ha).counts id

/-- **C45** (partial): while the program runs, the log is legal and the objects alive are those in the containers. -/
theorem C45_alive_partial (sz : Nat) (hsz : 0 < sz) (ops : List Op) (ha : allowedAll sz .init ops = true) :
    ∃ alive, aliveAfter (run sz .init ops).log = some alive ∧ alive.Perm (held sz (run sz .init ops).vars) := by
  obtain ⟨s, h1, -, h3⟩ := (run_inv ops (inv_init hsz) ha).log
  exact ⟨s.alive, by rw [aliveAfter, h1]; rfl, h3⟩

/-- **C45** fails for `array = nullptr`: the elements are destroyed at the assignment and again by the destructor. -/
theorem C45_array_nullptr_twice :
    (run 8 .init [.newArray 2 [], .assignNull 0, .destroy 0]).log =
      [.construct 0, .construct 1, .destroy 0, .destroy 1, .destroy 0, .destroy 1] ∧
    ¬ Clean (run 8 .init [.newArray 2 [], .assignNull 0, .destroy 0]).log := by decide +kernel

/-- **C45** fails when the constructor throws in `ArrayView::emplace`: the old element is destroyed a second time. -/
theorem C45_emplace_throws_twice :
    (run 8 .init [.newArray 1 [], .emplaceAt 0 0 true, .destroy 0]).log = [.construct 0, .destroy 0, .destroy 0] ∧
    ¬ Clean (run 8 .init [.newArray 1 [], .emplaceAt 0 0 true, .destroy 0]).log := by decide +kernel

/-- A history with most operations in it, all allowed; the log is not empty. -/
def sample : List Op :=
  [.newVector 3, .emplaceBack 0 false, .emplaceBack 0 true, .emplaceBack 0 false, .popBack 0, .emplaceBack 0 false,
   .newVectorOf 3 [1], .newVectorOf 2 [], .swap 0 1, .emplaceAt 0 1 false, .toArray 1, .moveCtor 0, .assignNull 3,
   .newArray 2 [], .clear 1]

example : allowedAll 8 .init sample = true ∧
    (run 8 (run 8 .init sample) (closing (run 8 .init sample))).log.count (.destroy 6) = 1 := by decide +kernel

end Solace.Lifetimes
