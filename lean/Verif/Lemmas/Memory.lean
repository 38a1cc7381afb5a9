import Verif.Spec.Heap
namespace Solace.Memory

/-- What a variable owns. -/
def own : Option Res → Option (Nat × Nat × Nat)
  | some ⟨some id, n, some m⟩ => some (id, m, n)
  | _ => none

def owned (vars : List (Option Res)) : List (Nat × Nat × Nat) := vars.filterMap own

structure Inv (w : World) : Prop where
  perm : (owned w.vars).Perm (live w.log)
  nodup : ((mallocs w.log).map Prod.fst).Nodup
  lt : ∀ t ∈ mallocs w.log, t.1 < w.next
  fnodup : (frees w.log).Nodup
  fsub : ∀ id ∈ frees w.log, id ∈ (mallocs w.log).map Prod.fst
  disp : ∀ r, some r ∈ w.vars → ∀ d, r.disposer = some d → d < w.mgrs.length

theorem set_filterMap {α β} (f : α → Option β) (l : List α) (i : Nat) (a b : α) (h : l[i]? = some a) :
    ((f a).toList ++ (l.set i b).filterMap f).Perm ((f b).toList ++ l.filterMap f) := by
  induction l generalizing i with
  | nil => simp at h
  | cons x l ih =>
    match i with
    | 0 =>
      simp only [List.getElem?_cons_zero, Option.some.injEq] at h
      subst h
      simp only [List.set_cons_zero, List.filterMap_cons]
      cases f x <;> cases f b <;> simp [List.Perm.swap]
    | i + 1 =>
      simp only [List.getElem?_cons_succ] at h
      have := ih i h
      simp only [List.set_cons_succ, List.filterMap_cons]
      cases f x with
      | none => simpa using this
      | some y =>
        simp only
        have h1 : ((f a).toList ++ y :: (l.set i b).filterMap f).Perm (y :: ((f a).toList ++ (l.set i b).filterMap f)) :=
          List.perm_middle
        have h2 : ((f b).toList ++ y :: l.filterMap f).Perm (y :: ((f b).toList ++ l.filterMap f)) :=
          List.perm_middle
        exact h1.trans ((this.cons y).trans h2.symm)

theorem mallocs_append (a b : List Event) : mallocs (a ++ b) = mallocs a ++ mallocs b := by
  simp [mallocs]
theorem frees_append (a b : List Event) : frees (a ++ b) = frees a ++ frees b := by
  simp [frees]

theorem live_malloc (log : List Event) (id m n : Nat) (h : id ∉ frees log) :
    live (log ++ [.malloc id m n]) = live log ++ [(id, m, n)] := by
  have h1 : frees (log ++ [.malloc id m n]) = frees log := by rw [frees_append]; simp [frees]
  have h2 : mallocs (log ++ [.malloc id m n]) = mallocs log ++ [(id, m, n)] := by rw [mallocs_append]; rfl
  rw [live, h1, h2, List.filter_append]
  simp [live, h]

theorem live_free (log : List Event) (id : Nat) :
    live (log ++ [.free id]) = (live log).filter fun t => t.1 ≠ id := by
  have h1 : frees (log ++ [.free id]) = frees log ++ [id] := by rw [frees_append]; rfl
  have h2 : mallocs (log ++ [.free id]) = mallocs log := by rw [mallocs_append]; simp [mallocs]
  rw [live, h1, h2, live, List.filter_filter]
  congr 1
  funext t
  simp [List.mem_append, not_or, Bool.and_comm]

theorem live_sub (log : List Event) (t) (h : t ∈ live log) : t ∈ mallocs log := (List.mem_filter.mp h).1

theorem live_ids_nodup {log : List Event} (h : ((mallocs log).map Prod.fst).Nodup) :
    ((live log).map Prod.fst).Nodup :=
  List.Sublist.nodup (List.Sublist.map _ List.filter_sublist) h

/-- Changing only managers. -/
theorem Inv.mgrs {w : World} (h : Inv w) (ms : List Mgr) (hl : w.mgrs.length ≤ ms.length) : Inv { w with mgrs := ms } :=
  ⟨h.perm, h.nodup, h.lt, h.fnodup, h.fsub, fun r hr d hd => Nat.lt_of_lt_of_le (h.disp r hr d hd) hl⟩

theorem mem_set {α} {l : List α} {i : Nat} {a x : α} (h : x ∈ l.set i a) : x = a ∨ x ∈ l := by
  rcases List.mem_or_eq_of_mem_set h with h | h
  · exact .inr h
  · exact .inl h

theorem inv_init : Inv World.init := by
  refine ⟨?_, ?_, ?_, ?_, ?_, ?_⟩ <;> simp [World.init, owned, live, mallocs, frees]

theorem inv_newMgr {w : World} (h : Inv w) (c t : Nat) : Inv (newMgr w c t) := by
  rw [newMgr]; split
  · exact h.mgrs _ (by simp)
  · exact h

theorem inv_swapMgr {w : World} (h : Inv w) (a b : Nat) : Inv (swapMgr w a b) := by
  rw [swapMgr]; split
  · exact h.mgrs _ (by simp)
  · exact h

theorem inv_moveMgr {w : World} (h : Inv w) (a : Nat) : Inv (moveMgr w a) := by
  rw [moveMgr]; split
  · exact h.mgrs _ (by simp)
  · exact h

theorem inv_setLocked {w : World} (h : Inv w) (a : Nat) (l : Bool) : Inv (setLocked w a l) := by
  rw [setLocked]; split
  · exact h.mgrs _ (by simp)
  · exact h

theorem inv_alloc {w : World} (h : Inv w) (m n : Nat) (s : Bool) : Inv (alloc w m n s).1 := by
  rw [alloc]
  split
  · exact h
  · rename_i x hx
    have hm : m < w.mgrs.length := by
      rw [List.getElem?_eq_some_iff] at hx; exact hx.1
    split
    · exact h
    · split
      · exact h
      · split
        · exact h
        · have hfresh : w.next ∉ (mallocs w.log).map Prod.fst := by
            intro hc
            obtain ⟨t, ht, he⟩ := List.mem_map.mp hc
            have := h.lt t ht
            omega
          have hdisp : ∀ b : Option Nat, ∀ r, some r ∈ w.vars ++ [some ⟨b, n, some m⟩] → ∀ d, r.disposer = some d →
              d < (w.mgrs.set m { x with size := wrap64 (x.size + n) }).length := by
            intro b r hr d hd
            rw [List.length_set]
            rcases List.mem_append.mp hr with hr | hr
            · exact h.disp r hr d hd
            · simp only [List.mem_singleton, Option.some.injEq] at hr
              subst hr
              simp only [Option.some.injEq] at hd
              omega
          cases s with
          | false =>
            refine ⟨?_, h.nodup, h.lt, h.fnodup, h.fsub, hdisp none⟩
            simpa [owned, own, List.filterMap_cons] using h.perm
          | true =>
            have hnf : w.next ∉ frees w.log := fun hc => hfresh (h.fsub _ hc)
            have hmall : mallocs (w.log ++ [.malloc w.next m n]) = mallocs w.log ++ [(w.next, m, n)] := by
              rw [mallocs_append]; rfl
            have hfr : frees (w.log ++ [.malloc w.next m n]) = frees w.log := by
              rw [frees_append]; simp [frees]
            refine ⟨?_, ?_, ?_, ?_, ?_, hdisp (some w.next)⟩
            · simp only [if_true]
              rw [live_malloc _ _ _ _ hnf, owned, List.filterMap_append]
              exact h.perm.append (List.Perm.refl _)
            · simp only [if_true, hmall, List.map_append]
              rw [List.nodup_append]
              refine ⟨h.nodup, by simp, ?_⟩
              intro a ha b hb hab
              simp only [List.map_cons, List.map_nil, List.mem_singleton] at hb
              subst hb hab
              exact hfresh ha
            · simp only [if_true, hmall]
              intro t ht
              rcases List.mem_append.mp ht with ht | ht
              · have := h.lt t ht; omega
              · simp only [List.mem_singleton] at ht
                subst ht; simp
            · simp only [if_true, hfr]; exact h.fnodup
            · simp only [if_true, hfr, hmall, List.map_append]
              intro id hid
              exact List.mem_append_left _ (h.fsub id hid)

theorem inv_wrapForeign {w : World} (h : Inv w) (n : Nat) : Inv (wrapForeign w n) := by
  refine ⟨?_, h.nodup, h.lt, h.fnodup, h.fsub, ?_⟩
  · simpa [wrapForeign, owned, own, List.filterMap_cons] using h.perm
  · intro r hr d hd
    simp only [wrapForeign, List.mem_append, List.mem_singleton, Option.some.injEq] at hr
    rcases hr with hr | hr
    · exact h.disp r hr d hd
    · subst hr; cases hd

theorem inv_moveCtor {w : World} (h : Inv w) (v : Nat) : Inv (moveCtor w v) := by
  rw [moveCtor]
  split
  · rename_i r hr
    refine ⟨?_, h.nodup, h.lt, h.fnodup, h.fsub, ?_⟩
    · simp only
      rw [owned, List.filterMap_append]
      have := set_filterMap own w.vars v (some r) (some ⟨none, 0, none⟩) hr
      have e : List.filterMap own [some r] = (own (some r)).toList := by
        cases hh : own (some r) <;> simp [hh]
      rw [e]
      refine List.Perm.trans List.perm_append_comm (this.trans ?_)
      simpa [own, owned] using h.perm
    · intro r' hr' d hd
      simp only [List.mem_append, List.mem_singleton, Option.some.injEq] at hr'
      rcases hr' with hr' | hr'
      · rcases mem_set hr' with he | he
        · cases he; cases hd
        · exact h.disp r' he d hd
      · subst hr'
        exact h.disp r' (List.mem_of_getElem? hr) d hd
  · exact h

theorem inv_swapRes {w : World} (h : Inv w) (v u : Nat) : Inv (swapRes w v u) := by
  rw [swapRes]
  split
  · rename_i a b ha hb
    refine ⟨?_, h.nodup, h.lt, h.fnodup, h.fsub, ?_⟩
    · refine List.Perm.trans ?_ h.perm
      have h1 := set_filterMap own w.vars v (some a) (some b) ha
      have hu : (w.vars.set v (some b))[u]? = some (some b) := by
        rw [List.getElem?_set]
        split
        · rename_i hvu
          subst hvu
          rw [List.getElem?_eq_some_iff] at ha
          simp [ha.1]
        · exact hb
      have h2 := set_filterMap own (w.vars.set v (some b)) u (some b) (some a) hu
      exact (List.perm_append_left_iff _).mp (h2.trans h1)
    · intro r hr d hd
      rcases mem_set hr with he | he
      · cases he; exact h.disp _ (List.mem_of_getElem? ha) d hd
      · rcases mem_set he with he | he
        · cases he; exact h.disp _ (List.mem_of_getElem? hb) d hd
        · exact h.disp _ he d hd
  · exact h

theorem inv_dispose_none {w : World} (h : Inv w) (d : Nat) (r : Res) (hr : r.block = none) : Inv (dispose w d r) := by
  rw [dispose]
  split
  · exact h
  · rw [hr]
    simp only [logFree]
    split
    · exact h.mgrs _ (by simp)
    · exact h

/-- What `destroy` does to a variable that owns a block. -/
theorem inv_destroy {w : World} (h : Inv w) (v : Nat) : Inv (destroy w v) := by
  rw [destroy]
  split
  · rename_i r hr
    have hset := set_filterMap own w.vars v (some r) none hr
    have hdispo : ∀ r', some r' ∈ w.vars.set v none → ∀ d, r'.disposer = some d → d < w.mgrs.length := by
      intro r' hr' d hd
      rcases mem_set hr' with he | he
      · cases he
      · exact h.disp r' he d hd
    have hnone : own (some r) = none → Inv { w with vars := w.vars.set v none } := by
      intro ho
      refine ⟨?_, h.nodup, h.lt, h.fnodup, h.fsub, hdispo⟩
      rw [ho] at hset
      simp only [Option.toList_none, List.nil_append, own] at hset
      exact hset.trans h.perm
    split
    · rename_i d hd
      cases hb : r.block with
      | none =>
        apply inv_dispose_none _ _ _ hb
        apply hnone
        obtain ⟨b, n, d'⟩ := r
        simp only at hb; subst hb; rfl
      | some id =>
        have hown : own (some r) = some (id, d, r.size) := by
          obtain ⟨b, n, d'⟩ := r
          simp only at hb hd; subst hb hd; rfl
        have hdl : d < w.mgrs.length := h.disp r (List.mem_of_getElem? hr) d hd
        rw [dispose]
        have hx : w.mgrs[d]? = some w.mgrs[d] := List.getElem?_eq_getElem hdl
        simp only [hx, hb, logFree]
        rw [hown] at hset
        simp only [Option.toList_some, List.cons_append, List.nil_append, Option.toList_none, own] at hset
        have hp : ((id, d, r.size) :: owned (w.vars.set v none)).Perm (live w.log) := hset.trans h.perm
        have hids : (((id, d, r.size) :: owned (w.vars.set v none)).map Prod.fst).Nodup :=
          (hp.map Prod.fst).nodup_iff.mpr (live_ids_nodup h.nodup)
        rw [List.map_cons, List.nodup_cons] at hids
        have hlive : (id, d, r.size) ∈ live w.log := hp.subset (by simp)
        have hmall : mallocs (w.log ++ [.free id]) = mallocs w.log := by rw [mallocs_append]; simp [mallocs]
        have hfr : frees (w.log ++ [.free id]) = frees w.log ++ [id] := by rw [frees_append]; rfl
        have hnotf : id ∉ frees w.log := by
          have := (List.mem_filter.mp hlive).2
          simpa using this
        refine ⟨?_, ?_, ?_, ?_, ?_, ?_⟩
        · simp only
          rw [live_free]
          have hf := hp.filter fun t => decide (t.1 ≠ id)
          have : ((id, d, r.size) :: owned (w.vars.set v none)).filter (fun t => decide (t.1 ≠ id)) =
              owned (w.vars.set v none) := by
            rw [List.filter_cons_of_neg (by simp), List.filter_eq_self]
            intro t ht
            simp only [decide_eq_true_eq]
            intro he
            exact hids.1 (List.mem_map.mpr ⟨t, ht, he⟩)
          rw [this] at hf
          exact hf
        · simp only [hmall]; exact h.nodup
        · simp only [hmall]; exact h.lt
        · simp only [hfr]
          rw [List.nodup_append]
          refine ⟨h.fnodup, by simp, ?_⟩
          intro a ha b hb' hab
          simp only [List.mem_singleton] at hb'
          subst hb' hab
          exact hnotf ha
        · simp only [hfr, hmall]
          intro i hi
          rcases List.mem_append.mp hi with hi | hi
          · exact h.fsub i hi
          · simp only [List.mem_singleton] at hi
            subst hi
            exact List.mem_map.mpr ⟨_, live_sub _ _ hlive, rfl⟩
        · intro r' hr' d' hd'
          have := hdispo r' hr' d' hd'
          simp only
          split <;> simpa using this
    · rename_i hd
      apply hnone
      obtain ⟨b, n, d'⟩ := r
      simp only at hd; subst hd
      cases b <;> rfl
  · exact h

theorem inv_step {w : World} (h : Inv w) (op : Op) : Inv (step w op) := by
  cases op with
  | newMgr c t => exact inv_newMgr h c t
  | swapMgr a b => exact inv_swapMgr h a b
  | moveMgr a => exact inv_moveMgr h a
  | lock a => exact inv_setLocked h a true
  | unlock a => exact inv_setLocked h a false
  | alloc m n s => exact inv_alloc h m n s
  | destroy v => exact inv_destroy h v
  | moveCtor v => exact inv_moveCtor h v
  | assign v u => exact inv_swapRes h v u
  | swap v u => exact inv_swapRes h v u
  | wrapForeign n => exact inv_wrapForeign h n

theorem inv_foldl {w : World} (h : Inv w) (ops : List Op) : Inv (ops.foldl step w) := by
  induction ops generalizing w with
  | nil => exact h
  | cons op ops ih => exact ih (inv_step h op)

theorem inv_run (ops : List Op) : Inv (run ops) := inv_foldl inv_init ops


/-- Total size of the blocks in a list that belong to manager `m`. -/
def sumFor (m : Nat) (l : List (Nat × Nat × Nat)) : Nat := ((l.filter fun t => t.2.1 = m).map fun t => t.2.2).sum

theorem sumFor_perm {m : Nat} {l l' : List (Nat × Nat × Nat)} (h : l.Perm l') : sumFor m l = sumFor m l' := by
  rw [sumFor, sumFor]
  exact ((h.filter _).map _).sum_nat

theorem sumFor_cons (m : Nat) (t : Nat × Nat × Nat) (l : List (Nat × Nat × Nat)) :
    sumFor m (t :: l) = (if t.2.1 = m then t.2.2 else 0) + sumFor m l := by
  rw [sumFor, sumFor, List.filter_cons]
  split <;> simp_all

theorem outstanding_eq (m : Nat) (log : List Event) : outstanding m log = sumFor m (live log) := rfl

/-- The accounting invariant. -/
structure Acct (w : World) : Prop where
  mgr : ∀ (m : Nat) (x : Mgr), w.mgrs[m]? = some x →
    x.self = m ∧ x.size = outstanding m w.log ∧ x.size ≤ x.capacity ∧ x.capacity < 2 ^ 64
  null : ∀ r, some r ∈ w.vars → r.disposer ≠ none → r.block = none → r.size = 0
  owner : ∀ t ∈ live w.log, t.2.1 < w.mgrs.length

/-- Manager swaps only between managers with the same total of outstanding blocks (for example none); no manager is
move-constructed. -/
def Quiet (w : World) : Op → Prop
  | .swapMgr a b => a < w.mgrs.length → b < w.mgrs.length → outstanding a w.log = outstanding b w.log
  | .moveMgr _ => False
  | _ => True

theorem acct_init : Acct World.init := by
  refine ⟨?_, ?_, ?_⟩ <;> simp [World.init, live, mallocs]

theorem acct_vars {w : World} (h : Acct w) (vs : List (Option Res))
    (hv : ∀ r, some r ∈ vs → some r ∈ w.vars ∨ r.disposer = none) : Acct { w with vars := vs } := by
  refine ⟨h.mgr, ?_, h.owner⟩
  intro r hr hd hb
  rcases hv r hr with h1 | h1
  · exact h.null r h1 hd hb
  · exact absurd h1 hd

theorem acct_alloc {w : World} (hi : Inv w) (h : Acct w) (m n : Nat) (s : Bool) : Acct (alloc w m n s).1 := by
  rw [alloc]
  split
  · exact h
  · rename_i x hx
    obtain ⟨hself, hsize, hle, hcap⟩ := h.mgr m x hx
    have hm : m < w.mgrs.length := by
      rw [List.getElem?_eq_some_iff] at hx; exact hx.1
    split
    · exact h
    · rename_i hlim
      rw [sub64_of_le hle hcap] at hlim
      have hw : wrap64 (x.size + n) = x.size + n := wrap64_of_lt (by omega)
      split
      · exact h
      · split
        · exact h
        · rename_i hsys
          have hfresh : w.next ∉ frees w.log := by
            intro hc
            obtain ⟨t, ht, he⟩ := List.mem_map.mp (hi.fsub _ hc)
            have := hi.lt t ht
            omega
          refine ⟨?_, ?_, ?_⟩
          · intro m' x' hx'
            simp only at hx'
            rw [List.getElem?_set] at hx'
            have hout : outstanding m' (if s then w.log ++ [.malloc w.next m n] else w.log) =
                (if m = m' then n else 0) + outstanding m' w.log := by
              cases s with
              | false =>
                simp at hsys
                simp [hsys]
              | true =>
                simp only [if_true]
                rw [outstanding_eq, live_malloc _ _ _ _ hfresh, sumFor_perm (List.perm_append_comm), List.singleton_append,
                  sumFor_cons, outstanding_eq]
            simp only [hout]
            split at hx'
            · rename_i hmm
              subst hmm
              simp only [Option.some.injEq] at hx'
              subst hx'
              simp only [hw, if_true]
              omega
            · rename_i hmm
              rw [if_neg hmm, Nat.zero_add]
              exact h.mgr m' x' hx'
          · intro r hr hd hb
            simp only [List.mem_append, List.mem_singleton, Option.some.injEq] at hr
            rcases hr with hr | hr
            · exact h.null r hr hd hb
            · subst hr
              cases s with
              | true => simp at hb
              | false => simpa using hsys
          · simp only [List.length_set]
            intro t ht
            cases s with
            | false => exact h.owner t ht
            | true =>
              simp only [if_true] at ht
              rw [live_malloc _ _ _ _ hfresh] at ht
              rcases List.mem_append.mp ht with ht | ht
              · exact h.owner t ht
              · simp only [List.mem_singleton] at ht
                subst ht
                exact hm

theorem acct_destroy {w : World} (hi : Inv w) (h : Acct w) (v : Nat) : Acct (destroy w v) := by
  have hi' := inv_destroy hi v
  rw [destroy] at hi' ⊢
  split
  · rename_i r hr
    have hnull : ∀ r', some r' ∈ w.vars.set v none → some r' ∈ w.vars := by
      intro r' hr'
      rcases mem_set hr' with he | he
      · cases he
      · exact he
    rw [hr] at hi'
    simp only at hi'
    split
    · rename_i d hd
      rw [hd] at hi'
      simp only at hi'
      have hdl : d < w.mgrs.length := hi.disp r (List.mem_of_getElem? hr) d hd
      have hx : w.mgrs[d]? = some w.mgrs[d] := List.getElem?_eq_getElem hdl
      obtain ⟨hself, hsize, hle, hcap⟩ := h.mgr d _ hx
      rw [dispose] at hi' ⊢
      simp only [hx, hself] at hi' ⊢
      have hset := set_filterMap own w.vars v (some r) none hr
      have hsum : ∀ m', outstanding m' w.log =
          (if d = m' then r.size else 0) +
            outstanding m' (logFree w.log r.block) := by
        intro m'
        have hp := hset.trans hi.perm
        have hp' := hi'.perm
        simp only at hp'
        cases hb : r.block with
        | none =>
          have := h.null r (List.mem_of_getElem? hr) (by simp [hd]) hb
          simp [this, logFree]
        | some id =>
          have hown : own (some r) = some (id, d, r.size) := by
            obtain ⟨b, n, d'⟩ := r
            simp only at hb hd; subst hb hd; rfl
          rw [hb, logFree] at hp'
          rw [hown] at hp
          simp only [Option.toList_some, List.cons_append, List.nil_append] at hp
          simp only [logFree]
          rw [outstanding_eq, outstanding_eq, ← sumFor_perm hp, ← sumFor_perm hp', sumFor_cons]
          rfl
      refine ⟨?_, ?_, ?_⟩
      · intro m' x' hx'
        simp only at hx'
        rw [List.getElem?_set] at hx'
        have hs := hsum m'
        split at hx'
        · rename_i hmm
          subst hmm
          simp only [Option.some.injEq] at hx'
          subst hx'
          simp only [if_true] at hs
          simp only
          rw [sub64_of_le (by omega) (by omega)]
          exact ⟨trivial, by omega, by omega, by omega⟩
        · rename_i hmm
          rw [if_neg hmm, Nat.zero_add] at hs
          have := h.mgr m' x' hx'
          simp only
          omega
      · intro r' hr' hd' hb'
        exact h.null r' (hnull r' hr') hd' hb'
      · simp only [List.length_set]
        cases hb : r.block with
        | none => exact h.owner
        | some id =>
          simp only [logFree]
          rw [live_free]
          intro t ht
          exact h.owner t (List.mem_filter.mp ht).1
    · exact acct_vars h _ (fun r' hr' => .inl (hnull r' hr'))
  · exact h

theorem acct_swapMgr {w : World} (h : Acct w) (a b : Nat) (hq : Quiet w (.swapMgr a b)) : Acct (swapMgr w a b) := by
  rw [swapMgr]
  split
  · rename_i x y hx hy
    obtain ⟨hxs, hxo, hxl, hxc⟩ := h.mgr a x hx
    obtain ⟨hys, hyo, hyl, hyc⟩ := h.mgr b y hy
    have ha : a < w.mgrs.length := by rw [List.getElem?_eq_some_iff] at hx; exact hx.1
    have hb : b < w.mgrs.length := by rw [List.getElem?_eq_some_iff] at hy; exact hy.1
    refine ⟨?_, h.null, by simpa using h.owner⟩
    intro m z hz
    simp only at hz
    rw [List.getElem?_set] at hz
    have hq : outstanding a w.log = outstanding b w.log := hq ha hb
    split at hz
    · rename_i hm
      subst hm
      simp only [List.length_set, hb, if_true, Option.some.injEq] at hz
      subst hz
      simp only
      omega
    · rw [List.getElem?_set] at hz
      split at hz
      · rename_i hm
        subst hm
        simp only [Option.some.injEq] at hz
        subst hz
        simp only
        omega
      · exact h.mgr m z hz
  · exact h

theorem acct_newMgr {w : World} (h : Acct w) (c t : Nat) : Acct (newMgr w c t) := by
  rw [newMgr]
  split
  · rename_i hc
    refine ⟨?_, h.null, ?_⟩
    · intro m x hx
      simp only at hx
      rw [List.getElem?_append] at hx
      split at hx
      · exact h.mgr m x hx
      · rename_i hm
        have hz : outstanding w.mgrs.length w.log = 0 := by
          rw [outstanding]
          have : (live w.log).filter (fun t => decide (t.2.1 = w.mgrs.length)) = [] := by
            rw [List.filter_eq_nil_iff]
            intro t ht
            have := h.owner t ht
            simp; omega
          rw [this]; rfl
        have : m - w.mgrs.length = 0 := by
          rw [List.getElem?_eq_some_iff] at hx
          obtain ⟨hl, _⟩ := hx
          simp at hl; omega
        rw [this] at hx
        simp only [List.getElem?_cons_zero, Option.some.injEq] at hx
        subst hx
        have hmm : m = w.mgrs.length := by omega
        subst hmm
        have := wrap64_lt t
        simp only [hz]
        exact ⟨trivial, trivial, by omega, by omega⟩
    · intro t ht
      have := h.owner t ht
      simp; omega
  · exact h

theorem acct_step {w : World} (hi : Inv w) (h : Acct w) (op : Op) (hq : Quiet w op) : Acct (step w op) := by
  cases op with
  | newMgr c t => exact acct_newMgr h c t
  | swapMgr a b => exact acct_swapMgr h a b hq
  | moveMgr a => exact hq.elim
  | lock a =>
    rw [step, setLocked]
    split
    · rename_i x hx
      refine ⟨?_, h.null, by simpa using h.owner⟩
      intro m z hz
      simp only at hz
      rw [List.getElem?_set] at hz
      split at hz
      · rename_i hm; subst hm
        split at hz
        · cases hz; exact h.mgr a x hx
        · cases hz
      · exact h.mgr m z hz
    · exact h
  | unlock a =>
    rw [step, setLocked]
    split
    · rename_i x hx
      refine ⟨?_, h.null, by simpa using h.owner⟩
      intro m z hz
      simp only at hz
      rw [List.getElem?_set] at hz
      split at hz
      · rename_i hm; subst hm
        split at hz
        · cases hz; exact h.mgr a x hx
        · cases hz
      · exact h.mgr m z hz
    · exact h
  | alloc m n s => exact acct_alloc hi h m n s
  | destroy v => exact acct_destroy hi h v
  | moveCtor v =>
    rw [step, moveCtor]
    split
    · rename_i r hr
      apply acct_vars h
      intro r' hr'
      simp only [List.mem_append, List.mem_singleton, Option.some.injEq] at hr'
      rcases hr' with hr' | hr'
      · rcases mem_set hr' with he | he
        · cases he; exact .inr rfl
        · exact .inl he
      · subst hr'; exact .inl (List.mem_of_getElem? hr)
    · exact h
  | assign v u =>
    rw [step, swapRes]
    split
    · rename_i a b ha hb
      apply acct_vars h
      intro r' hr'
      rcases mem_set hr' with he | he
      · cases he; exact .inl (List.mem_of_getElem? ha)
      · rcases mem_set he with he | he
        · cases he; exact .inl (List.mem_of_getElem? hb)
        · exact .inl he
    · exact h
  | swap v u =>
    rw [step, swapRes]
    split
    · rename_i a b ha hb
      apply acct_vars h
      intro r' hr'
      rcases mem_set hr' with he | he
      · cases he; exact .inl (List.mem_of_getElem? ha)
      · rcases mem_set he with he | he
        · cases he; exact .inl (List.mem_of_getElem? hb)
        · exact .inl he
    · exact h
  | wrapForeign n =>
    apply acct_vars h
    intro r' hr'
    simp only [List.mem_append, List.mem_singleton, Option.some.injEq] at hr'
    rcases hr' with hr' | hr'
    · exact .inl hr'
    · subst hr'; exact .inr rfl

end Solace.Memory
