import Verif.Lemmas.Memory
/-
C17 (accounting), C18 (locking), C19 (accounting and moved managers), C20 (each block released exactly once).

The specification side (`outstanding`, `mallocs`, `frees`) is computed from the log of calls to the C library only.
C19 is false for the code: `MemoryManager::swap` and the defaulted move constructor leave the disposers behind.
-/
namespace Solace.Memory

/-- No manager is swapped or moved. -/
def NoMgrMove : Op → Prop
  | .swapMgr _ _ | .moveMgr _ => False
  | _ => True

/-- Managers are swapped only while both have the same total outstanding, and never move-constructed. -/
def QuietFrom (w : World) : List Op → Prop
  | [] => True
  | op :: ops => Quiet w op ∧ QuietFrom (step w op) ops

theorem quietFrom_of_noMgrMove (w : World) (ops : List Op) (h : ∀ op ∈ ops, NoMgrMove op) : QuietFrom w ops := by
  induction ops generalizing w with
  | nil => trivial
  | cons op ops ih =>
    refine ⟨?_, ih _ (fun o ho => h o (by simp [ho]))⟩
    have := h op (by simp)
    cases op <;> simp_all [NoMgrMove, Quiet]

theorem acct_of_quiet {w : World} (hi : Inv w) (ha : Acct w) (ops : List Op) (h : QuietFrom w ops) :
    Acct (ops.foldl step w) := by
  induction ops generalizing w with
  | nil => exact ha
  | cons op ops ih => exact ih (inv_step hi op) (acct_step hi ha op h.1) h.2

/-- **C17** (full), part 1: after any history of creating managers, allocating, releasing, locking, unlocking and moving
resources around, the reported size of every manager is the total size of the blocks it obtained and that were not yet
released, and never exceeds the capacity. -/
theorem C17_size_is_outstanding (ops : List Op) (h : ∀ op ∈ ops, NoMgrMove op) (m : Nat) (x : Mgr)
    (hx : (run ops).mgrs[m]? = some x) :
    x.size = outstanding m (run ops).log ∧ x.size ≤ x.capacity := by
  have := (acct_of_quiet inv_init acct_init ops (quietFrom_of_noMgrMove _ ops h)).mgr m x hx
  exact ⟨this.2.1, this.2.2.1⟩

/-- **C17** (full), part 2: an allocation succeeds exactly when the outstanding total plus the request is within the
capacity, the manager is not locked, and the system has memory; when it fails nothing changes; when it succeeds exactly
the request is added to the outstanding total. -/
theorem C17_alloc_exact (ops : List Op) (h : ∀ op ∈ ops, NoMgrMove op) (m : Nat) (x : Mgr)
    (hx : (run ops).mgrs[m]? = some x) (n : Nat) (sysOk : Bool) :
    ((alloc (run ops) m n sysOk).2 = .ok () ↔
      outstanding m (run ops).log + n ≤ x.capacity ∧ x.locked = false ∧ (sysOk = true ∨ n = 0)) ∧
    ((alloc (run ops) m n sysOk).2 ≠ .ok () → (alloc (run ops) m n sysOk).1 = run ops) ∧
    ((alloc (run ops) m n sysOk).2 = .ok () →
      outstanding m (alloc (run ops) m n sysOk).1.log = outstanding m (run ops).log + n) := by
  have hq := acct_of_quiet inv_init acct_init ops (quietFrom_of_noMgrMove _ ops h)
  change Acct (run ops) at hq
  have hi := inv_run ops
  have hq' := acct_alloc hi hq m n sysOk
  generalize run ops = w at *
  obtain ⟨hself, hsize, hle, hcap⟩ := hq.mgr m x hx
  have hm : m < w.mgrs.length := by
    rw [List.getElem?_eq_some_iff] at hx; exact hx.1
  have hsub : sub64 x.capacity x.size = x.capacity - x.size := sub64_of_le hle hcap
  rw [alloc, hx] at hq' ⊢
  simp only [hsub] at hq' ⊢
  by_cases h1 : x.capacity - x.size < n
  · simp only [h1, if_true]
    refine ⟨⟨fun hc => (by cases hc), fun hc => (by omega)⟩, fun _ => ?_, fun hc => (by cases hc)⟩
    first | rfl | trivial
  · simp only [h1, if_false] at hq' ⊢
    cases hl : x.locked with
    | true => simp
    | false =>
      simp only [hl, Bool.false_eq_true, if_false] at hq' ⊢
      by_cases h2 : (!sysOk && n != 0) = true
      · simp only [h2, if_true]
        refine ⟨⟨fun hc => (by cases hc), fun hc => ?_⟩, fun _ => (by first | rfl | trivial), fun hc => (by cases hc)⟩
        simp at h2
        rcases hc.2.2 with hc | hc
        · rw [h2.1] at hc; cases hc
        · exact absurd hc h2.2
      · simp only [h2] at hq' ⊢
        refine ⟨⟨fun _ => ⟨by omega, by first | exact hl | trivial, ?_⟩, fun _ => rfl⟩, fun hc => absurd rfl hc, fun _ => ?_⟩
        · simp at h2
          cases sysOk with
          | true => exact .inl rfl
          | false => exact .inr (h2 rfl)
        · have := (hq'.mgr m { x with size := wrap64 (x.size + n) } (by simp [hm, hl])).2.1
          simp only [Bool.false_eq_true, if_false] at this ⊢
          rw [← this, wrap64_of_lt (by omega), hsize]

/-- **C17**, the error reported: lack of capacity is checked first, then the lock, then `malloc`. -/
theorem C17_alloc_error (ops : List Op) (h : ∀ op ∈ ops, NoMgrMove op) (m : Nat) (x : Mgr)
    (hx : (run ops).mgrs[m]? = some x) (n : Nat) (sysOk : Bool) :
    (x.capacity < outstanding m (run ops).log + n → (alloc (run ops) m n sysOk).2 = .error .nomem) ∧
    (outstanding m (run ops).log + n ≤ x.capacity → x.locked = true →
      (alloc (run ops) m n sysOk).2 = .error .perm) ∧
    (outstanding m (run ops).log + n ≤ x.capacity → x.locked = false → sysOk = false → n ≠ 0 →
      (alloc (run ops) m n sysOk).2 = .error .nomem) := by
  have hq := acct_of_quiet inv_init acct_init ops (quietFrom_of_noMgrMove _ ops h)
  change Acct (run ops) at hq
  generalize run ops = w at *
  obtain ⟨hself, hsize, hle, hcap⟩ := hq.mgr m x hx
  have hsub : sub64 x.capacity x.size = x.capacity - x.size := sub64_of_le hle hcap
  rw [alloc, hx]
  simp only [hsub]
  refine ⟨?_, ?_, ?_⟩
  · intro hc
    rw [if_pos (by omega)]
  · intro hc hl
    rw [if_neg (by omega), hl]
    rfl
  · intro hc hl hs hn
    rw [if_neg (by omega), hl, hs]
    simp [hn]

example : (run [.newMgr 100 4096, .alloc 0 60 true, .alloc 0 30 true, .destroy 0, .alloc 0 50 true]).mgrs[0]? =
    some ⟨100, 80, false, 0⟩ := by decide +kernel
example : (alloc (run [.newMgr 100 4096, .alloc 0 60 true]) 0 41 true).2 = .error .nomem ∧
    (alloc (run [.newMgr 100 4096, .alloc 0 60 true]) 0 40 true).2 = .ok () := by decide +kernel

/-- **C17**, creation: a manager exists exactly for a capacity below the memory of the machine, and the new manager then
gives out exactly the sizes up to its capacity (when `malloc` has memory). -/
theorem C17_newMgr (w : World) (cap total n : Nat) (ht : total < 2 ^ 64) :
    (total ≤ cap → newMgr w cap total = w) ∧
    (cap < total → ((alloc (newMgr w cap total) w.mgrs.length n true).2 = .ok () ↔ n ≤ cap)) := by
  refine ⟨fun h => by rw [newMgr, wrap64_of_lt ht, if_neg (by omega)], fun h => ?_⟩
  have hm : (newMgr w cap total).mgrs[w.mgrs.length]? = some ⟨cap, 0, false, w.mgrs.length⟩ := by
    rw [newMgr, wrap64_of_lt ht, if_pos h]
    simp
  rw [alloc, hm]
  simp only
  rw [sub64_of_le (Nat.zero_le _) (by omega), Nat.sub_zero]
  by_cases hn : cap < n
  · rw [if_pos hn]
    simp only [reduceCtorEq, false_iff]
    omega
  · rw [if_neg hn]
    simp
    omega

example : (alloc (newMgr World.init 100 4096) 0 100 true).2 = .ok () := by decide +kernel

/-- **C18** (full), part 1: in every state, if manager `m` is locked then allocating fails - with a permission error
unless the request already exceeds what is left - and changes nothing. -/
theorem C18_locked_never_allocates (w : World) (m n : Nat) (sysOk : Bool) (x : Mgr) (hx : w.mgrs[m]? = some x)
    (hl : x.locked = true) :
    alloc w m n sysOk = (w, .error (if sub64 x.capacity x.size < n then .nomem else .perm)) := by
  rw [alloc, hx]
  simp only
  split
  · rfl
  · rfl

/-- No call between `lock` and `unlock` unlocks `m` (nor swaps/moves managers). -/
def KeepsLocked (m : Nat) : Op → Prop
  | .unlock a => a ≠ m
  | .swapMgr _ _ | .moveMgr _ => False
  | _ => True

theorem locked_step {w : World} (hi : Inv w) (ha : Acct w) (m : Nat) (x : Mgr) (hx : w.mgrs[m]? = some x)
    (hl : x.locked = true) (op : Op) (hop : KeepsLocked m op) :
    ∃ y, (step w op).mgrs[m]? = some y ∧ y.locked = true ∧ y.size ≤ x.size := by
  have hm : m < w.mgrs.length := by rw [List.getElem?_eq_some_iff] at hx; exact hx.1
  cases op with
  | newMgr c t =>
    rw [step, newMgr]
    split
    · exact ⟨x, by simp only; rw [List.getElem?_append_left hm]; exact hx, hl, Nat.le_refl _⟩
    · exact ⟨x, hx, hl, Nat.le_refl _⟩
  | swapMgr a b => exact hop.elim
  | moveMgr a => exact hop.elim
  | lock a =>
    rw [step, setLocked]
    split
    · rename_i z hz
      by_cases ham : a = m
      · subst ham
        have : x = z := by rw [hx] at hz; exact Option.some.inj hz
        subst this
        exact ⟨{ x with locked := true }, by simp [hm], rfl, Nat.le_refl _⟩
      · exact ⟨x, by simp only; rw [List.getElem?_set, if_neg ham]; exact hx, hl, Nat.le_refl _⟩
    · exact ⟨x, hx, hl, Nat.le_refl _⟩
  | unlock a =>
    rw [step, setLocked]
    split
    · exact ⟨x, by simp only; rw [List.getElem?_set, if_neg hop]; exact hx, hl, Nat.le_refl _⟩
    · exact ⟨x, hx, hl, Nat.le_refl _⟩
  | alloc m' n s =>
    by_cases hmm : m' = m
    · subst hmm
      rw [step, C18_locked_never_allocates w m' n s x hx hl]
      exact ⟨x, hx, hl, Nat.le_refl _⟩
    · rw [step, alloc]
      split
      · exact ⟨x, hx, hl, Nat.le_refl _⟩
      · repeat' split
        all_goals first
          | exact ⟨x, hx, hl, Nat.le_refl _⟩
          | exact ⟨x, by simp only; rw [List.getElem?_set, if_neg hmm]; exact hx, hl, Nat.le_refl _⟩
  | destroy v =>
    have hacct := acct_destroy hi ha v
    have hx' : ∃ y, (destroy w v).mgrs[m]? = some y ∧ y.locked = true ∧
        (y = x ∨ ∃ r d, y.size = sub64 x.size r ∧ outstanding m w.log = r + d) := by
      rw [destroy]
      split
      · rename_i r hr
        split
        · rename_i d hd
          rw [dispose]
          split
          · exact ⟨x, hx, hl, .inl rfl⟩
          · rename_i z hz
            simp only at hz
            obtain ⟨hself, _⟩ := ha.mgr d z hz
            rw [hself, hz]
            simp only
            by_cases hdm : d = m
            · subst hdm
              have : x = z := by rw [hx] at hz; exact Option.some.inj hz
              subst this
              refine ⟨{ x with size := sub64 x.size r.size }, by simp [hm, hself], hl, .inr ⟨r.size, ?_⟩⟩
              have hset := set_filterMap own w.vars v (some r) none hr
              cases hb : r.block with
              | none =>
                have := ha.null r (List.mem_of_getElem? hr) (by simp [hd]) hb
                exact ⟨outstanding d w.log, rfl, by omega⟩
              | some id =>
                have hown : own (some r) = some (id, d, r.size) := by
                  obtain ⟨b, n, d'⟩ := r
                  simp only at hb hd; subst hb hd; rfl
                rw [hown] at hset
                have hp := hset.trans hi.perm
                simp only [Option.toList_some, List.cons_append, List.nil_append] at hp
                refine ⟨sumFor d (owned (w.vars.set v none)), rfl, ?_⟩
                rw [outstanding_eq, ← sumFor_perm hp, sumFor_cons, if_pos rfl]
                rfl
            · exact ⟨x, by rw [List.getElem?_set, if_neg hdm]; exact hx, hl, .inl rfl⟩
        · exact ⟨x, hx, hl, .inl rfl⟩
      · exact ⟨x, hx, hl, .inl rfl⟩
    obtain ⟨y, hy, hyl, hc⟩ := hx'
    refine ⟨y, hy, hyl, ?_⟩
    rcases hc with rfl | ⟨r, d, h1, h2⟩
    · exact Nat.le_refl _
    · obtain ⟨_, hs, hle, hcap⟩ := ha.mgr m x hx
      rw [sub64_of_le (by omega) (by omega)] at h1
      omega
  | moveCtor v =>
    rw [step, moveCtor]; split <;> exact ⟨x, hx, hl, Nat.le_refl _⟩
  | assign v u =>
    rw [step, swapRes]; split <;> exact ⟨x, hx, hl, Nat.le_refl _⟩
  | swap v u =>
    rw [step, swapRes]; split <;> exact ⟨x, hx, hl, Nat.le_refl _⟩
  | wrapForeign n => exact ⟨x, hx, hl, Nat.le_refl _⟩

/-- **C18** (full), part 2: from any reachable state in which `m` is locked, through any history without `unlock` of
`m`, the manager stays locked and its size never grows. -/
theorem C18_locked_size_never_grows (ops more : List Op) (h : ∀ op ∈ ops, NoMgrMove op) (m : Nat) (x : Mgr)
    (hx : (run ops).mgrs[m]? = some x) (hl : x.locked = true) (hmore : ∀ op ∈ more, KeepsLocked m op) :
    ∃ y, (run (ops ++ more)).mgrs[m]? = some y ∧ y.locked = true ∧ y.size ≤ x.size := by
  have hq := acct_of_quiet inv_init acct_init ops (quietFrom_of_noMgrMove _ ops h)
  change Acct (run ops) at hq
  have hi := inv_run ops
  rw [run, List.foldl_append]
  change ∃ y, (more.foldl step (run ops)).mgrs[m]? = some y ∧ _
  generalize run ops = w at *
  induction more generalizing w x with
  | nil => exact ⟨x, hx, hl, Nat.le_refl _⟩
  | cons op more ih =>
    have hop := hmore op (by simp)
    obtain ⟨y, hy, hyl, hys⟩ := locked_step hi hq m x hx hl op hop
    have hquiet : Quiet w op := by cases op <;> simp_all [KeepsLocked, Quiet]
    obtain ⟨z, hz, hzl, hzs⟩ := ih y hyl (fun o ho => hmore o (by simp [ho])) (step w op) hy (acct_step hi hq op hquiet)
      (inv_step hi op)
    exact ⟨z, hz, hzl, Nat.le_trans hzs hys⟩

example : ((run [.newMgr 100 4096, .alloc 0 60 true, .lock 0]).mgrs[0]?.map (·.locked)) = some true ∧
    (run [.newMgr 100 4096, .alloc 0 60 true, .lock 0, .alloc 0 10 true, .destroy 0]).mgrs[0]? =
      some ⟨100, 0, true, 0⟩ := by decide +kernel

/-- **C19** (partial: managers are swapped or move-assigned only while both have the same total outstanding, for example
none; no move construction). Accounting holds through any such history. Missing: other swaps and every move construction,
for which the negations below and `C19_accounting_iff`, `C19_moved_manager` hold. -/
theorem C19_accounting_partial (ops : List Op) (h : QuietFrom World.init ops) (m : Nat) (x : Mgr)
    (hx : (run ops).mgrs[m]? = some x) :
    x.size = outstanding m (run ops).log ∧ x.size ≤ x.capacity := by
  have := (acct_of_quiet inv_init acct_init ops h).mgr m x hx
  exact ⟨this.2.1, this.2.2.1⟩

example : QuietFrom World.init [.newMgr 100 4096, .newMgr 50 4096, .alloc 0 60 true, .destroy 0, .swapMgr 0 1,
    .alloc 1 70 true] := by
  simp only [QuietFrom, Quiet, and_true, true_and]; decide +kernel

/-- **C19, negation, swap**: two managers, 10 bytes allocated from the first, swap, release. The first manager then
reports a size of 2^64 - 10 with nothing outstanding, the second a size of 10 with nothing outstanding. -/
theorem C19_swap_breaks_accounting :
    ∃ ops m x m' x', (run ops).mgrs[m]? = some x ∧ (run ops).mgrs[m']? = some x' ∧
      outstanding m (run ops).log = 0 ∧ outstanding m' (run ops).log = 0 ∧
      x.size = 2 ^ 64 - 10 ∧ x.capacity < x.size ∧ x'.size = 10 :=
  ⟨[.newMgr 100 4096, .newMgr 50 4096, .alloc 0 10 true, .swapMgr 0 1, .destroy 0], 0, ⟨50, 2 ^ 64 - 10, false, 0⟩,
    1, ⟨100, 10, false, 1⟩, by decide +kernel⟩

/-- **C19, negation, move construction**: blocks allocated from a move-constructed manager are given back to the old
one, even when nothing was outstanding at the move. -/
theorem C19_move_breaks_accounting :
    ∃ ops m x m' x', (run ops).mgrs[m]? = some x ∧ (run ops).mgrs[m']? = some x' ∧
      outstanding m (run ops).log = 0 ∧ outstanding m' (run ops).log = 0 ∧
      x.size = 2 ^ 64 - 10 ∧ x'.size = 10 :=
  ⟨[.newMgr 100 4096, .moveMgr 0, .alloc 1 10 true, .destroy 0], 0, ⟨100, 2 ^ 64 - 10, false, 0⟩,
    1, ⟨100, 10, false, 0⟩, by decide +kernel⟩

/-- **C20** (full): whatever the history - allocations, moves, move-assignments, swaps (with itself too), destructions,
and any manager operations - no block is released twice and only obtained blocks are released; and when every resource
variable is destroyed, the released blocks are exactly the obtained ones, each once. -/
theorem C20_released_exactly_once (ops : List Op) :
    (frees (run ops).log).Nodup ∧
    (∀ id ∈ frees (run ops).log, ∃ m n, (id, m, n) ∈ mallocs (run ops).log) ∧
    ((∀ v ∈ (run ops).vars, v = none) →
      (frees (run ops).log).Perm ((mallocs (run ops).log).map Prod.fst)) := by
  have h := inv_run ops
  generalize run ops = w at *
  refine ⟨h.fnodup, ?_, ?_⟩
  · intro id hid
    obtain ⟨⟨i, m, n⟩, ht, he⟩ := List.mem_map.mp (h.fsub id hid)
    exact ⟨m, n, by simpa [← he] using ht⟩
  · intro hall
    have hown : owned w.vars = [] := by
      rw [owned, List.filterMap_eq_nil_iff]
      intro v hv
      rw [hall v hv]; rfl
    have hlive : live w.log = [] := by
      have := h.perm
      rw [hown] at this
      exact List.Perm.eq_nil this.symm
    refine (List.perm_ext_iff_of_nodup h.fnodup h.nodup).mpr fun id => ⟨h.fsub id, ?_⟩
    intro hid
    obtain ⟨t, ht, rfl⟩ := List.mem_map.mp hid
    apply Classical.byContradiction
    intro hn
    have : t ∈ live w.log := List.mem_filter.mpr ⟨ht, by simpa using hn⟩
    rw [hlive] at this
    cases this

/-- **C20**, leaks cannot happen before the end either: every block obtained and not released is owned by exactly one
live variable. -/
theorem C20_live_blocks_have_one_owner (ops : List Op) (id m n : Nat) (h : (id, m, n) ∈ live (run ops).log) :
    ∃ v, (run ops).vars[v]? = some (some (Res.mk (some id) n (some m))) ∧
      ∀ (u : Nat) (r : Res), (run ops).vars[u]? = some (some r) → r.disposer ≠ none → r.block = some id → u = v := by
  have hi := inv_run ops
  generalize run ops = w at *
  have hmem : (id, m, n) ∈ owned w.vars := hi.perm.symm.subset h
  have hnd : ((owned w.vars).map Prod.fst).Nodup := (hi.perm.map Prod.fst).nodup_iff.mpr (live_ids_nodup hi.nodup)
  have key : ∀ (l : List (Option Res)), (id, m, n) ∈ owned l → ((owned l).map Prod.fst).Nodup →
      ∃ v : Nat, l[v]? = some (some (Res.mk (some id) n (some m))) ∧
        ∀ (u : Nat) (r : Res), l[u]? = some (some r) → r.disposer ≠ none → r.block = some id → u = v := by
    intro l
    induction l with
    | nil => intro h; simp [owned] at h
    | cons a l ih =>
      intro h hnd
      have hc : owned (a :: l) = (own a).toList ++ owned l := by
        simp only [owned, List.filterMap_cons]
        cases own a <;> rfl
      rw [hc] at h hnd
      rw [List.map_append, List.nodup_append] at hnd
      have hrest : ∀ (u : Nat) (r : Res), l[u]? = some (some r) → r.disposer ≠ none → r.block = some id → id ∈ (owned l).map Prod.fst := by
        intro u r hu hd hb
        obtain ⟨d, hd'⟩ := Option.ne_none_iff_exists'.mp hd
        clear hd
        refine List.mem_map.mpr ⟨(id, d, r.size), ?_, rfl⟩
        refine List.mem_filterMap.mpr ⟨some r, List.mem_of_getElem? hu, ?_⟩
        obtain ⟨b, n, d'⟩ := r
        simp only at hb hd'; subst hb hd'; rfl
      rcases List.mem_append.mp h with h | h
      · have ha : own a = some (id, m, n) := by simpa using h
        have hae : a = some ⟨some id, n, some m⟩ := by
          unfold own at ha
          split at ha
          · cases ha; rfl
          · cases ha
        refine ⟨0, by simp [hae], ?_⟩
        intro u r hu hd hb
        match u with
        | 0 => rfl
        | u + 1 =>
          have := hrest u r (by simpa using hu) hd hb
          exact absurd rfl (hnd.2.2 id (by rw [ha]; simp) id this)
      · obtain ⟨v, hv, huniq⟩ := ih h hnd.2.1
        refine ⟨v + 1, by simpa using hv, ?_⟩
        intro u r hu hd hb
        match u with
        | 0 =>
          simp only [List.getElem?_cons_zero, Option.some.injEq] at hu
          subst hu
          obtain ⟨d, hd'⟩ := Option.ne_none_iff_exists'.mp hd
          clear hd
          have : own (some r) = some (id, d, r.size) := by
            obtain ⟨b, n, d'⟩ := r
            simp only at hb hd'; subst hb hd'; rfl
          rw [this] at hnd
          exact absurd rfl (hnd.2.2 id (by simp) id (List.mem_map.mpr ⟨(id, m, n), by assumption, rfl⟩))
        | u + 1 => rw [huniq u r (by simpa using hu) hd hb]
  exact key w.vars hmem hnd

example : frees (run [.newMgr 100 4096, .alloc 0 10 true, .alloc 0 20 true, .moveCtor 0, .assign 1 1, .swap 1 2, .destroy 0,
    .destroy 2, .destroy 1]).log = [1, 0] ∧
    (∀ v ∈ (run [.newMgr 100 4096, .alloc 0 10 true, .alloc 0 20 true, .moveCtor 0, .assign 1 1, .swap 1 2, .destroy 0,
    .destroy 2, .destroy 1]).vars, v = none) := by decide +kernel

end Solace.Memory
