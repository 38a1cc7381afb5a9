import Verif.Props.C17_C20_Memory
/-
C19, exactly: which histories of swaps keep the accounting, what remains true through the others, and what a moved manager
reports.
-/
namespace Solace.Memory

/-- The reported size of every manager is the total of its outstanding blocks, within its capacity. -/
def Accounts (w : World) : Prop :=
  ∀ (m : Nat) (x : Mgr), w.mgrs[m]? = some x → x.size = outstanding m w.log ∧ x.size ≤ x.capacity

/-- No manager is move-constructed. -/
def NoMoveCtor : Op → Prop
  | .moveMgr _ => False
  | _ => True

theorem swapMgr_second (w : World) (a b : Nat) (x y : Mgr) (hx : w.mgrs[a]? = some x) (hy : w.mgrs[b]? = some y) :
    ∃ z, (swapMgr w a b).mgrs[b]? = some z ∧ z.size = x.size ∧ (swapMgr w a b).log = w.log := by
  have hb : b < w.mgrs.length := by rw [List.getElem?_eq_some_iff] at hy; exact hy.1
  rw [swapMgr, hx, hy]
  exact ⟨{ x with self := y.self }, by simp [hb], rfl, rfl⟩

theorem quiet_of_accounts {w : World} (hi : Inv w) (ha : Acct w) (ops : List Op) (h : ∀ op ∈ ops, NoMoveCtor op)
    (hall : ∀ n, Accounts ((ops.take n).foldl step w)) : QuietFrom w ops := by
  induction ops generalizing w with
  | nil => trivial
  | cons op ops ih =>
    have hq : Quiet w op := by
      have hn := h op (by simp)
      cases op with
      | moveMgr a => exact hn
      | swapMgr a b =>
        intro hal hbl
        have hx : w.mgrs[a]? = some w.mgrs[a] := List.getElem?_eq_getElem hal
        have hy : w.mgrs[b]? = some w.mgrs[b] := List.getElem?_eq_getElem hbl
        obtain ⟨z, hz, hzs, hlog⟩ := swapMgr_second w a b _ _ hx hy
        have h1 : Accounts (swapMgr w a b) := hall 1
        have h2 := (h1 b z hz).1
        have h3 := (ha.mgr a _ hx).2.1
        rw [hlog] at h2
        omega
      | _ => trivial
    exact ⟨hq, ih (inv_step hi op) (acct_step hi ha op hq) (fun o ho => h o (by simp [ho]))
      (fun n => by simpa using hall (n + 1))⟩

theorem accounts_of_quiet {w : World} (hi : Inv w) (ha : Acct w) (ops : List Op) (h : QuietFrom w ops) (n : Nat) :
    Accounts ((ops.take n).foldl step w) := by
  induction ops generalizing w n with
  | nil =>
    intro m x hx
    have := ha.mgr m x (by simpa using hx)
    exact ⟨by simpa using this.2.1, this.2.2.1⟩
  | cons op ops ih =>
    cases n with
    | zero => intro m x hx; exact ⟨(ha.mgr m x hx).2.1, (ha.mgr m x hx).2.2.1⟩
    | succ n => exact ih (inv_step hi op) (acct_step hi ha op h.1) h.2 n

/-- **C19, exactly** (full, without move construction). The accounting holds after every call of a history if and only if
every swap (and move assignment) was of two managers with the same total outstanding at that time. -/
theorem C19_accounting_iff (ops : List Op) (h : ∀ op ∈ ops, NoMoveCtor op) :
    (∀ n, Accounts (run (ops.take n))) ↔ QuietFrom World.init ops :=
  ⟨quiet_of_accounts inv_init acct_init ops h, accounts_of_quiet inv_init acct_init ops⟩

example : (∀ op ∈ [Op.newMgr 100 4096, .newMgr 50 4096, .alloc 0 10 true, .swapMgr 0 1, .destroy 0], NoMoveCtor op) ∧
    ¬ QuietFrom World.init [Op.newMgr 100 4096, .newMgr 50 4096, .alloc 0 10 true, .swapMgr 0 1, .destroy 0] ∧
    QuietFrom World.init [Op.newMgr 100 4096, .newMgr 50 4096, .alloc 0 10 true, .alloc 1 10 true, .swapMgr 0 1, .destroy 0] := by
  simp only [QuietFrom, Quiet, NoMoveCtor, List.mem_cons, List.not_mem_nil, or_false, forall_eq_or_imp, forall_eq, and_true,
    true_and]
  decide +kernel

/-! ### Through any history of swaps the sum is right -/

/-- Total size of all blocks obtained and not given back. -/
def totalOutstanding (log : List Event) : Nat := ((live log).map fun t => t.2.2).sum

/-- Sum of the reported sizes. -/
def totalSize (w : World) : Nat := (w.mgrs.map fun x => x.size).sum

structure Sums (w : World) : Prop where
  self : ∀ (m : Nat) (x : Mgr), w.mgrs[m]? = some x → x.self = m ∧ x.size < 2 ^ 64 ∧ x.capacity < 2 ^ 64
  null : ∀ r, some r ∈ w.vars → r.disposer ≠ none → r.block = none → r.size = 0
  small : ∀ r, some r ∈ w.vars → r.disposer ≠ none → r.size < 2 ^ 64
  sum : totalSize w % 2 ^ 64 = totalOutstanding w.log % 2 ^ 64

theorem sum_set (l : List Mgr) (i : Nat) (x y : Mgr) (h : l[i]? = some x) :
    ((l.set i y).map fun x => x.size).sum + x.size = (l.map fun x => x.size).sum + y.size := by
  induction l generalizing i with
  | nil => simp at h
  | cons z l ih =>
    cases i with
    | zero => simp only [List.getElem?_cons_zero, Option.some.injEq] at h; subst h; simp; omega
    | succ i =>
      have := ih i (by simpa using h)
      simp only [List.set_cons_succ, List.map_cons, List.sum_cons]
      omega

theorem sums_vars {w : World} (h : Sums w) (vs : List (Option Res))
    (hv : ∀ r, some r ∈ vs → some r ∈ w.vars ∨ r.disposer = none) : Sums { w with vars := vs } := by
  refine ⟨h.self, ?_, ?_, h.sum⟩
  · intro r hr hd hb
    rcases hv r hr with h1 | h1
    · exact h.null r h1 hd hb
    · exact absurd h1 hd
  · intro r hr hd
    rcases hv r hr with h1 | h1
    · exact h.small r h1 hd
    · exact absurd h1 hd

theorem sums_set {w : World} (h : Sums w) (a : Nat) (x : Mgr) (l : Bool) (hx : w.mgrs[a]? = some x) :
    Sums { w with mgrs := w.mgrs.set a { x with locked := l } } := by
  refine ⟨?_, h.null, h.small, ?_⟩
  · intro m z hz
    simp only at hz
    rw [List.getElem?_set] at hz
    split at hz
    · rename_i hm; subst hm
      split at hz
      · cases hz; exact h.self a x hx
      · cases hz
    · exact h.self m z hz
  · have := sum_set w.mgrs a x { x with locked := l } hx
    have hs := h.sum
    rw [totalSize] at hs ⊢
    simp only at this ⊢
    rw [Nat.add_right_cancel this]
    exact hs

theorem sums_step {w : World} (hi : Inv w) (h : Sums w) (op : Op) (hop : NoMoveCtor op) : Sums (step w op) := by
  cases op with
  | moveMgr a => exact hop.elim
  | newMgr c t =>
    show Sums (newMgr w c t)
    rw [newMgr]
    split
    · rename_i hc
      refine ⟨?_, h.null, h.small, ?_⟩
      · intro m x hx
        simp only at hx
        rw [List.getElem?_append] at hx
        split at hx
        · exact h.self m x hx
        · rename_i hm
          have : m - w.mgrs.length = 0 := by
            rw [List.getElem?_eq_some_iff] at hx
            obtain ⟨hl, _⟩ := hx
            simp at hl; omega
          rw [this] at hx
          simp only [List.getElem?_cons_zero, Option.some.injEq] at hx
          subst hx
          have := wrap64_lt t
          exact ⟨by simp only; omega, by simp only; omega, by simp only; omega⟩
      · have hs := h.sum
        rw [totalSize] at hs ⊢
        simpa using hs
    · exact h
  | swapMgr a b =>
    show Sums (swapMgr w a b)
    rw [swapMgr]
    split
    · rename_i x y hx hy
      have ha : a < w.mgrs.length := by rw [List.getElem?_eq_some_iff] at hx; exact hx.1
      have hb : b < w.mgrs.length := by rw [List.getElem?_eq_some_iff] at hy; exact hy.1
      refine ⟨?_, h.null, h.small, ?_⟩
      · intro m z hz
        simp only at hz
        rw [List.getElem?_set] at hz
        split at hz
        · rename_i hm; subst hm
          simp only [List.length_set, hb, if_true, Option.some.injEq] at hz
          subst hz
          exact ⟨(h.self b y hy).1, (h.self a x hx).2⟩
        · rw [List.getElem?_set] at hz
          split at hz
          · rename_i hm; subst hm
            simp only [Option.some.injEq] at hz
            subst hz
            exact ⟨(h.self a x hx).1, (h.self b y hy).2⟩
          · exact h.self m z hz
      · have h1 := sum_set w.mgrs a x { y with self := x.self } hx
        have hs := h.sum
        rw [totalSize] at hs ⊢
        by_cases hab : a = b
        · subst hab
          have : x = y := by rw [hx] at hy; exact Option.some.inj hy
          subst this
          have h2 := sum_set (w.mgrs.set a { x with self := x.self }) a x { x with self := x.self } (by simp [ha])
          simp only at h1 h2 ⊢
          rw [Nat.add_right_cancel h2, Nat.add_right_cancel h1]
          exact hs
        · have h2 := sum_set (w.mgrs.set a { y with self := x.self }) b y { x with self := y.self }
            (by rw [List.getElem?_set, if_neg hab]; exact hy)
          simp only at h1 h2 ⊢
          rw [show ((((w.mgrs.set a { y with self := x.self }).set b { x with self := y.self }).map fun x => x.size).sum =
            (w.mgrs.map fun x => x.size).sum) by omega]
          exact hs
    · exact h
  | lock a =>
    show Sums (setLocked w a true)
    rw [setLocked]
    split
    · rename_i x hx; exact sums_set h a x true hx
    · exact h
  | unlock a =>
    show Sums (setLocked w a false)
    rw [setLocked]
    split
    · rename_i x hx; exact sums_set h a x false hx
    · exact h
  | alloc m n s =>
    show Sums (alloc w m n s).1
    rw [alloc]
    split
    · exact h
    · rename_i x hx
      obtain ⟨hself, hsz, hcap⟩ := h.self m x hx
      split
      · exact h
      · rename_i hlim
        split
        · exact h
        · split
          · exact h
          · rename_i hsys
            have hfresh : w.next ∉ frees w.log := by
              intro hc
              obtain ⟨t, ht, he⟩ := List.mem_map.mp (hi.fsub _ hc)
              have := hi.lt t ht
              omega
            have hn64 : n < 2 ^ 64 := by
              have : sub64 x.capacity x.size < 2 ^ 64 := sub64_lt _ _
              omega
            refine ⟨?_, ?_, ?_, ?_⟩
            · intro m' x' hx'
              simp only at hx'
              rw [List.getElem?_set] at hx'
              split at hx'
              · rename_i hm; subst hm
                split at hx'
                · cases hx'; exact ⟨hself, wrap64_lt _, hcap⟩
                · cases hx'
              · exact h.self m' x' hx'
            · intro r hr hd hb
              simp only [List.mem_append, List.mem_singleton, Option.some.injEq] at hr
              rcases hr with hr | hr
              · exact h.null r hr hd hb
              · subst hr
                cases s with
                | true => simp at hb
                | false => simpa using hsys
            · intro r hr hd
              simp only [List.mem_append, List.mem_singleton, Option.some.injEq] at hr
              rcases hr with hr | hr
              · exact h.small r hr hd
              · subst hr; exact hn64
            · have h1 := sum_set w.mgrs m x { x with size := wrap64 (x.size + n) } hx
              have hs := h.sum
              have hout : totalOutstanding (if s then w.log ++ [.malloc w.next m n] else w.log) =
                  n + totalOutstanding w.log := by
                cases s with
                | false =>
                  simp at hsys
                  simp [hsys]
                | true =>
                  simp only [if_true]
                  rw [totalOutstanding, live_malloc _ _ _ _ hfresh, totalOutstanding, List.map_append, List.sum_append]
                  simp; omega
              rw [totalSize] at hs ⊢
              simp only [hout] at h1 ⊢
              rw [wrap64_def] at h1 ⊢
              omega
  | destroy v =>
    show Sums (destroy w v)
    have hi' : Inv (destroy w v) := inv_destroy hi v
    rw [destroy] at hi' ⊢
    split
    · rename_i r hr
      have hsub : ∀ r', some r' ∈ w.vars.set v none → some r' ∈ w.vars := by
        intro r' hr'
        rcases mem_set hr' with he | he
        · cases he
        · exact he
      rw [hr] at hi'
      simp only at hi'
      split
      · rename_i d hd
        rw [hd] at hi'
        simp only at hi'
        have hdl : d < w.mgrs.length := hi.disp r (List.mem_of_getElem? hr) d hd
        have hx : w.mgrs[d]? = some w.mgrs[d] := List.getElem?_eq_getElem hdl
        obtain ⟨hself, hsz, hcap⟩ := h.self d _ hx
        have hrs := h.small r (List.mem_of_getElem? hr) (by simp [hd])
        rw [dispose] at hi' ⊢
        simp only [hx, hself] at hi' ⊢
        have hset := set_filterMap own w.vars v (some r) none hr
        have hsum : totalOutstanding w.log = r.size + totalOutstanding (logFree w.log r.block) := by
          have hp := hset.trans hi.perm
          have hp' := hi'.perm
          simp only at hp'
          cases hb : r.block with
          | none =>
            have := h.null r (List.mem_of_getElem? hr) (by simp [hd]) hb
            simp [this, logFree]
          | some id =>
            have hown : own (some r) = some (id, d, r.size) := by
              obtain ⟨b, n, d'⟩ := r
              simp only at hb hd; subst hb hd; rfl
            rw [hb, logFree] at hp'
            rw [hown] at hp
            simp only [Option.toList_some, List.cons_append, List.nil_append] at hp
            simp only [logFree]
            rw [totalOutstanding, totalOutstanding, ← (hp.map _).sum_nat, ← (hp'.map _).sum_nat, List.map_cons, List.sum_cons]
            rfl
        refine ⟨?_, ?_, ?_, ?_⟩
        · intro m' x' hx'
          simp only at hx'
          rw [List.getElem?_set] at hx'
          split at hx'
          · rename_i hmm
            subst hmm
            simp only [Option.some.injEq] at hx'
            subst hx'
            exact ⟨rfl, sub64_lt _ _, hcap⟩
          · exact h.self m' x' hx'
        · exact fun r' hr' => h.null r' (hsub r' hr')
        · exact fun r' hr' => h.small r' (hsub r' hr')
        · have h1 := sum_set w.mgrs d _ { w.mgrs[d] with size := sub64 w.mgrs[d].size r.size } hx
          have hs := h.sum
          rw [totalSize] at hs ⊢
          simp only [hself] at h1 ⊢
          by_cases hle : r.size ≤ w.mgrs[d].size
          · rw [sub64_of_le hle hsz] at h1 ⊢
            omega
          · rw [sub64_of_lt (by omega) (Nat.le_of_lt hrs)] at h1 ⊢
            omega
      · exact sums_vars h _ (fun r' hr' => .inl (hsub r' hr'))
    · exact h
  | moveCtor v =>
    show Sums (moveCtor w v)
    rw [moveCtor]
    split
    · rename_i r hr
      apply sums_vars h
      intro r' hr'
      rcases List.mem_append.mp hr' with hr' | hr'
      · rcases mem_set hr' with he | he
        · cases he; exact .inr rfl
        · exact .inl he
      · simp only [List.mem_singleton, Option.some.injEq] at hr'
        subst hr'
        exact .inl (List.mem_of_getElem? hr)
    · exact h
  | assign v u => exact sums_swapRes h v u
  | swap v u => exact sums_swapRes h v u
  | wrapForeign n =>
    show Sums (wrapForeign w n)
    apply sums_vars h
    intro r hr
    rcases List.mem_append.mp hr with hr | hr
    · exact .inl hr
    · simp only [List.mem_singleton, Option.some.injEq] at hr
      subst hr
      exact .inr rfl
where
  sums_swapRes {w : World} (h : Sums w) (v u : Nat) : Sums (swapRes w v u) := by
    rw [swapRes]
    split
    · rename_i a b ha hb
      apply sums_vars h
      intro r hr
      rcases mem_set hr with he | he
      · cases he; exact .inl (List.mem_of_getElem? ha)
      · rcases mem_set he with he | he
        · cases he; exact .inl (List.mem_of_getElem? hb)
        · exact .inl he
    · exact h

theorem sums_foldl {w : World} (hi : Inv w) (h : Sums w) (ops : List Op) (hops : ∀ op ∈ ops, NoMoveCtor op) :
    Sums (ops.foldl step w) := by
  induction ops generalizing w with
  | nil => exact h
  | cons op ops ih =>
    exact ih (inv_step hi op) (sums_step hi h op (hops op (by simp))) (fun o ho => hops o (by simp [ho]))

/-- **C19**, what swapping cannot break (full, without move construction): through every history, whatever was outstanding
when managers were swapped, the sum of the reported sizes is the total of the outstanding blocks, modulo 2^64. -/
theorem C19_sum_conserved (ops : List Op) (h : ∀ op ∈ ops, NoMoveCtor op) :
    totalSize (run ops) % 2 ^ 64 = totalOutstanding (run ops).log % 2 ^ 64 :=
  (sums_foldl inv_init ⟨by simp [World.init], by simp [World.init], by simp [World.init], by decide⟩ ops h).sum

example : totalSize (run [.newMgr 100 4096, .newMgr 50 4096, .alloc 0 10 true, .alloc 1 7 true, .swapMgr 0 1, .destroy 0]) =
    2 ^ 64 + 7 := by decide +kernel

/-! ### Move construction -/

theorem moved_manager (w : World) (hw : Acct w) (a n : Nat) (x : Mgr) (hx : w.mgrs[a]? = some x) (hl : x.locked = false)
    (hn : outstanding a w.log + n ≤ x.capacity) :
    let moved := step w (.moveMgr a)
    let new := w.mgrs.length
    (∃ y, moved.mgrs[new]? = some y ∧ y.size = outstanding a w.log ∧ outstanding new moved.log = 0) ∧
    let done := step (step moved (.alloc new n true)) (.destroy w.vars.length)
    (∃ y, done.mgrs[new]? = some y ∧ y.size = outstanding a w.log + n) ∧
    (∃ z, done.mgrs[a]? = some z ∧ z.size = sub64 (outstanding a w.log) n) := by
  obtain ⟨hself, hsize, hle, hcap⟩ := hw.mgr a x hx
  have ha : a < w.mgrs.length := by rw [List.getElem?_eq_some_iff] at hx; exact hx.1
  have hmoved : step w (.moveMgr a) = { w with mgrs := w.mgrs ++ [x] } := by
    show moveMgr w a = _
    rw [moveMgr, hx]
  have hz : outstanding w.mgrs.length w.log = 0 := by
    rw [outstanding]
    have : (live w.log).filter (fun t => decide (t.2.1 = w.mgrs.length)) = [] := by
      rw [List.filter_eq_nil_iff]
      intro t ht
      have := hw.owner t ht
      simp; omega
    rw [this]; rfl
  simp only [hmoved]
  refine ⟨⟨x, by simp, hsize, hz⟩, ?_⟩
  have halloc : step { w with mgrs := w.mgrs ++ [x] } (.alloc w.mgrs.length n true) =
      { mgrs := w.mgrs ++ [{ x with size := x.size + n }]
        vars := w.vars ++ [some ⟨some w.next, n, some w.mgrs.length⟩]
        log := w.log ++ [.malloc w.next w.mgrs.length n]
        next := w.next + 1 } := by
    show (alloc _ _ _ _).1 = _
    rw [alloc]
    have : (w.mgrs ++ [x])[w.mgrs.length]? = some x := by simp
    simp only [this]
    rw [if_neg (by rw [sub64_of_le hle hcap]; omega), hl, if_neg (by simp), if_neg (by simp), wrap64_of_lt (by omega)]
    simp
  rw [halloc]
  have hdestroy : step { mgrs := w.mgrs ++ [{ x with size := x.size + n }]
                         vars := w.vars ++ [some ⟨some w.next, n, some w.mgrs.length⟩]
                         log := w.log ++ [.malloc w.next w.mgrs.length n]
                         next := w.next + 1 } (.destroy w.vars.length) =
      { mgrs := (w.mgrs ++ [{ x with size := x.size + n }]).set a { x with size := sub64 x.size n }
        vars := (w.vars ++ [some (Res.mk (some w.next) n (some w.mgrs.length))]).set w.vars.length none
        log := w.log ++ [.malloc w.next w.mgrs.length n] ++ [.free w.next]
        next := w.next + 1 } := by
    show destroy _ _ = _
    rw [destroy]
    have h1 : (w.vars ++ [some (Res.mk (some w.next) n (some w.mgrs.length))])[w.vars.length]? =
      some (some ⟨some w.next, n, some w.mgrs.length⟩) := by simp
    simp only [h1]
    rw [dispose]
    have h2 : (w.mgrs ++ [{ x with size := x.size + n }])[w.mgrs.length]? = some { x with size := x.size + n } := by simp
    have h3 : (w.mgrs ++ [{ x with size := x.size + n }])[a]? = some x := by rw [List.getElem?_append_left ha]; exact hx
    simp only [hself] at h2 h3 ⊢
    simp only [h2, h3, logFree, hself]
  rw [hdestroy]
  refine ⟨⟨{ x with size := x.size + n }, ?_, by simp only; omega⟩, ⟨{ x with size := sub64 x.size n }, ?_, by simp only; rw [hsize]⟩⟩
  · simp only
    rw [List.getElem?_set, if_neg (by omega)]
    simp
  · simp only
    rw [List.getElem?_set, if_pos rfl, if_pos (by simp; omega)]

/-- **C19**, move construction (full): in a world that accounts correctly, the new manager claims the blocks outstanding at the
old one, so it is wrong at once unless there are none; and whatever is allocated from it and released is taken off the old
manager: the new one never gets back to what it reported. -/
theorem C19_moved_manager (ops : List Op) (h : QuietFrom World.init ops) (a n : Nat) (x : Mgr)
    (hx : (run ops).mgrs[a]? = some x) (hl : x.locked = false) (hn : outstanding a (run ops).log + n ≤ x.capacity) :
    let new := (run ops).mgrs.length
    (∃ y, (run (ops ++ [.moveMgr a])).mgrs[new]? = some y ∧ y.size = outstanding a (run ops).log ∧
      outstanding new (run (ops ++ [.moveMgr a])).log = 0) ∧
    let done := run (ops ++ [.moveMgr a, .alloc new n true, .destroy (run ops).vars.length])
    (∃ y, done.mgrs[new]? = some y ∧ y.size = outstanding a (run ops).log + n) ∧
    (∃ z, done.mgrs[a]? = some z ∧ z.size = sub64 (outstanding a (run ops).log) n) := by
  have := moved_manager (run ops) (acct_of_quiet inv_init acct_init ops h) a n x hx hl hn
  simp only [run, List.foldl_append, List.foldl_cons, List.foldl_nil] at this ⊢
  exact this

example : QuietFrom World.init [.newMgr 100 4096, .alloc 0 60 true] ∧
    (run [.newMgr 100 4096, .alloc 0 60 true]).mgrs[0]? = some ⟨100, 60, false, 0⟩ ∧
    (run [.newMgr 100 4096, .alloc 0 60 true, .moveMgr 0, .alloc 1 30 true, .destroy 1]).mgrs[1]? = some ⟨100, 90, false, 0⟩ :=
  ⟨⟨trivial, trivial, trivial⟩, by decide +kernel, by decide +kernel⟩

end Solace.Memory
