import Verif.Props.C153_Serial
/-
C153, continued: threads whose calls do not disturb one another need no mutex; what two that do disturb one another lose.
-/
namespace Solace.Threads

/-- The code takes no mutex, reads only what is in `R` and changes only what is in `W`. -/
inductive Stays (R W : Loc → Prop) : Code → Prop where
  | stop : Stays R W .stop
  | rd {l : Loc} {k : Nat → Code} : R l → (∀ v, Stays R W (k v)) → Stays R W (.rd l k)
  | wr {l : Loc} {v : Nat} {k : Code} : W l → Stays R W k → Stays R W (.wr l v k)
  | out {r : Res} {k : Code} : Stays R W k → Stays R W (.out r k)

theorem ite_stays {R W : Loc → Prop} {p : Prop} [Decidable p] {a b : Code} (ha : Stays R W a) (hb : Stays R W b) : Stays R W (if p then a else b) := by
  split
  · exact ha
  · exact hb

theorem emplace_stays {R W : Loc → Prop} {pos : Loc} {slot : Nat → Loc} (v : Nat) {full done : Code} (hr : R pos) (hw : W pos) (hs : ∀ i, W (slot i))
    (hf : Stays R W full) (hd : Stays R W done) : Stays R W (emplace pos slot v full done) := by
  rw [emplace]
  exact .rd hr fun _ => ite_stays hf (.rd hr fun _ => ite_stays hf (.wr (hs _) (.rd hr fun _ => .wr hw hd)))

theorem find_stays {R W : Loc → Prop} (id : Nat) {k : Code} (h1 : ∀ i, R (.key i)) (h2 : ∀ i, R (.value i)) (hk : Stays R W k) (left : Nat) :
    ∀ i, Stays R W (findFrom id k left i) := by
  induction left with
  | zero => intro i; rw [findFrom]; exact .out hk
  | succ n ih => intro i; rw [findFrom]; exact .rd (h1 i) fun _ => ite_stays (.rd (h2 i) fun _ => .out hk) (ih _)

theorem code_stays {R W : Loc → Prop} (c : Call) {k : Code} (hr : ∀ l, c.Reads l → R l) (hw : ∀ l, c.Writes l → W l) (hk : Stays R W k) :
    Stays R W (code c k) := by
  cases c with
  | allocate n g =>
    rw [code]
    exact .rd (hr _ (.inl rfl)) fun _ => .rd (hr _ (.inr (.inl rfl))) fun _ => ite_stays (.out hk) (.rd (hr _ (.inr (.inr rfl))) fun _ =>
      ite_stays (.out hk) (ite_stays (.out hk) (.rd (hr _ (.inr (.inl rfl))) fun _ => .wr (hw _ rfl) (.out hk))))
  | free n => rw [code]; exact .rd (hr _ rfl) fun _ => .wr (hw _ rfl) (.out hk)
  | lock => rw [code]; exact .wr (hw _ rfl) (.out hk)
  | unlock => rw [code]; exact .wr (hw _ rfl) (.out hk)
  | isLocked => rw [code]; exact .rd (hr _ rfl) fun _ => .out hk
  | limit => rw [code]; exact .rd (hr _ (.inl rfl)) fun _ => .rd (hr _ (.inr rfl)) fun _ => .out hk
  | size => rw [code]; exact .rd (hr _ rfl) fun _ => .out hk
  | register id d =>
    rw [code]
    have r1 : R .valuesPos := hr _ (.inl rfl)
    have r2 : R .keysPos := hr _ (.inr rfl)
    have w1 : W .valuesPos := hw _ (.inl rfl)
    have w2 : W .keysPos := hw _ (.inr (.inl rfl))
    have w3 : ∀ i, W (.key i) := fun i => hw _ (.inr (.inr (.inl ⟨i, rfl⟩)))
    have w4 : ∀ i, W (.value i) := fun i => hw _ (.inr (.inr (.inr ⟨i, rfl⟩)))
    have e : Stays R W (.rd .valuesPos fun p => .out (.num (wrap32 p)) k) := .rd r1 fun _ => .out hk
    exact emplace_stays d r1 w1 w4 e (emplace_stays id r2 w2 w3 (.rd r1 fun _ => ite_stays e (.rd r1 fun _ => .wr w1 (.rd r1 fun _ => e))) e)
  | find id =>
    rw [code]
    exact .rd (hr _ (.inl rfl)) fun _ => .rd (hr _ (.inr (.inl rfl))) fun _ => .rd (hr _ (.inr (.inl rfl))) fun _ =>
      find_stays id (fun i => hr _ (.inr (.inr (.inl ⟨i, rfl⟩)))) (fun i => hr _ (.inr (.inr (.inr ⟨i, rfl⟩)))) hk _ _
  | own r => rw [code]; exact .out hk

theorem compile_stays {R W : Loc → Prop} (xs : List (Bool × Call)) (hx : ∀ x ∈ xs, x.1 = false) (hr : ∀ x ∈ xs, ∀ l, x.2.Reads l → R l)
    (hw : ∀ x ∈ xs, ∀ l, x.2.Writes l → W l) : Stays R W (compile xs) := by
  induction xs with
  | nil => rw [compile]; exact .stop
  | cons x xs ih =>
    obtain ⟨b, c⟩ := x
    have hb : b = false := hx _ (List.mem_cons_self ..)
    subst hb
    rw [compile]
    exact code_stays c (hr _ (List.mem_cons_self ..)) (hw _ (List.mem_cons_self ..)) (ih (fun x h => hx x (List.mem_cons_of_mem _ h))
      (fun x h => hr x (List.mem_cons_of_mem _ h)) (fun x h => hw x (List.mem_cons_of_mem _ h)))

/-- Every thread stays in its own part, and so did all that has happened. -/
def Parts (R W : Nat → Loc → Prop) (c : Config) (tr : List Event) : Prop :=
  (∀ t, Stays (R t) (W t) (c.codes t)) ∧
    ∀ e ∈ tr, (∀ l, e.act = .rd l → R e.tid l) ∧ (∀ l, e.act = .wr l → W e.tid l)

theorem step_parts {R W : Nat → Loc → Prop} {c : Config} {tr : List Event} (h : Parts R W c tr) (t : Nat) :
    Parts R W (step c t).1 (tr ++ (step c t).2) := by
  obtain ⟨h1, h2⟩ := h
  have next : ∀ k, Stays (R t) (W t) k → ∀ u, Stays (R u) (W u) (upd c.codes t k u) := by
    intro k hk u
    by_cases hu : u = t
    · subst hu; rw [upd_same]; exact hk
    · rw [upd_other _ _ hu]; exact h1 u
  have app : ∀ e : Event, (∀ l, e.act = .rd l → R e.tid l) ∧ (∀ l, e.act = .wr l → W e.tid l) →
      ∀ f ∈ tr ++ [e], (∀ l, f.act = .rd l → R f.tid l) ∧ (∀ l, f.act = .wr l → W f.tid l) := by
    intro e he f hf
    rcases List.mem_append.mp hf with hf | hf
    · exact h2 f hf
    · rw [List.mem_singleton.mp hf]; exact he
  have ht := h1 t
  rw [step]
  cases hc : c.codes t with
  | stop => exact ⟨h1, by simpa using h2⟩
  | rd l k =>
    rw [hc] at ht
    cases ht with
    | rd a b => exact ⟨next _ (b _), app _ ⟨fun x hx => by cases hx; exact a, nofun⟩⟩
  | wr l v k =>
    rw [hc] at ht
    cases ht with
    | wr a b => exact ⟨next _ b, app _ ⟨nofun, fun x hx => by cases hx; exact a⟩⟩
  | acq k => rw [hc] at ht; cases ht
  | rel k => rw [hc] at ht; cases ht
  | out r k =>
    rw [hc] at ht
    cases ht with
    | out b => exact ⟨next _ b, by simpa using h2⟩

/-- Two executions look the same to thread `t`. -/
def Same (R W : Nat → Loc → Prop) (t : Nat) (c d : Config) : Prop :=
  c.codes t = d.codes t ∧ c.outs t = d.outs t ∧ ∀ l, R t l ∨ W t l → c.mem l = d.mem l

theorem step_same {R W : Nat → Loc → Prop} {t : Nat} {c d : Config} (hs : Stays (R t) (W t) (c.codes t)) (h : Same R W t c d) :
    Same R W t (step c t).1 (step d t).1 := by
  obtain ⟨h1, h2, h3⟩ := h
  rw [step, step, ← h1]
  cases hc : c.codes t with
  | stop => exact ⟨h1, h2, h3⟩
  | rd l k =>
    rw [hc] at hs
    cases hs with
    | rd a b =>
      refine ⟨?_, h2, h3⟩
      dsimp only
      rw [upd_same, upd_same, h3 l (.inl a)]
  | wr l v k =>
    refine ⟨?_, h2, fun x hx => ?_⟩
    · dsimp only; rw [upd_same, upd_same]
    · dsimp only [Mem.put]
      split
      · rfl
      · exact h3 x hx
  | acq k => rw [hc] at hs; cases hs
  | rel k => rw [hc] at hs; cases hs
  | out r k =>
    refine ⟨?_, ?_, h3⟩
    · dsimp only; rw [upd_same, upd_same]
    · dsimp only; rw [upd_same, upd_same, h2]

theorem step_away {R W : Nat → Loc → Prop} {t u : Nat} {c d : Config} (hut : t ≠ u) (hs : Stays (R u) (W u) (c.codes u))
    (hd : ∀ l, W u l → ¬ (R t l ∨ W t l)) (h : Same R W t c d) : Same R W t (step c u).1 d := by
  obtain ⟨h1, h2, h3⟩ := h
  rw [step]
  cases hc : c.codes u with
  | stop => exact ⟨h1, h2, h3⟩
  | rd l k => exact ⟨by dsimp only; rw [upd_other _ _ hut, h1], h2, h3⟩
  | wr l v k =>
    rw [hc] at hs
    cases hs with
    | wr a b =>
      refine ⟨by dsimp only; rw [upd_other _ _ hut, h1], h2, fun x hx => ?_⟩
      have hne : x ≠ l := fun e => hd l a (e ▸ hx)
      dsimp only
      rw [put_other _ _ hne]
      exact h3 x hx
  | acq k => rw [hc] at hs; cases hs
  | rel k => rw [hc] at hs; cases hs
  | out r k => exact ⟨by dsimp only; rw [upd_other _ _ hut, h1], by dsimp only; rw [upd_other _ _ hut, h2], h3⟩

theorem run_same {R W : Nat → Loc → Prop} (hd : ∀ t u, t ≠ u → ∀ l, W u l → ¬ (R t l ∨ W t l)) (t : Nat) (ts : List Nat) :
    ∀ c d tr, Parts R W c tr → Same R W t c d → Same R W t (run c ts).1 (run d (ts.filter (· = t))).1 := by
  induction ts with
  | nil => intro c d tr _ h; exact h
  | cons u us ih =>
    intro c d tr hp h
    by_cases hu : u = t
    · subst hu
      rw [List.filter_cons_of_pos (by simp), run, run]
      exact ih _ _ _ (step_parts hp u) (step_same (hp.1 u) h)
    · rw [List.filter_cons_of_neg (by simpa using hu), run]
      exact ih _ _ _ (step_parts hp u) (step_away (fun e => hu e.symm) (hp.1 u) (hd t u (fun e => hu e.symm)) h)

/-- **C153** (partial, where no call of one thread may change what a call of another uses): without any mutex there is no data race, whatever the
order of the steps, and each thread gets what it would get if the others took no steps. -/
theorem C153_apart_partial (m : Mem) (progs : Nat → List (Bool × Call)) (hp : ∀ t, ∀ x ∈ progs t, x.1 = false)
    (hd : ∀ t u, t ≠ u → ∀ x ∈ progs t, ∀ y ∈ progs u, ¬ x.2.Disturbs y.2) (ts : List Nat) :
    ¬ Race (run (start m progs) ts).2 ∧
    ∀ t, (run (start m progs) ts).1.outs t = (run (start m progs) (ts.filter (· = t))).1.outs t := by
  have hpart : Parts (fun t l => ∃ x ∈ progs t, x.2.Reads l) (fun t l => ∃ x ∈ progs t, x.2.Writes l) (start m progs) [] :=
    ⟨fun t => compile_stays _ (hp t) (fun x hx l h => ⟨x, hx, h⟩) (fun x hx l h => ⟨x, hx, h⟩), nofun⟩
  have clash : ∀ t u, t ≠ u → ∀ l, (∃ x ∈ progs u, x.2.Writes l) → ¬ ((∃ x ∈ progs t, x.2.Reads l) ∨ ∃ x ∈ progs t, x.2.Writes l) := by
    rintro t u htu l ⟨x, hx, hw⟩ (⟨y, hy, h⟩ | ⟨y, hy, h⟩)
    · exact hd u t (fun e => htu e.symm) x hx y hy ⟨l, hw, .inl h⟩
    · exact hd u t (fun e => htu e.symm) x hx y hy ⟨l, hw, .inr h⟩
  refine ⟨?_, fun t => (run_same clash t ts _ _ _ hpart ⟨rfl, rfl, fun _ _ => rfl⟩).2.1⟩
  rintro ⟨i, j, e, f, l, _, hi, hj, hne, he, hf, hw, _⟩
  have h := (run_induct (Parts _ _) (fun c tr t h => step_parts h t) ts (start m progs) [] hpart).2
  rw [List.nil_append] at h
  have h1 := h e (List.mem_of_getElem? hi)
  have h2 := h f (List.mem_of_getElem? hj)
  rcases hw with hw | hw
  · exact clash f.tid e.tid (fun x => hne x.symm) l (h1.2 l hw) (hf.imp (h2.1 l) (h2.2 l))
  · exact clash e.tid f.tid hne l (h2.2 l hw) (he.imp (h1.1 l) (h1.2 l))

/-- Calls by the object that they use. -/
inductive Part where
  | account | lockFlag | registry
deriving DecidableEq

def Call.changes : Call → Option Part
  | .allocate .. | .free _ => some .account
  | .lock | .unlock => some .lockFlag
  | .register .. => some .registry
  | _ => none

def Call.uses : Call → List Part
  | .allocate .. => [.account, .lockFlag]
  | .free _ | .limit | .size => [.account]
  | .lock | .unlock | .isLocked => [.lockFlag]
  | .register .. | .find _ => [.registry]
  | .own _ => []

/-- **C153** (which calls these are): one call disturbs another when it changes the count of bytes, the lock or the registry, and the other uses the
same; so calls that only look - `limit`, `size`, `isLocked`, `find` - and calls on objects of one's own that need no memory disturb none. -/
theorem C153_disturbs_partial (c d : Call) : c.Disturbs d ↔ ∃ p ∈ d.uses, c.changes = some p := by
  cases c <;> cases d <;> simp [Call.Disturbs, Call.Reads, Call.Writes, Call.uses, Call.changes] <;>
    (rintro x (⟨i, rfl⟩ | ⟨i, rfl⟩) <;> simp)

/-- Two threads, one call each. -/
def two (c d : Call) : Nat → List (Bool × Call) := fun t => if t = 0 then [(false, c)] else if t = 1 then [(false, d)] else []

variable {m : Mem} {o : Option Nat} {cs : Nat → Code} {os : Nat → List Res}

theorem run_rd {t : Nat} {l : Loc} {k : Nat → Code} (h : cs t = .rd l k) (ts : List Nat) :
    (run ⟨m, o, cs, os⟩ (t :: ts)).1 = (run ⟨m, o, upd cs t (k (m l)), os⟩ ts).1 := by
  rw [run, step]
  dsimp only
  rw [h]

theorem run_wr {t : Nat} {l : Loc} {v : Nat} {k : Code} (h : cs t = .wr l v k) (ts : List Nat) :
    (run ⟨m, o, cs, os⟩ (t :: ts)).1 = (run ⟨m.put l v, o, upd cs t k, os⟩ ts).1 := by
  rw [run, step]
  dsimp only
  rw [h]

theorem run_out {t : Nat} {r : Res} {k : Code} (h : cs t = .out r k) (ts : List Nat) :
    (run ⟨m, o, cs, os⟩ (t :: ts)).1 = (run ⟨m, o, upd cs t k, upd os t (os t ++ [r])⟩ ts).1 := by
  rw [run, step]
  dsimp only
  rw [h]

/-- A thread that is granted memory, up to where it has read the count. -/
theorem run_reads {t n : Nat} {k : Code} (h : cs t = code (.allocate n true) k) (h1 : ¬ sub64 (m .capacity) (m .size) < n) (h2 : m .locked = 0)
    (ts : List Nat) :
    (run ⟨m, o, cs, os⟩ (t :: t :: t :: t :: ts)).1 =
      (run ⟨m, o, upd cs t (.wr .size (wrap64 (m .size + n)) (.out .granted k)), os⟩ ts).1 := by
  rw [code] at h
  rw [run_rd h, run_rd (upd_same _ _ _), upd_upd, if_neg h1, run_rd (upd_same _ _ _), upd_upd, if_neg (by rw [h2]; simp), if_neg (by simp),
    run_rd (upd_same _ _ _), upd_upd]

/-- From there to the end of the call. -/
theorem run_writes {t v : Nat} {r : Res} {k : Code} (h : cs t = .wr .size v (.out r k)) (ts : List Nat) :
    (run ⟨m, o, cs, os⟩ (t :: t :: ts)).1 = (run ⟨m.put .size v, o, upd cs t k, upd os t (os t ++ [r])⟩ ts).1 := by
  rw [run_wr h, run_out (upd_same _ _ _), upd_upd]

theorem run_frees {t n : Nat} {k : Code} (h : cs t = code (.free n) k) (ts : List Nat) :
    (run ⟨m, o, cs, os⟩ (t :: t :: t :: ts)).1 =
      (run ⟨m.put .size (sub64 (m .size) n), o, upd cs t k, upd os t (os t ++ [.freed])⟩ ts).1 := by
  rw [code] at h
  rw [run_rd h, run_writes (upd_same _ _ _), upd_upd]

theorem run_limit {t : Nat} {k : Code} (h : cs t = code .limit k) (ts : List Nat) :
    (run ⟨m, o, cs, os⟩ (t :: t :: t :: ts)).1 =
      (run ⟨m, o, upd cs t k, upd os t (os t ++ [.num (sub64 (m .capacity) (m .size))])⟩ ts).1 := by
  rw [code] at h
  rw [run_rd h, run_rd (upd_same _ _ _), run_out (upd_same _ _ _), upd_upd, upd_upd]

/-- Two threads take memory, the second between the reads and the write of the first. -/
theorem run_lost {n k : Nat} {p q : Code} (h0 : cs 0 = code (.allocate n true) p) (h1 : cs 1 = code (.allocate k true) q)
    (hc : m .capacity < 2 ^ 64) (hroom : m .size + n + k ≤ m .capacity) (hl : m .locked = 0) (ts : List Nat) :
    (run ⟨m, o, cs, os⟩ (0 :: 0 :: 0 :: 0 :: 1 :: 1 :: 1 :: 1 :: 1 :: 1 :: 0 :: 0 :: ts)).1 =
      (run ⟨m.put .size (m .size + n), o, upd (upd cs 1 q) 0 p, upd (upd os 1 (os 1 ++ [.granted])) 0 (os 0 ++ [.granted])⟩ ts).1 := by
  have s1 : ¬ sub64 (m .capacity) (m .size) < n := by rw [sub64_of_le (by omega) hc]; omega
  have s2 : ¬ sub64 (m .capacity) (m .size) < k := by rw [sub64_of_le (by omega) hc]; omega
  have n01 : (0 : Nat) ≠ 1 := by decide
  have n10 : (1 : Nat) ≠ 0 := by decide
  rw [run_reads h0 s1 hl, run_reads ((upd_other _ _ n10).trans h1) s2 hl, run_writes (upd_same _ _ _), upd_upd,
    run_writes ((upd_other _ _ n01).trans (upd_same _ _ _)), put_put, upd_swap _ _ _ n01, upd_upd, upd_other _ _ n01, wrap64_of_lt (by omega)]

/-- **C153** (the negation, what is lost): wherever two threads may take `n` and `k` bytes, there is an interleaving after which both have been granted
what they asked for and only `n` bytes are counted. -/
theorem C153_lost (m : Mem) (n k : Nat) (hc : m .capacity < 2 ^ 64) (hroom : m .size + n + k ≤ m .capacity) (hl : m .locked = 0) :
    ∃ ts, (run (start m (two (.allocate n true) (.allocate k true))) ts).1.outs 0 = [.granted] ∧
      (run (start m (two (.allocate n true) (.allocate k true))) ts).1.outs 1 = [.granted] ∧
      (run (start m (two (.allocate n true) (.allocate k true))) ts).1.mem .size = m .size + n := by
  refine ⟨[0, 0, 0, 0, 1, 1, 1, 1, 1, 1, 0, 0], ?_⟩
  rw [start, run_lost (p := .stop) (q := .stop) (n := n) (k := k) (by dsimp only [two]; rw [if_pos rfl, compile, compile])
    (by dsimp only [two]; rw [if_neg (by decide), if_pos rfl, compile, compile]) hc hroom hl, run]
  refine ⟨?_, ?_, ?_⟩
  · dsimp only; rw [upd_same]; rfl
  · dsimp only; rw [upd_other _ _ (by decide), upd_same]; rfl
  · dsimp only; rw [put_same]

/-- **C153** (the negation, and what comes of it): when both then give back what they took, the count has gone below zero, and the manager takes itself
to have more bytes left than its capacity. -/
theorem C153_below (m : Mem) (n k : Nat) (hs : m .size = 0) (hroom : n + k ≤ m .capacity) (hl : m .locked = 0) (hcap : m .capacity + k < 2 ^ 64) :
    ∃ ts, let c := (run (start m fun t => if t = 0 then [(false, .allocate n true), (false, .free n)] else if t = 1 then [(false, .allocate k true),
        (false, .free k), (false, .limit)] else []) ts).1
      c.outs 0 = [.granted, .freed] ∧ c.outs 1 = [.granted, .freed, .num (m .capacity + k)] := by
  refine ⟨[0, 0, 0, 0, 1, 1, 1, 1, 1, 1, 0, 0, 0, 0, 0, 1, 1, 1, 1, 1, 1], ?_⟩
  have hz : sub64 n n = 0 := by rw [sub64_of_le (Nat.le_refl _) (by omega)]; omega
  have hn : sub64 (m .capacity) (sub64 0 k) = m .capacity + k := by
    rw [sub64.eq_def 0 k, sub64.eq_def]; omega
  have n01 : (0 : Nat) ≠ 1 := by decide
  have n10 : (1 : Nat) ≠ 0 := by decide
  dsimp only
  rw [start, run_lost (p := code (.free n) .stop) (q := code (.free k) (code .limit .stop)) (n := n) (k := k)
    (by rw [if_pos rfl, compile, compile, compile])
    (by rw [if_neg (by decide), if_pos rfl, compile, compile, compile, compile]) (by omega) (by omega) hl,
    run_frees (n := n) (k := .stop) (upd_same _ _ _), upd_upd, run_frees (n := k) (k := code .limit .stop) ((upd_other _ _ n10).trans (upd_same _ _ _)),
    run_limit (k := .stop) (upd_same _ _ _), run]
  dsimp only
  rw [put_put, put_put, put_same, put_same, put_same, put_other _ _ (by simp), hs, Nat.zero_add, hz, hn]
  refine ⟨?_, ?_⟩
  · rw [upd_other _ _ n01, upd_other _ _ n01, upd_same, upd_same]; rfl
  · rw [upd_same, upd_same, upd_other _ _ n10, upd_other _ _ n10, upd_same]; rfl

/- Cases that the theorems speak about. -/

def kilobyte : Mem := fun l => if l = .capacity then 1024 else 0

/-- The hypotheses of `C153_race`: one thread after the other takes eight bytes, without a mutex. -/
example : (∀ t, ∀ x ∈ two (.allocate 8 true) (.allocate 8 true) t, x.1 = false) ∧
    (∃ r ∈ (run (start kilobyte (two (.allocate 8 true) (.allocate 8 true))) [0, 0, 0, 0, 0, 0, 1, 1, 1, 1, 1, 1]).1.outs 0, r = .granted ∨ r = .freed) ∧
    (∃ r ∈ (run (start kilobyte (two (.allocate 8 true) (.allocate 8 true))) [0, 0, 0, 0, 0, 0, 1, 1, 1, 1, 1, 1]).1.outs 1, r = .granted ∨ r = .freed) := by
  refine ⟨fun t x hx => ?_, by decide +kernel, by decide +kernel⟩
  simp only [two] at hx
  split at hx
  · cases List.mem_singleton.mp hx; rfl
  · split at hx
    · cases List.mem_singleton.mp hx; rfl
    · cases hx

/-- The same under a mutex, and one of the threads also calls what is its own. -/
def guarded : Nat → List (Bool × Call) := fun t => if t = 0 then [(true, .allocate 8 true), (false, .own 3), (true, .free 8)] else
  if t = 1 then [(true, .allocate 1020 true)] else []

theorem guarded_guards (t : Nat) : Guards (guarded t) := by
  intro x hx
  simp only [guarded] at hx
  split at hx
  · simp only [List.mem_cons, List.not_mem_nil, or_false] at hx
    rcases hx with rfl | rfl | rfl
    · exact .inl rfl
    · exact .inr ⟨3, rfl⟩
    · exact .inl rfl
  · split at hx
    · cases List.mem_singleton.mp hx; exact .inl rfl
    · cases hx

/-- The hypotheses of `C153_serial_partial`: the second thread waits, and is told that there is no memory, for the first has not given its bytes back. -/
example : (run (start kilobyte guarded) [0, 0, 1, 0, 1, 0, 0, 0, 0, 0, 0, 1, 0, 1, 1, 1, 0, 1]).1.owner = none ∧
    (run (start kilobyte guarded) [0, 0, 1, 0, 1, 0, 0, 0, 0, 0, 0, 1, 0, 1, 1, 1, 0, 1]).1.outs 0 = [.granted, .num 3] ∧
    (run (start kilobyte guarded) [0, 0, 1, 0, 1, 0, 0, 0, 0, 0, 0, 1, 0, 1, 1, 1, 0, 1]).1.outs 1 = [.nomem] := by decide +kernel

/-- The hypotheses of `C153_count_partial`. -/
example : (serial kilobyte [(0, .allocate 8 true), (1, .allocate 1020 true), (0, .free 8), (1, .allocate 1020 true)]).1 .size = 1020 ∧
    taken [(0, .allocate 8 true), (1, .allocate 1020 true), (0, .free 8), (1, .allocate 1020 true)]
      (serial kilobyte [(0, .allocate 8 true), (1, .allocate 1020 true), (0, .free 8), (1, .allocate 1020 true)]).2 = 1028 ∧
    returned [(0, .allocate 8 true), (1, .allocate 1020 true), (0, .free 8), (1, .allocate 1020 true)] = 8 := by decide +kernel

/-- The hypotheses of `C153_apart_partial`: one thread takes memory, another looks for an error domain. -/
example : ∀ t u, t ≠ u → ∀ x ∈ two (.allocate 8 true) (.find 5) t, ∀ y ∈ two (.allocate 8 true) (.find 5) u, ¬ x.2.Disturbs y.2 := by
  intro t u htu x hx y hy
  rw [C153_disturbs_partial]
  simp only [two] at hx hy
  split at hx <;> split at hy <;> (try split at hx) <;> (try split at hy) <;> simp at hx hy <;> subst hx <;> (try subst hy) <;>
    simp_all [Call.uses, Call.changes]

/-- The hypotheses of `C153_lost` and `C153_below`. -/
example : kilobyte .capacity < 2 ^ 64 ∧ kilobyte .size + 8 + 16 ≤ kilobyte .capacity ∧ kilobyte .locked = 0 ∧ kilobyte .size = 0 ∧
    kilobyte .capacity + 16 < 2 ^ 64 := by decide +kernel

end Solace.Threads
