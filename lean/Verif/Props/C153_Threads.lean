import Verif.Spec.Threads
/-
C153: threads that use different objects of the library.
-/
namespace Solace.Threads

/-! ### Executions -/

theorem run_append (xs ys : List Nat) : ∀ c, run c (xs ++ ys) = ((run (run c xs).1 ys).1, (run c xs).2 ++ (run (run c xs).1 ys).2) := by
  induction xs with
  | nil => intro c; simp [run]
  | cons t ts ih => intro c; simp [run, ih]

@[simp] theorem upd_same {α : Type} (f : Nat → α) (t : Nat) (x : α) : upd f t x t = x := by simp [upd]

theorem upd_other {α : Type} (f : Nat → α) {t u : Nat} (x : α) (h : u ≠ t) : upd f t x u = f u := by simp [upd, h]

@[simp] theorem put_same (m : Mem) (l : Loc) (v : Nat) : m.put l v l = v := by simp [Mem.put]

theorem put_other (m : Mem) {l x : Loc} (v : Nat) (h : x ≠ l) : m.put l v x = m x := by simp [Mem.put, h]

/-- An invariant of the states and the events so far that every access keeps holds after every execution. -/
theorem run_induct (P : Config → List Event → Prop) (hs : ∀ c tr t, P c tr → P (step c t).1 (tr ++ (step c t).2)) (ts : List Nat) :
    ∀ c tr, P c tr → P (run c ts).1 (tr ++ (run c ts).2) := by
  induction ts with
  | nil => intro c tr h; simpa [run] using h
  | cons t ts ih =>
    intro c tr h
    have := ih _ _ (hs c tr t h)
    simpa [run, List.append_assoc] using this

/-! ### Without the mutex -/

/-- Neither acquires nor releases. -/
inductive Free : Code → Prop where
  | stop : Free .stop
  | rd {l : Loc} {k : Nat → Code} : (∀ v, Free (k v)) → Free (.rd l k)
  | wr {l : Loc} {v : Nat} {k : Code} : Free k → Free (.wr l v k)
  | out {r : Res} {k : Code} : Free k → Free (.out r k)

theorem findFrom_free (id : Nat) (k : Code) (h : Free k) (left : Nat) : ∀ i, Free (findFrom id k left i) := by
  induction left with
  | zero => intro i; rw [findFrom]; exact .out h
  | succ n ih =>
    intro i
    rw [findFrom]
    refine .rd fun v => ?_
    split
    · exact .rd fun _ => .out h
    · exact ih _

theorem emplace_free (pos : Loc) (slot : Nat → Loc) (v : Nat) {full done : Code} (hf : Free full) (hd : Free done) :
    Free (emplace pos slot v full done) := by
  rw [emplace]
  refine .rd fun p => ?_
  split
  · exact hf
  · refine .rd fun q => ?_
    split
    · exact hf
    · exact .wr (.rd fun _ => .wr hd)

theorem code_free (c : Call) (k : Code) (h : Free k) : Free (code c k) := by
  cases c with
  | allocate n given =>
    rw [code]
    refine .rd fun c => .rd fun s => ?_
    split
    · exact .out h
    · refine .rd fun l => ?_
      split
      · exact .out h
      · split
        · exact .out h
        · exact .rd fun _ => .wr (.out h)
  | free n => rw [code]; exact .rd fun _ => .wr (.out h)
  | lock => rw [code]; exact .wr (.out h)
  | unlock => rw [code]; exact .wr (.out h)
  | isLocked => rw [code]; exact .rd fun _ => .out h
  | limit => rw [code]; exact .rd fun _ => .rd fun _ => .out h
  | size => rw [code]; exact .rd fun _ => .out h
  | register id d =>
    rw [code]
    have o : Free (.rd .valuesPos fun p => .out (.num (wrap32 p)) k) := .rd fun _ => .out h
    refine emplace_free _ _ _ o (emplace_free _ _ _ (.rd fun p => ?_) o)
    split
    · exact o
    · exact .rd fun _ => .wr (.rd fun _ => o)
  | find id => rw [code]; exact .rd fun _ => .rd fun _ => .rd fun n => findFrom_free id k h n 0
  | own r => rw [code]; exact .out h

theorem compile_free (cs : List (Bool × Call)) (h : ∀ x ∈ cs, x.1 = false) : Free (compile cs) := by
  induction cs with
  | nil => exact .stop
  | cons x cs ih =>
    obtain ⟨b, c⟩ := x
    have : b = false := h (b, c) (List.mem_cons_self ..)
    subst this
    rw [compile]
    exact code_free c _ (ih fun y hy => h y (List.mem_cons_of_mem _ hy))

/-- Thread `t` has changed the object. -/
def Wrote (tr : List Event) (t : Nat) (l : Loc) : Prop := ⟨t, .wr l⟩ ∈ tr

theorem step_free {c : Config} (h : ∀ t, Free (c.codes t)) (t : Nat) :
    (∀ u, Free ((step c t).1.codes u)) ∧ ∀ e ∈ (step c t).2, e.act ≠ .rel ∧ e.act ≠ .acq := by
  have key : ∀ k, Free k → ∀ u, Free (upd c.codes t k u) := by
    intro k hk u
    rw [upd]
    split
    · exact hk
    · exact h u
  have ht := h t
  rw [step]
  cases hc : c.codes t with
  | stop => exact ⟨h, fun e he => by cases he⟩
  | rd l k =>
    rw [hc] at ht
    cases ht with
    | rd ht => exact ⟨key _ (ht _), by simp⟩
  | wr l v k =>
    rw [hc] at ht
    cases ht with
    | wr ht => exact ⟨key _ ht, by simp⟩
  | acq k => rw [hc] at ht; cases ht
  | rel k => rw [hc] at ht; cases ht
  | out r k =>
    rw [hc] at ht
    cases ht with
    | out ht => exact ⟨key _ ht, by simp⟩

theorem run_unsynced (m : Mem) (progs : Nat → List (Bool × Call)) (hp : ∀ t, ∀ x ∈ progs t, x.1 = false) (ts : List Nat) :
    ∀ e ∈ (run (start m progs) ts).2, e.act ≠ .rel ∧ e.act ≠ .acq := by
  have := run_induct (fun c tr => (∀ t, Free (c.codes t)) ∧ ∀ e ∈ tr, e.act ≠ .rel ∧ e.act ≠ .acq)
    (fun c tr t h => ⟨(step_free h.1 t).1, fun e he => (List.mem_append.mp he).elim (h.2 e) ((step_free h.1 t).2 e)⟩) ts (start m progs) []
    ⟨fun t => compile_free _ (hp t), fun e he => by cases he⟩
  simpa using this.2

/-- Without the mutex only a thread's own events are ordered. -/
theorem hb_unsynced {tr : List Event} (h : ∀ e ∈ tr, e.act ≠ .rel ∧ e.act ≠ .acq) {i j : Nat} (hb : HB tr i j) :
    ∀ e f, tr[i]? = some e → tr[j]? = some f → e.tid = f.tid := by
  suffices hs : ∃ e f, tr[i]? = some e ∧ tr[j]? = some f ∧ e.tid = f.tid by
    obtain ⟨e, f, h1, h2, h3⟩ := hs
    intro e' f' g1 g2
    rw [h1] at g1; rw [h2] at g2
    cases g1; cases g2; exact h3
  induction hb with
  | po _ h1 h2 h3 => exact ⟨_, _, h1, h2, h3⟩
  | sync _ h1 _ => exact absurd rfl (h _ (List.mem_of_getElem? h1)).1
  | trans _ _ ih1 ih2 =>
    obtain ⟨e, f, h1, h2, h3⟩ := ih1
    obtain ⟨e', f', h4, h5, h6⟩ := ih2
    rw [h2] at h4
    cases h4
    exact ⟨e, f', h1, h5, h3.trans h6⟩

/-- Without the mutex, two threads that use an object which one of them changes race. -/
theorem race_of_conflict {tr : List Event} (h : ∀ e ∈ tr, e.act ≠ .rel ∧ e.act ≠ .acq) {t u : Nat} (htu : t ≠ u) {l : Loc} (ht : Wrote tr t l)
    {f : Event} (hf : f ∈ tr) (hu : f.tid = u) (hl : f.On l) : Race tr := by
  obtain ⟨i, hi⟩ := List.getElem?_of_mem ht
  obtain ⟨j, hj⟩ := List.getElem?_of_mem hf
  have hne : i ≠ j := by
    rintro rfl
    rw [hi] at hj
    cases hj
    exact htu hu
  have hnb : ¬ HB tr i j := fun hb => htu ((hb_unsynced h hb _ _ hi hj).trans hu)
  have hnb' : ¬ HB tr j i := fun hb => htu ((hb_unsynced h hb _ _ hj hi).symm.trans hu)
  rcases Nat.lt_or_gt_of_ne hne with hlt | hlt
  · exact ⟨i, j, _, _, l, hlt, hi, hj, by rw [hu]; exact htu, .inr rfl, hl, .inl rfl, hnb⟩
  · exact ⟨j, i, _, _, l, hlt, hj, hi, by rw [hu]; exact htu.symm, hl, .inr rfl, .inr rfl, hnb'⟩

/-- Every path to the news that memory was granted or given back writes the count first; `b`: it was written already. -/
inductive Honest : Bool → Code → Prop where
  | stop {b : Bool} : Honest b .stop
  | rd {b : Bool} {l : Loc} {k : Nat → Code} : (∀ v, Honest b (k v)) → Honest b (.rd l k)
  | wr {b : Bool} {l : Loc} {v : Nat} {k : Code} : Honest (b || decide (l = .size)) k → Honest b (.wr l v k)
  | acq {b : Bool} {k : Code} : Honest b k → Honest b (.acq k)
  | rel {b : Bool} {k : Code} : Honest b k → Honest b (.rel k)
  | out {b : Bool} {r : Res} {k : Code} : (r = .granted ∨ r = .freed → b = true) → Honest b k → Honest b (.out r k)

theorem findFrom_honest (id : Nat) (k : Code) (h : ∀ b, Honest b k) (left : Nat) : ∀ b i, Honest b (findFrom id k left i) := by
  induction left with
  | zero => intro b i; rw [findFrom]; exact .out (by simp) (h b)
  | succ n ih =>
    intro b i
    rw [findFrom]
    refine .rd fun v => ?_
    split
    · exact .rd fun _ => .out (by simp) (h b)
    · exact ih b _

theorem emplace_honest (pos : Loc) (slot : Nat → Loc) (v : Nat) {full done : Code} (hf : ∀ b, Honest b full) (hd : ∀ b, Honest b done) (b : Bool) :
    Honest b (emplace pos slot v full done) := by
  rw [emplace]
  refine .rd fun p => ?_
  split
  · exact hf b
  · refine .rd fun q => ?_
    split
    · exact hf b
    · exact .wr (.rd fun _ => .wr (hd _))

theorem code_honest (c : Call) (k : Code) (h : ∀ b, Honest b k) (b : Bool) : Honest b (code c k) := by
  have o : ∀ (r : Res) (b : Bool), (r ≠ .granted ∧ r ≠ .freed) → Honest b (.out r k) := fun r b hr =>
    .out (fun h => (h.elim hr.1 hr.2).elim) (h b)
  cases c with
  | allocate n given =>
    rw [code]
    refine .rd fun c => .rd fun s => ?_
    split
    · exact o _ b (by simp)
    · refine .rd fun l => ?_
      split
      · exact o _ b (by simp)
      · split
        · exact o _ b (by simp)
        · exact .rd fun _ => .wr (.out (by simp) (h _))
  | free n => rw [code]; exact .rd fun _ => .wr (.out (by simp) (h _))
  | lock => rw [code]; exact .wr (o _ _ (by simp))
  | unlock => rw [code]; exact .wr (o _ _ (by simp))
  | isLocked => rw [code]; exact .rd fun _ => o _ _ (by simp)
  | limit => rw [code]; exact .rd fun _ => .rd fun _ => o _ _ (by simp)
  | size => rw [code]; exact .rd fun _ => o _ _ (by simp)
  | register id d =>
    rw [code]
    have e : ∀ b, Honest b (.rd .valuesPos fun p => .out (.num (wrap32 p)) k) := fun b => .rd fun _ => o _ b (by simp)
    refine emplace_honest _ _ _ e (emplace_honest _ _ _ (fun b => .rd fun p => ?_) e) b
    split
    · exact e _
    · exact .rd fun _ => .wr (.rd fun _ => e _)
  | find id => rw [code]; exact .rd fun _ => .rd fun _ => .rd fun n => findFrom_honest id k h n b 0
  | own r => rw [code]; exact o _ _ (by simp)

theorem compile_honest (cs : List (Bool × Call)) : ∀ b, Honest b (compile cs) := by
  induction cs with
  | nil => intro b; exact .stop
  | cons x cs ih =>
    obtain ⟨g, c⟩ := x
    intro b
    cases g with
    | false => rw [compile]; exact code_honest c _ ih b
    | true => rw [compile]; exact .acq (code_honest c _ (fun b => .rel (ih b)) b)

/-- What the executions keep: who was granted or gave back memory has written the count. -/
def Told (c : Config) (tr : List Event) : Prop :=
  ∀ t, ∃ b, Honest b (c.codes t) ∧ (b = true → Wrote tr t .size) ∧ ((∃ r ∈ c.outs t, r = .granted ∨ r = .freed) → Wrote tr t .size)

theorem step_told {c : Config} {tr : List Event} (h : Told c tr) (t : Nat) : Told (step c t).1 (tr ++ (step c t).2) := by
  intro u
  obtain ⟨b, h1, h2, h3⟩ := h u
  have app : ∀ es, Wrote tr u .size → Wrote (tr ++ es) u .size := fun es hw => List.mem_append_left _ hw
  by_cases hu : u = t
  · subst hu
    rw [step]
    cases hc : c.codes u with
    | stop => exact ⟨b, by simpa [hc] using h1, fun x => app _ (h2 x), fun x => app _ (h3 x)⟩
    | rd l k =>
      rw [hc] at h1
      cases h1 with
      | rd h1 => exact ⟨b, by simpa using h1 _, fun x => app _ (h2 x), fun x => app _ (h3 x)⟩
    | wr l v k =>
      rw [hc] at h1
      replace h1 : Honest (b || decide (l = .size)) k := by cases h1; assumption
      refine ⟨b || decide (l = .size), by simpa using h1, fun x => ?_, fun x => app _ (h3 x)⟩
      rcases Bool.or_eq_true_iff.mp x with hb | hl
      · exact app _ (h2 hb)
      · have := of_decide_eq_true hl
        subst this
        exact List.mem_append_right _ (List.mem_singleton.mpr rfl)
    | acq k =>
      have hk : Honest b k := by rw [hc] at h1; cases h1; assumption
      dsimp only
      split
      · exact ⟨b, by simpa using hk, fun x => app _ (h2 x), fun x => app _ (h3 x)⟩
      · exact ⟨b, by simpa [hc] using h1, fun x => app _ (h2 x), fun x => app _ (h3 x)⟩
    | rel k =>
      replace h1 : Honest b k := by rw [hc] at h1; cases h1; assumption
      exact ⟨b, by simpa using h1, fun x => app _ (h2 x), fun x => app _ (h3 x)⟩
    | out r k =>
      replace h1 : (r = .granted ∨ r = .freed → b = true) ∧ Honest b k := by
        rw [hc] at h1
        cases h1 with
        | out x y => exact ⟨x, y⟩
      refine ⟨b, by simpa using h1.2, fun x => app _ (h2 x), fun ⟨x, hx, hr⟩ => ?_⟩
      simp only [upd_same] at hx
      rcases List.mem_append.mp hx with hx | hx
      · exact app _ (h3 ⟨x, hx, hr⟩)
      · cases List.mem_singleton.mp hx
        exact app _ (h2 (h1.1 hr))
  · have e1 : (step c t).1.codes u = c.codes u := by
      rw [step]; split <;> try split
      all_goals first | rfl | exact upd_other _ _ hu
    have e2 : (step c t).1.outs u = c.outs u := by
      rw [step]; split <;> try split
      all_goals first | rfl | exact upd_other _ _ hu
    rw [e1, e2]
    exact ⟨b, h1, fun x => app _ (h2 x), fun x => app _ (h3 x)⟩

/-- **C153** (the negation): threads that do nothing but take or give back memory race. In every execution without the mutex in which two threads
were granted memory or gave some back, there is a data race. -/
theorem C153_race (m : Mem) (progs : Nat → List (Bool × Call)) (hp : ∀ t, ∀ x ∈ progs t, x.1 = false) (ts : List Nat) (t u : Nat) (htu : t ≠ u)
    (ht : ∃ r ∈ (run (start m progs) ts).1.outs t, r = .granted ∨ r = .freed)
    (hu : ∃ r ∈ (run (start m progs) ts).1.outs u, r = .granted ∨ r = .freed) : Race (run (start m progs) ts).2 := by
  have h := run_induct Told (fun c tr t h => step_told h t) ts (start m progs) []
    (fun t => ⟨false, compile_honest _ _, nofun, fun ⟨r, hr, _⟩ => by cases hr⟩)
  rw [List.nil_append] at h
  obtain ⟨_, _, _, h1⟩ := h t
  obtain ⟨_, _, _, h2⟩ := h u
  exact race_of_conflict (run_unsynced m progs hp ts) htu (h1 ht) (h2 hu) rfl (.inr rfl)

end Solace.Threads
