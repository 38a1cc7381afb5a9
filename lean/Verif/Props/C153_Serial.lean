import Verif.Props.C153_Guarded
/-
C153, continued: calls under one mutex have the effects of the same calls one at a time.
-/
namespace Solace.Threads

/-- What a thread that nobody disturbs does until it releases the mutex. -/
def finish : Code → Mem → Mem × List Res × Code
  | .rd l k, m => finish (k (m l)) m
  | .wr l v k, m => finish k (m.put l v)
  | .out r k, m => ((finish k m).1, r :: (finish k m).2.1, (finish k m).2.2)
  | .rel k, m => (m, [], k)
  | .acq k, m => (m, [], .acq k)
  | .stop, m => (m, [], .stop)

theorem finish_find (id : Nat) (k : Code) (m : Mem) (left : Nat) :
    ∀ i, finish (findFrom id (.rel k) left i) m = (m, [.found (search m id left i)], k) := by
  induction left with
  | zero => intro i; rw [findFrom, search, finish, finish]
  | succ n ih =>
    intro i
    rw [findFrom, search, finish]
    split
    · rw [finish, finish, finish]
    · exact ih _

theorem put_back (m : Mem) (l : Loc) : m.put l (m l) = m := by
  funext x
  rw [Mem.put]
  split
  · rename_i h; rw [h]
  · rfl

theorem put_put (m : Mem) (l : Loc) (v w : Nat) : (m.put l v).put l w = m.put l w := by
  funext x
  simp only [Mem.put]
  split <;> rfl

theorem put_swap (m : Mem) {l l' : Loc} (v w : Nat) (h : l ≠ l') : (m.put l v).put l' w = (m.put l' w).put l v := by
  funext x
  simp only [Mem.put]
  split <;> split <;> try rfl
  rename_i h1 h2
  exact absurd (h2.symm.trans h1) h

/-- A call does, when nobody comes between, what it is specified to do. -/
theorem finish_code (c : Call) (k : Code) (m : Mem) : finish (code c (.rel k)) m = ((alone m c).1, [(alone m c).2], k) := by
  cases c with
  | allocate n given =>
    rw [code, alone, finish, finish]
    split
    · rw [finish, finish]
    · rw [finish]
      split
      · rw [finish, finish]
      · split
        · rw [finish, finish]
        · rw [finish, finish, finish, finish]
  | free n => rw [code, alone, finish, finish, finish, finish]
  | lock => rw [code, alone, finish, finish, finish]
  | unlock => rw [code, alone, finish, finish, finish]
  | isLocked => rw [code, alone, finish, finish, finish]
  | limit => rw [code, alone, finish, finish, finish, finish]
  | size => rw [code, alone, finish, finish, finish]
  | register id d =>
    rw [code, alone, emplace, finish]
    by_cases h1 : 128 ≤ m .valuesPos
    · rw [if_pos h1, if_pos h1, finish, finish, finish]
    · rw [if_neg h1, if_neg h1, finish, if_neg h1, finish, finish, finish]
      have e1 : (m.put (.value (m .valuesPos)) d) .valuesPos = m .valuesPos := put_other _ _ (by simp)
      rw [e1, wrap64_of_lt (by omega), emplace, finish]
      have e2 : ((m.put (.value (m .valuesPos)) d).put .valuesPos (m .valuesPos + 1)) .keysPos = m .keysPos := by
        rw [put_other _ _ (by simp), put_other _ _ (by simp)]
      rw [e2]
      by_cases h2 : 128 ≤ m .keysPos
      · rw [if_pos h2, if_pos h2, finish, put_same, if_neg (by omega), finish, finish, put_same, finish, finish, put_same, finish, finish,
          sub64_of_le (by omega) (by omega), Nat.add_sub_cancel, put_put]
        have e3 : (m.put (.value (m .valuesPos)) d).put .valuesPos (m .valuesPos) = m.put (.value (m .valuesPos)) d := by
          have := put_back (m.put (.value (m .valuesPos)) d) .valuesPos
          rwa [e1] at this
        rw [e3]
      · rw [if_neg h2, if_neg h2, finish, e2, if_neg h2, finish, finish, finish, put_other _ _ (by simp), e2, wrap64_of_lt (by omega), finish, finish,
          finish, put_other _ _ (by simp), put_other _ _ (by simp), put_same, wrap32_of_lt (by omega), registered]
  | find id => rw [code, alone, finish, finish, finish, finish_find]
  | own r => rw [code, alone, finish, finish]

/-- The state when the one who holds the mutex is done with it. -/
def settled (c : Config) : Mem × (Nat → List Res) × (Nat → Code) :=
  match c.owner with
  | none => (c.mem, c.outs, c.codes)
  | some u => ((finish (c.codes u) c.mem).1, upd c.outs u (c.outs u ++ (finish (c.codes u) c.mem).2.1), upd c.codes u (finish (c.codes u) c.mem).2.2)

theorem upd_upd {α : Type} (f : Nat → α) (t : Nat) (x y : α) : upd (upd f t x) t y = upd f t y := by
  funext u
  simp only [upd]
  split <;> rfl

theorem upd_back {α : Type} (f : Nat → α) (t : Nat) : upd f t (f t) = f := by
  funext u
  rw [upd]
  split
  · rename_i h; rw [h]
  · rfl

theorem upd_swap {α : Type} (f : Nat → α) {t u : Nat} (x y : α) (h : t ≠ u) : upd (upd f t x) u y = upd (upd f u y) t x := by
  funext v
  simp only [upd]
  split <;> split <;> try rfl
  rename_i h1 h2
  exact absurd (h2.symm.trans h1) h

/-- The holder of the mutex does what it would do anyway. -/
theorem settled_owner (c : Config) (t : Nat) (h : c.owner = some t) : settled (step c t).1 = settled c := by
  have e : settled c = ((finish (c.codes t) c.mem).1, upd c.outs t (c.outs t ++ (finish (c.codes t) c.mem).2.1),
      upd c.codes t (finish (c.codes t) c.mem).2.2) := by rw [settled, h]
  rw [e, step]
  cases hc : c.codes t with
  | stop => dsimp only; rw [e, hc]
  | rd l k =>
    dsimp only
    rw [settled, h]
    dsimp only
    rw [upd_same, upd_upd, finish]
  | wr l v k =>
    dsimp only
    rw [settled, h]
    dsimp only
    rw [upd_same, upd_upd, finish]
  | acq k =>
    dsimp only
    rw [if_neg (by rw [h]; simp), e, hc]
  | rel k =>
    dsimp only
    rw [settled]
    dsimp only
    rw [finish]
    dsimp only
    rw [List.append_nil, upd_back]
  | out r k =>
    dsimp only
    rw [settled, h]
    dsimp only
    rw [upd_same, upd_same, upd_upd, upd_upd, finish, List.append_assoc, List.singleton_append]

theorem serial_snoc (order : List (Nat × Call)) (t : Nat) (x : Call) : ∀ m, serial m (order ++ [(t, x)]) =
    ((alone (serial m order).1 x).1, (serial m order).2 ++ [(t, (alone (serial m order).1 x).2)]) := by
  induction order with
  | nil => intro m; rfl
  | cons y ys ih =>
    intro m
    obtain ⟨u, d⟩ := y
    rw [List.cons_append, serial, ih, serial]
    rfl

theorem of_snoc {α : Type} (t : Nat) (xs : List (Nat × α)) (u : Nat) (x : α) : of t (xs ++ [(u, x)]) = if u = t then of t xs ++ [x] else of t xs := by
  rw [of, List.filter_append, List.map_append, of]
  split
  · rename_i h; subst h; simp
  · rename_i h; simp [h]

/-- The calls made so far, in the order they took effect, and those to come. -/
def Linear (m : Mem) (progs : Nat → List (Bool × Call)) (c : Config) : Prop :=
  ∃ (order : List (Nat × Call)) (rest : Nat → List (Bool × Call)), (∀ t, Guards (rest t) ∧ of t order ++ (rest t).map (·.2) = (progs t).map (·.2)) ∧
    settled c = ((serial m order).1, fun t => of t (serial m order).2, fun t => compile (rest t))

theorem linear_start (m : Mem) (progs : Nat → List (Bool × Call)) (h : ∀ t, Guards (progs t)) : Linear m progs (start m progs) :=
  ⟨[], progs, fun t => ⟨h t, rfl⟩, rfl⟩

theorem step_linear {m : Mem} {progs : Nat → List (Bool × Call)} {c : Config} (h : Linear m progs c) (t : Nat) : Linear m progs (step c t).1 := by
  by_cases ho : c.owner = some t
  · obtain ⟨order, rest, h1, h2⟩ := h
    exact ⟨order, rest, h1, by rw [settled_owner c t ho, h2]⟩
  obtain ⟨order, rest, h1, h2⟩ := h
  have hcode : c.codes t = compile (rest t) := by
    have e := congrArg (fun x => x.2.2 t) h2
    dsimp only at e
    rw [← e, settled]
    split
    · rfl
    · rename_i u hu
      have hut : t ≠ u := fun e => ho (by rw [hu, e])
      exact (upd_other _ _ hut).symm
  have grow : ∀ b x xs, rest t = (b, x) :: xs → ∀ u, Guards (upd rest t xs u) ∧
      of u (order ++ [(t, x)]) ++ (upd rest t xs u).map (·.2) = (progs u).map (·.2) := by
    intro b x xs hr u
    rw [of_snoc, upd]
    by_cases hu : u = t
    · subst hu
      rw [if_pos rfl, if_pos rfl]
      obtain ⟨g, e⟩ := h1 u
      rw [hr] at g e
      exact ⟨fun y hy => g y (List.mem_cons_of_mem _ hy), by rw [← e, List.append_assoc]; rfl⟩
    · rw [if_neg hu, if_neg (fun e => hu e.symm)]
      exact h1 u
  have outs_eq : ∀ (rs : List (Nat × Res)) (r : Res), (fun u => of u (rs ++ [(t, r)])) = upd (fun u => of u rs) t (of t rs ++ [r]) := by
    intro rs r
    funext u
    rw [of_snoc, upd]
    by_cases hu : u = t
    · rw [if_pos hu, if_pos hu.symm, hu]
    · rw [if_neg hu, if_neg (fun e => hu e.symm)]
  have codes_eq : ∀ xs, (fun u => compile (upd rest t xs u)) = upd (fun u => compile (rest u)) t (compile xs) := by
    intro xs
    funext u
    simp only [upd]
    split <;> rfl
  rw [step, hcode]
  cases hr : rest t with
  | nil => rw [compile]; exact ⟨order, rest, h1, h2⟩
  | cons x xs =>
    obtain ⟨b, x⟩ := x
    cases b with
    | true =>
      rw [compile]
      dsimp only
      split
      · rename_i hn
        refine ⟨order ++ [(t, x)], upd rest t xs, grow _ _ _ hr, ?_⟩
        rw [settled, hn] at h2
        dsimp only at h2
        have e1 := congrArg (·.1) h2
        have e2 := congrArg (·.2.1) h2
        have e3 := congrArg (·.2.2) h2
        dsimp only at e1 e2 e3
        rw [settled]
        dsimp only
        rw [upd_same, finish_code, upd_upd, serial_snoc, codes_eq, e1, e2, e3]
        dsimp only
        rw [outs_eq]
      · exact ⟨order, rest, h1, h2⟩
    | false =>
      rcases (h1 t).1 (false, x) (by rw [hr]; exact List.mem_cons_self ..) with hb | ⟨r, hx⟩
      · cases hb
      · dsimp only at hx
        subst hx
        rw [compile, code]
        dsimp only
        refine ⟨order ++ [(t, .own r)], upd rest t xs, grow _ _ _ hr, ?_⟩
        rw [serial_snoc, codes_eq, alone]
        dsimp only
        rw [outs_eq]
        cases hown : c.owner with
        | none =>
          rw [settled, hown] at h2
          dsimp only at h2
          have e1 := congrArg (·.1) h2
          have e2 := congrArg (·.2.1) h2
          have e3 := congrArg (·.2.2) h2
          dsimp only at e1 e2 e3
          rw [settled]
          dsimp only
          rw [e1, e2, e3]
        | some u =>
          have hut : t ≠ u := fun e => ho (by rw [hown, e])
          rw [settled, hown] at h2
          dsimp only at h2
          have e1 := congrArg (·.1) h2
          have e2 := congrArg (·.2.1) h2
          have e3 := congrArg (·.2.2) h2
          dsimp only at e1 e2 e3
          have e4 : c.outs t = of t (serial m order).2 := by
            rw [← congrFun e2 t, upd_other _ _ hut]
          rw [settled]
          dsimp only
          rw [upd_other _ _ (fun e => hut e.symm), upd_other _ _ (fun e => hut e.symm), upd_swap _ _ _ hut, upd_swap _ _ _ hut, e1, e2, e3, e4]

/-- **C153** (partial, under one mutex): whenever the mutex is free, the threads have come from the calls they made one at a time, in an order that
keeps the order of each: the shared state is the same, and each thread was told the same; a thread that has ended has made all its calls. -/
theorem C153_serial_partial (m : Mem) (progs : Nat → List (Bool × Call)) (hp : ∀ t, Guards (progs t)) (ts : List Nat)
    (hfree : (run (start m progs) ts).1.owner = none) :
    ∃ order, (run (start m progs) ts).1.mem = (serial m order).1 ∧
      ∀ t, (run (start m progs) ts).1.outs t = of t (serial m order).2 ∧ of t order <+: (progs t).map (·.2) ∧
        ((run (start m progs) ts).1.codes t = .stop → of t order = (progs t).map (·.2)) := by
  obtain ⟨order, rest, h1, h2⟩ := run_induct (fun c _ => Linear m progs c) (fun c tr t h => step_linear h t) ts (start m progs) [] (linear_start m progs hp)
  rw [settled, hfree] at h2
  dsimp only at h2
  refine ⟨order, congrArg (·.1) h2, fun t => ⟨congrFun (congrArg (·.2.1) h2) t, ⟨_, (h1 t).2⟩, fun hs => ?_⟩⟩
  have e : (run (start m progs) ts).1.codes t = compile (rest t) := congrFun (congrArg (·.2.2) h2) t
  rw [hs] at e
  obtain ⟨g, he⟩ := h1 t
  cases hr : rest t with
  | nil => rw [hr] at he; simpa using he
  | cons x xs =>
    obtain ⟨b, x⟩ := x
    rw [hr] at e g
    cases b with
    | true => rw [compile] at e; cases e
    | false =>
      rcases g (false, x) (List.mem_cons_self ..) with hb | ⟨r, hx⟩
      · cases hb
      · dsimp only at hx
        subst hx
        rw [compile, code] at e
        cases e

/-- The bytes that calls took, by what they were told, and those they gave back. -/
def taken : List (Nat × Call) → List (Nat × Res) → Nat
  | (_, .allocate n _) :: cs, (_, .granted) :: rs => n + taken cs rs
  | _ :: cs, _ :: rs => taken cs rs
  | _, _ => 0

def returned : List (Nat × Call) → Nat
  | (_, .free n) :: cs => n + returned cs
  | _ :: cs => returned cs
  | [] => 0

/-- **C153** (partial, under one mutex): the count of the memory manager is that of the bytes taken and not given back, in every order of the calls. -/
theorem C153_count_partial (order : List (Nat × Call)) : ∀ (m : Mem), m .size < 2 ^ 64 → (∀ x ∈ order, ∀ n, x.2 = .free n → n < 2 ^ 64) →
    (serial m order).1 .size < 2 ^ 64 ∧
    ((serial m order).1 .size + returned order) % 2 ^ 64 = (m .size + taken order (serial m order).2) % 2 ^ 64 := by
  induction order with
  | nil => intro m h _; exact ⟨h, rfl⟩
  | cons x xs ih =>
    intro m h hf
    obtain ⟨t, c⟩ := x
    rw [serial]
    have hf' := fun y hy => hf y (List.mem_cons_of_mem _ hy)
    have same : ∀ (m' : Mem) (r : Res), m' .size = m .size → (serial m' xs).1 .size < 2 ^ 64 ∧
        ((serial m' xs).1 .size + returned xs) % 2 ^ 64 = (m .size + taken xs (serial m' xs).2) % 2 ^ 64 := by
      intro m' r hs
      obtain ⟨i1, i2⟩ := ih m' (by omega) hf'
      rw [hs] at i2
      exact ⟨i1, i2⟩
    cases c with
    | allocate n given =>
      rw [alone]
      split
      · exact same m .nomem rfl
      · split
        · exact same m .perm rfl
        · split
          · exact same m .nomem rfl
          · obtain ⟨i1, i2⟩ := ih (m.put .size (wrap64 (m .size + n))) (by rw [put_same]; exact wrap64_lt _) hf'
            refine ⟨i1, ?_⟩
            rw [put_same] at i2
            have hw := wrap64_def (m .size + n)
            dsimp only
            rw [returned, taken]
            · omega
            · simp
    | free n =>
      have hn := hf (t, .free n) (List.mem_cons_self ..) n rfl
      rw [alone]
      obtain ⟨i1, i2⟩ := ih (m.put .size (sub64 (m .size) n)) (by rw [put_same]; exact sub64_lt _ _) hf'
      refine ⟨i1, ?_⟩
      rw [put_same] at i2
      have hw := sub64.eq_def (m .size) n
      dsimp only
      rw [returned, taken]
      · omega
      · simp
    | lock => exact same (m.put .locked 1) .done rfl
    | unlock => exact same (m.put .locked 0) .done rfl
    | isLocked => exact same m (.num (m .locked)) rfl
    | limit => exact same m (.num (sub64 (m .capacity) (m .size))) rfl
    | size => exact same m (.num (m .size)) rfl
    | register id d =>
      rw [alone]
      split
      · exact same m .done rfl
      · split
        · exact same _ .done rfl
        · exact same _ .done rfl
    | find id => exact same m .done rfl
    | own r => exact same m (.num r) rfl

end Solace.Threads
