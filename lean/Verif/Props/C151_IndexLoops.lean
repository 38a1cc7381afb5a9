import Verif.Spec.IndexLoops
import Verif.Props.C147_Loops
/-
C151: loops by index over containers that their bodies change.
-/
namespace Solace.Nested
open PathMem

/-! ### Statements that do not name a variable leave it alone -/

theorem get_set_ne (vs : Vars) {i j : Nat} (y : Option Val) (h : j ≠ i) : get (vs.set j y) i = get vs i := by
  rw [get, get, List.getElem?_set, if_neg h]

theorem get_append {vs : Vars} {i : Nat} {v : Val} (ws : Vars) (h : get vs i = some v) : get (vs ++ ws) i = some v := by
  have hl := (List.getElem?_eq_some_iff.mp (get_eq h)).1
  rw [get, List.getElem?_append_left hl]; exact h

theorem moveAll_get (is : List Nat) : ∀ (vs vs' : Vars) (xs : List Val) (i : Nat), i ∉ is → moveAll vs is = some (xs, vs') →
    get vs' i = get vs i := by
  induction is with
  | nil => intro vs vs' xs i _ h; cases h; rfl
  | cons j is ih =>
    intro vs vs' xs i hi h
    rw [moveAll] at h
    split at h
    · cases h
    · split at h
      · cases h
      · rename_i hm
        cases h
        rw [ih _ _ _ _ (fun h => hi (List.mem_cons_of_mem _ h)) hm]
        exact get_set_ne _ _ fun e => hi (by simp [e])

theorem step_others {g : Policy} {p : Prog} {o : Op} {r : Prog × Bool} {i : Nat} {v : Val} (hn : i ∉ o.names) (hv : get p.vars i = some v)
    (e : step g p o = .ok r) : get r.1.vars i = some v := by
  have hs : ∀ (vs : Vars) (y : Option Val) (j : Nat), j ∈ o.names → get vs i = some v → get (vs.set j y) i = some v := by
    intro vs y j hj h
    rw [get_set_ne _ _ (fun e : j = i => hn (by rw [← e]; exact hj))]; exact h
  have ha : ∀ (vs ws : Vars), get vs i = some v → get (vs ++ ws) i = some v := fun vs ws h => get_append ws h
  have hm : ∀ (is : List Nat) (xs : List Val) (vs' : Vars), o.names = is → moveAll p.vars is = some (xs, vs') → get vs' i = some v := by
    intro is xs vs' h1 h2
    rw [moveAll_get is _ _ _ _ (h1 ▸ hn) h2]; exact hv
  cases o with
  | string s =>
    rw [step] at e
    obtain ⟨a, _, e⟩ := bind_some e
    split at e <;> cases e
    · exact ha _ _ hv
    · exact hv
  | vectorOf sz is =>
    rw [step] at e
    split at e
    · cases e; exact hv
    · rename_i xs vs hmv
      split at e
      · cases e; exact hv
      · split at e
        · cases e
        · cases e; exact ha _ _ (hm is _ _ rfl hmv)
  | arrayOf sz is =>
    rw [step] at e
    split at e
    · cases e; exact hv
    · rename_i xs vs hmv
      split at e
      · cases e; exact hv
      · split at e
        · cases e
        · cases e; exact ha _ _ (hm is _ _ rfl hmv)
  | _ =>
    rw [step] at e
    repeat' split at e
    all_goals
      first
        | cases e
        | (obtain ⟨a, _, e⟩ := bind_some e
           first
            | cases e
            | (obtain ⟨a', _, e⟩ := bind_some e
               cases e))
      try
        dsimp only
        repeat (first | exact hv | apply ha | refine hs _ _ _ (by simp [Op.names]) ?_)

/-! ### The container in the loop -/

/-- The container at variable `i` stays, with at most as many elements as there is room for. -/
theorem step_keeps {g : Policy} {p : Prog} {o : Op} {r : Prog × Bool} {i : Nat} {b : Option Nat} {c : Nat} {es : List Val}
    (hk : Keeps i o) (hv : get p.vars i = some (.vec b c es)) (hc : es.length ≤ c) (e : step g p o = .ok r) :
    ∃ es', get r.1.vars i = some (.vec b c es') ∧ es'.length ≤ c := by
  rcases hk with hn | ⟨j, rfl⟩ | rfl | rfl | ⟨k, rfl⟩ | ⟨k, j, rfl⟩
  · exact ⟨es, step_others hn hv e, hc⟩
  · rw [step, hv] at e
    split at e
    · rename_i x heq _
      cases heq
      split at e
      · cases e; exact ⟨es, hv, hc⟩
      · rename_i h
        cases e
        refine ⟨es ++ [x], ?_, ?_⟩
        · dsimp only
          rw [get_set_ne _ _ (fun e => h (.inl e.symm)), get_set _ _ _ _ _ hv, if_pos rfl]
        · rw [List.length_append, List.length_singleton]; omega
    · cases e; exact ⟨es, hv, hc⟩
  · rw [step, hv] at e
    dsimp only at e
    split at e
    · cases e; exact ⟨es, hv, hc⟩
    · obtain ⟨a, _, e⟩ := bind_some e
      cases e
      refine ⟨es.dropLast, ?_, ?_⟩
      · dsimp only; rw [get_set _ _ _ _ _ hv, if_pos rfl]
      · rw [List.length_dropLast]; omega
  · rw [step, hv] at e
    dsimp only at e
    obtain ⟨a, _, e⟩ := bind_some e
    cases e
    refine ⟨[], ?_, Nat.zero_le _⟩
    dsimp only; rw [get_set _ _ _ _ _ hv, if_pos rfl]
  · rw [step, hv] at e
    dsimp only [Val.elems] at e
    split at e
    · cases e; exact ⟨es, hv, hc⟩
    · rename_i x _
      cases e
      refine ⟨es.set k x.left, ?_, ?_⟩
      · refine get_append _ ?_
        rw [get_set _ _ _ _ _ hv, if_pos rfl]; rfl
      · rw [List.length_set]; exact hc
  · rw [step, hv] at e
    split at e
    · rename_i y heq hy
      cases heq
      dsimp only [Val.elems] at e
      split at e
      · cases e; exact ⟨es, hv, hc⟩
      · split at e
        · cases e; exact ⟨es, hv, hc⟩
        · rename_i h
          cases e
          refine ⟨es.set k y, ?_, ?_⟩
          · dsimp only
            rw [get_set_ne _ _ (fun e => h (.inl e.symm)), get_set _ _ _ _ _ hv, if_pos rfl]; rfl
          · rw [List.length_set]; exact hc
    · cases e; exact ⟨es, hv, hc⟩

theorem step_adds {g : Policy} {p : Prog} {o : Op} {r : Prog × Bool} {i : Nat} {b : Option Nat} {c : Nat} {es : List Val}
    (hk : Adds i o) (hv : get p.vars i = some (.vec b c es)) (e : step g p o = .ok r) :
    ∃ more, get r.1.vars i = some (.vec b c (es ++ more)) := by
  rcases hk with hn | ⟨j, rfl⟩
  · exact ⟨[], by rw [List.append_nil]; exact step_others hn hv e⟩
  · rw [step, hv] at e
    split at e
    · rename_i x heq _
      cases heq
      split at e
      · cases e; exact ⟨[], by rw [List.append_nil]; exact hv⟩
      · rename_i h
        cases e
        refine ⟨[x], ?_⟩
        dsimp only
        rw [get_set_ne _ _ (fun e => h (.inl e.symm)), get_set _ _ _ _ _ hv, if_pos rfl]
    · cases e; exact ⟨[], by rw [List.append_nil]; exact hv⟩

/-- An array stays, with the number of its elements. -/
theorem step_array {g : Policy} {p : Prog} {o : Op} {r : Prog × Bool} {i : Nat} {b : Option Nat} {es : List Val}
    (hk : Keeps i o) (hv : get p.vars i = some (.arr b es)) (e : step g p o = .ok r) :
    ∃ es', get r.1.vars i = some (.arr b es') ∧ es'.length = es.length := by
  rcases hk with hn | ⟨j, rfl⟩ | rfl | rfl | ⟨k, rfl⟩ | ⟨k, j, rfl⟩
  · exact ⟨es, step_others hn hv e, rfl⟩
  · rw [step, hv] at e
    split at e
    · rename_i heq _; cases heq
    · cases e; exact ⟨es, hv, rfl⟩
  · rw [step, hv] at e; cases e; exact ⟨es, hv, rfl⟩
  · rw [step, hv] at e; cases e; exact ⟨es, hv, rfl⟩
  · rw [step, hv] at e
    dsimp only [Val.elems] at e
    split at e
    · cases e; exact ⟨es, hv, rfl⟩
    · rename_i x _
      cases e
      refine ⟨es.set k x.left, ?_, ?_⟩
      · refine get_append _ ?_
        rw [get_set _ _ _ _ _ hv, if_pos rfl]; rfl
      · rw [List.length_set]
  · rw [step, hv] at e
    split at e
    · rename_i y heq hy
      cases heq
      dsimp only [Val.elems] at e
      split at e
      · cases e; exact ⟨es, hv, rfl⟩
      · split at e
        · cases e; exact ⟨es, hv, rfl⟩
        · rename_i h
          cases e
          refine ⟨es.set k y, ?_, ?_⟩
          · dsimp only
            rw [get_set_ne _ _ (fun e => h (.inl e.symm)), get_set _ _ _ _ _ hv, if_pos rfl]; rfl
          · rw [List.length_set]
    · cases e; exact ⟨es, hv, rfl⟩

/-- What every statement keeps, a sequence of statements keeps. -/
theorem run_keeps {g : Policy} {P : Prog → Prop} (ops : List Op) : ∀ (p q : Prog),
    (∀ o ∈ ops, ∀ p r, P p → step g p o = .ok r → P r.1) → P p → run g p ops = .ok q → P q := by
  induction ops with
  | nil => intro p q _ hp e; cases e; exact hp
  | cons o os ih =>
    intro p q h hp e
    rw [run] at e
    obtain ⟨a, e1, e2⟩ := bind_some e
    exact ih a.1 q (fun o ho => h o (List.mem_cons_of_mem _ ho)) (h o List.mem_cons_self p a hp e1) e2

/-! ### The loop -/

theorem indexLoop_ends {g : Policy} {i : Nat} {body : Body} (hk : ∀ k q, ∀ o ∈ body k q, Keeps i o) {b : Option Nat} {c : Nat} (fuel : Nat) :
    ∀ (k : Nat) (p : Prog) (es : List Val), get p.vars i = some (.vec b c es) → es.length ≤ c → c < k + fuel → k ≤ c →
    ∃ r, indexLoop g i body fuel k p = some r ∧ k + r.1.length ≤ c ∧
      ∀ q, r.2 = .ok q → ∃ es', get q.vars i = some (.vec b c es') ∧ es'.length ≤ k + r.1.length := by
  induction fuel with
  | zero => intro k p es _ _ h _; omega
  | succ fuel ih =>
    intro k p es hv hc hf hkc
    rw [indexLoop, hv]
    dsimp only [Option.bind_some, Val.elems]
    split
    · rename_i hlt
      rw [List.getElem?_eq_getElem hlt]
      dsimp only
      cases hr : run g p (body k p) with
      | ok q =>
        obtain ⟨es', hv', hc'⟩ := run_keeps (P := fun q => ∃ es', get q.vars i = some (.vec b c es') ∧ es'.length ≤ c) (body k p) p q
          (fun o ho p r ⟨es, h1, h2⟩ e => step_keeps (hk k _ o ho) h1 h2 e) ⟨es, hv, hc⟩ hr
        obtain ⟨r, e, h1, h2⟩ := ih (k + 1) q es' hv' hc' (by omega) (by omega)
        dsimp only
        rw [e]
        refine ⟨_, rfl, by dsimp only; rw [List.length_cons]; omega, fun q hq => ?_⟩
        obtain ⟨es'', h3, h4⟩ := h2 q hq
        exact ⟨es'', h3, by dsimp only; rw [List.length_cons]; omega⟩
      | throws => exact ⟨_, rfl, by simp; omega, fun q h => by cases h⟩
      | terminate => exact ⟨_, rfl, by simp; omega, fun q h => by cases h⟩
      | ub => exact ⟨_, rfl, by simp; omega, fun q h => by cases h⟩
    · rename_i hlt
      exact ⟨_, rfl, by simpa using hkc, fun q h => by cases h; exact ⟨es, hv, by simp; omega⟩⟩

/-- **C151** (full): a loop by index over a vector ends, after at most as many rounds as the vector has room for elements, whatever its body adds to
the vector, removes from it or exchanges in it, and whatever it does elsewhere; and no element of the vector in the end lies behind the places that
were visited. -/
theorem C151_ends (g : Policy) (i : Nat) (body : Body) (hk : ∀ k q, ∀ o ∈ body k q, Keeps i o) (p : Prog) (b : Option Nat) (c : Nat)
    (es : List Val) (hv : get p.vars i = some (.vec b c es)) (hc : es.length ≤ c) (fuel : Nat) (hf : c < fuel) :
    ∃ r, indexLoop g i body fuel 0 p = some r ∧ r.1.length ≤ c ∧
      ∀ q, r.2 = .ok q → ∃ es', get q.vars i = some (.vec b c es') ∧ es'.length ≤ r.1.length := by
  obtain ⟨r, h1, h2, h3⟩ := indexLoop_ends (g := g) hk fuel 0 p es hv hc (by omega) (Nat.zero_le _)
  rw [Nat.zero_add] at h2
  refine ⟨r, h1, h2, fun q hq => ?_⟩
  have := h3 q hq
  rw [Nat.zero_add] at this
  exact this

theorem indexLoop_array {g : Policy} {i : Nat} {body : Body} (hk : ∀ k q, ∀ o ∈ body k q, Keeps i o) {b : Option Nat} {n : Nat} (fuel : Nat) :
    ∀ (k : Nat) (p : Prog) (es : List Val), get p.vars i = some (.arr b es) → es.length = n → n < k + fuel → k ≤ n →
    ∃ r, indexLoop g i body fuel k p = some r ∧
      ∀ q, r.2 = .ok q → k + r.1.length = n ∧ ∃ es', get q.vars i = some (.arr b es') ∧ es'.length = n := by
  induction fuel with
  | zero => intro k p es _ _ h _; omega
  | succ fuel ih =>
    intro k p es hv hc hf hkc
    rw [indexLoop, hv]
    dsimp only [Option.bind_some, Val.elems]
    split
    · rename_i hlt
      rw [List.getElem?_eq_getElem hlt]
      dsimp only
      cases hr : run g p (body k p) with
      | ok q =>
        obtain ⟨es', hv', hc'⟩ := run_keeps (P := fun q => ∃ es', get q.vars i = some (.arr b es') ∧ es'.length = n) (body k p) p q
          (fun o ho p r ⟨es, h1, h2⟩ e => by
            obtain ⟨es', h3, h4⟩ := step_array (hk k _ o ho) h1 e
            exact ⟨es', h3, h4.trans h2⟩) ⟨es, hv, hc⟩ hr
        obtain ⟨r, e, h2⟩ := ih (k + 1) q es' hv' hc' (by omega) (by omega)
        dsimp only
        rw [e]
        refine ⟨_, rfl, fun q hq => ?_⟩
        obtain ⟨h3, h4⟩ := h2 q hq
        exact ⟨by dsimp only; rw [List.length_cons]; omega, h4⟩
      | throws => exact ⟨_, rfl, fun q h => by cases h⟩
      | terminate => exact ⟨_, rfl, fun q h => by cases h⟩
      | ub => exact ⟨_, rfl, fun q h => by cases h⟩
    · rename_i hlt
      exact ⟨_, rfl, fun q h => by cases h; exact ⟨by simp; omega, es, hv, hc⟩⟩

/-- **C151** (full): a loop by index over an array has one round for each element, whatever its body exchanges in the array and does elsewhere. -/
theorem C151_array (g : Policy) (i : Nat) (body : Body) (hk : ∀ k q, ∀ o ∈ body k q, Keeps i o) (p : Prog) (b : Option Nat)
    (es : List Val) (hv : get p.vars i = some (.arr b es)) (fuel : Nat) (hf : es.length < fuel) :
    ∃ r, indexLoop g i body fuel 0 p = some r ∧ ∀ q, r.2 = .ok q → r.1.length = es.length := by
  obtain ⟨r, h1, h2⟩ := indexLoop_array (g := g) hk fuel 0 p es hv rfl (by omega) (Nat.zero_le _)
  refine ⟨r, h1, fun q hq => ?_⟩
  have := (h2 q hq).1
  omega

theorem indexLoop_adds {g : Policy} {i : Nat} {body : Body} (hk : ∀ k q, ∀ o ∈ body k q, Adds i o) {b : Option Nat} {c : Nat} (fuel : Nat) :
    ∀ (k : Nat) (p : Prog) (es : List Val), get p.vars i = some (.vec b c es) → k ≤ es.length → ∀ r q, indexLoop g i body fuel k p = some r →
    r.2 = .ok q → ∃ more, get q.vars i = some (.vec b c (es ++ more)) ∧ (es ++ more).drop k = r.1 := by
  induction fuel with
  | zero => intro k p es _ _ r q h; cases h
  | succ fuel ih =>
    intro k p es hv hkl r q h hq
    rw [indexLoop, hv] at h
    dsimp only [Option.bind_some, Val.elems] at h
    split at h
    · rename_i hlt
      rw [List.getElem?_eq_getElem hlt] at h
      dsimp only at h
      cases hr : run g p (body k p) with
      | ok q1 =>
        rw [hr] at h
        dsimp only at h
        obtain ⟨m1, hv'⟩ := run_keeps (P := fun q => ∃ more, get q.vars i = some (.vec b c (es ++ more))) (body k p) p q1
          (fun o ho p r ⟨m, h1⟩ e => by
            obtain ⟨m', h3⟩ := step_adds (hk k _ o ho) h1 e
            exact ⟨m ++ m', by rw [← List.append_assoc]; exact h3⟩) ⟨[], by rw [List.append_nil]; exact hv⟩ hr
        cases hi : indexLoop g i body fuel (k + 1) q1 with
        | none => rw [hi] at h; cases h
        | some r1 =>
          rw [hi] at h
          cases h
          obtain ⟨m2, h1, h2⟩ := ih (k + 1) q1 (es ++ m1) hv' (by rw [List.length_append]; omega) r1 q hi hq
          refine ⟨m1 ++ m2, by rw [← List.append_assoc]; exact h1, ?_⟩
          rw [← List.append_assoc]
          have hl : k < (es ++ m1 ++ m2).length := by rw [List.length_append, List.length_append]; omega
          rw [List.drop_eq_getElem_cons hl, h2]
          congr 1
          rw [List.getElem_append_left (by rw [List.length_append]; omega), List.getElem_append_left hlt]
      | throws => rw [hr] at h; cases h; cases hq
      | terminate => rw [hr] at h; cases h; cases hq
      | ub => rw [hr] at h; cases h; cases hq
    · rename_i hlt
      cases h
      cases hq
      refine ⟨[], by rw [List.append_nil]; exact hv, ?_⟩
      rw [List.append_nil]
      exact List.drop_eq_nil_of_le (by omega)

/-- **C151** (full): a loop by index over a vector whose body adds elements to it visits exactly the elements that the vector has in the end, in order:
those it had in the beginning, and all that were added. (A range `for` visits the first of these only: C147.) -/
theorem C151_adds (g : Policy) (i : Nat) (body : Body) (hk : ∀ k q, ∀ o ∈ body k q, Adds i o) (p q : Prog) (b : Option Nat) (c fuel : Nat)
    (es visited : List Val) (hv : get p.vars i = some (.vec b c es)) (h : indexLoop g i body fuel 0 p = some (visited, .ok q)) :
    get q.vars i = some (.vec b c visited) ∧ ∃ more, visited = es ++ more := by
  obtain ⟨more, h1, h2⟩ := indexLoop_adds hk fuel 0 p es hv (Nat.zero_le _) _ q h rfl
  rw [List.drop_zero] at h2
  dsimp only at h2
  subst h2
  exact ⟨h1, more, rfl⟩

/-! ### Nothing undefined -/

theorem tame_step {g : Policy} {p : Prog} {o : Op} (hi : Inv p) (ht : Tame o) : ∃ r, step g p o = .ok r ∧ Inv r.1 := by
  have hb : ¬ Bad (Granted g p.heap) p.vars o := by cases o <;> simp_all [Bad, Tame]
  have hd : ¬ Doubled p.vars o := by cases o <;> simp_all [Doubled, Tame]
  obtain ⟨q, b, e, h, _⟩ := (C132_step_partial g p hi o).2 hb
  exact ⟨(q, b), e, h hd⟩

theorem tame_run {g : Policy} (ops : List Op) : ∀ (p : Prog), Inv p → (∀ o ∈ ops, Tame o) → ∃ q, run g p ops = .ok q ∧ Inv q := by
  induction ops with
  | nil => intro p hi _; exact ⟨p, rfl, hi⟩
  | cons o os ih =>
    intro p hi ht
    obtain ⟨r, e, hr⟩ := tame_step (g := g) hi (ht o List.mem_cons_self)
    obtain ⟨q, e2, hq⟩ := ih r.1 hr fun o ho => ht o (List.mem_cons_of_mem _ ho)
    exact ⟨q, by rw [run, e]; exact e2, hq⟩

theorem indexLoop_safe {g : Policy} {i : Nat} {body : Body} (hk : ∀ k q, ∀ o ∈ body k q, Keeps i o) (ht : ∀ k q, ∀ o ∈ body k q, Tame o)
    {b : Option Nat} {c : Nat} (fuel : Nat) : ∀ (k : Nat) (p : Prog) (es : List Val), Inv p → get p.vars i = some (.vec b c es) →
    es.length ≤ c → ∀ r, indexLoop g i body fuel k p = some r → ∃ q, r.2 = .ok q ∧ Inv q := by
  induction fuel with
  | zero => intro k p es _ _ _ r h; cases h
  | succ fuel ih =>
    intro k p es hi hv hc r h
    rw [indexLoop, hv] at h
    dsimp only [Option.bind_some, Val.elems] at h
    split at h
    · rename_i hlt
      rw [List.getElem?_eq_getElem hlt] at h
      dsimp only at h
      obtain ⟨q, hr, hq⟩ := tame_run (g := g) (body k p) p hi (ht k p)
      obtain ⟨es', hv', hc'⟩ := run_keeps (P := fun q => ∃ es', get q.vars i = some (.vec b c es') ∧ es'.length ≤ c) (body k p) p q
        (fun o ho p r ⟨es, h1, h2⟩ e => step_keeps (hk k _ o ho) h1 h2 e) ⟨es, hv, hc⟩ hr
      rw [hr] at h
      dsimp only at h
      split at h
      · cases h
      · rename_i r1 hr1
        cases h
        exact ih (k + 1) q es' hq hv' hc' r1 hr1
    · cases h; exact ⟨p, rfl, hi⟩

/-- **C151** (full), safety: with such a body of statements that are defined everywhere, the loop ends with every block of memory owned once - also if
the body removes elements of the vector, where a range `for` reads destroyed objects (C147_pop, C147_clear). -/
theorem C151_safe (g : Policy) (i : Nat) (body : Body) (hk : ∀ k q, ∀ o ∈ body k q, Keeps i o) (ht : ∀ k q, ∀ o ∈ body k q, Tame o) (p : Prog)
    (hi : Inv p) (b : Option Nat) (c : Nat) (es : List Val) (hv : get p.vars i = some (.vec b c es)) (hc : es.length ≤ c) :
    ∃ visited q, indexLoop g i body (c + 1) 0 p = some (visited, .ok q) ∧ Inv q ∧ visited.length ≤ c := by
  obtain ⟨r, h1, h2, _⟩ := C151_ends g i body hk p b c es hv hc (c + 1) (Nat.lt_succ_self _)
  obtain ⟨q, h3, h4⟩ := indexLoop_safe hk ht (c + 1) 0 p es hi hv hc r h1
  exact ⟨r.1, q, by rw [h1, ← h3], h4, h2⟩

/-! ### Bodies that remove an element, or add one, in every round -/

theorem indexLoop_pop {g : Policy} {i : Nat} {b : Option Nat} {c : Nat} (fuel : Nat) : ∀ (k : Nat) (p : Prog) (es : List Val), Inv p →
    get p.vars i = some (.vec b c es) → k ≤ es.length + 1 → es.length + 1 < k + 2 * fuel → 0 < fuel →
    ∃ q, indexLoop g i (fun _ _ => [.pop i]) fuel k p = some ((es.take ((k + es.length + 1) / 2)).drop k, .ok q) ∧
      get q.vars i = some (.vec b c (es.take ((k + es.length) / 2))) := by
  induction fuel with
  | zero => intro k p es _ _ _ _ h; cases h
  | succ fuel ih =>
    intro k p es hi hv hk hf _
    rw [indexLoop, hv]
    dsimp only [Option.bind_some, Val.elems]
    split
    · rename_i hlt
      have hne : es ≠ [] := by intro h; rw [h] at hlt; cases hlt
      obtain ⟨q, e, hq, hg⟩ := pop_step (g := g) hi hv hne
      have hr : run g p [.pop i] = .ok q := by rw [run, e]; rfl
      rw [List.getElem?_eq_getElem hlt, hr]
      dsimp only
      have hfu : 0 < fuel ∨ fuel = 0 := by omega
      rcases hfu with hfu | rfl
      · obtain ⟨q', e', h'⟩ := ih (k + 1) q es.dropLast hq hg (by rw [List.length_dropLast]; omega) (by rw [List.length_dropLast]; omega) hfu
        rw [e']
        refine ⟨q', ?_, ?_⟩
        · dsimp only
          congr 2
          have hl : es.dropLast.length = es.length - 1 := List.length_dropLast
          have hsum : k + 1 + es.dropLast.length + 1 = k + es.length + 1 := by omega
          rw [hsum]
          have hm : k < (es.take ((k + es.length + 1) / 2)).length := by rw [List.length_take]; omega
          rw [List.drop_eq_getElem_cons hm, List.getElem_take]
          congr 1
          rw [List.dropLast_eq_take, List.take_take]
          by_cases hx : (k + es.length + 1) / 2 ≤ es.length - 1
          · rw [Nat.min_eq_left hx]
          · rw [List.drop_eq_nil_of_le (by rw [List.length_take]; omega), List.drop_eq_nil_of_le (by rw [List.length_take]; omega)]
        · have hl : es.dropLast.length = es.length - 1 := List.length_dropLast
          have hsum : k + 1 + es.dropLast.length = k + es.length := by omega
          rw [h', hsum, List.dropLast_eq_take, List.take_take, Nat.min_eq_left (by omega)]
      · omega
    · rename_i hlt
      refine ⟨p, ?_, ?_⟩
      · rw [List.drop_eq_nil_of_le (by rw [List.length_take]; omega)]
      · rw [hv, List.take_of_length_le (by omega)]

/-- **C151** (full): a loop by index that removes the last element in every round visits the first half of the elements (the one in the middle too) and
leaves the other places: the first half without the one in the middle. -/
theorem C151_pop (g : Policy) (p : Prog) (hi : Inv p) (i : Nat) (b : Option Nat) (c : Nat) (es : List Val)
    (hv : get p.vars i = some (.vec b c es)) (fuel : Nat) (hf : es.length < fuel) :
    ∃ q, indexLoop g i (fun _ _ => [.pop i]) fuel 0 p = some (es.take ((es.length + 1) / 2), .ok q) ∧
      get q.vars i = some (.vec b c (es.take (es.length / 2))) := by
  obtain ⟨q, h1, h2⟩ := indexLoop_pop (g := g) fuel 0 p es hi hv (Nat.zero_le _) (by omega) (by omega)
  rw [Nat.zero_add, List.drop_zero] at h1
  rw [Nat.zero_add] at h2
  exact ⟨q, h1, h2⟩

theorem grow_round {g : Policy} {p : Prog} {i : Nat} {b : Option Nat} {c : Nat} {es : List Val} (hv : get p.vars i = some (.vec b c es)) :
    ∃ q, run g p [.fresh .str, .push i p.vars.length] = .ok q ∧
      get q.vars i = some (.vec b c (if es.length < c then es ++ [.str .empty] else es)) := by
  have hl := (List.getElem?_eq_some_iff.mp (get_eq hv)).1
  have h1 : step g p (.fresh .str) = .ok (⟨p.heap, p.vars ++ [some (.str .empty)]⟩, true) := rfl
  have hv1 : get (p.vars ++ [some (.str .empty)]) i = some (.vec b c es) := get_append _ hv
  have hx : get (p.vars ++ [some (.str .empty)]) p.vars.length = some (.str .empty) := by
    rw [get, List.getElem?_append_right (Nat.le_refl _), Nat.sub_self]; rfl
  obtain ⟨ha, hb⟩ := C132_push g ⟨p.heap, p.vars ++ [some (.str .empty)]⟩ i p.vars.length b c es _ (by omega) hv1 hx
  by_cases hc : es.length < c
  · obtain ⟨q, e, _, hq, _⟩ := ha hc
    refine ⟨q, ?_, by rw [if_pos hc]; exact hq⟩
    rw [run, h1]
    show run g _ _ = _
    rw [run, e]; rfl
  · refine ⟨⟨p.heap, p.vars ++ [some (.str .empty)]⟩, ?_, by rw [if_neg hc]; exact hv1⟩
    rw [run, h1]
    show run g _ _ = _
    rw [run, hb (by omega)]; rfl

theorem indexLoop_push {g : Policy} {i : Nat} {b : Option Nat} {c : Nat} (fuel : Nat) : ∀ (k : Nat) (p : Prog) (es : List Val),
    get p.vars i = some (.vec b c es) → es.length ≤ c → k < es.length ∨ (k = c ∧ es.length = c) → c < k + fuel →
    ∃ visited q, indexLoop g i (fun _ q => [.fresh .str, .push i q.vars.length]) fuel k p = some (visited, .ok q) ∧ k + visited.length = c := by
  induction fuel with
  | zero => intro k p es _ _ _ _; omega
  | succ fuel ih =>
    intro k p es hv hc hk hf
    rw [indexLoop, hv]
    dsimp only [Option.bind_some, Val.elems]
    split
    · rename_i hlt
      obtain ⟨q, e, hg⟩ := grow_round (g := g) hv
      rw [List.getElem?_eq_getElem hlt, e]
      dsimp only
      obtain ⟨v, q', e', h'⟩ := ih (k + 1) q _ hg (by split <;> (try simp only [List.length_append, List.length_singleton]) <;> omega)
        (by split <;> (try simp only [List.length_append, List.length_singleton]) <;> omega) (by omega)
      rw [e']
      exact ⟨_, q', rfl, by show k + (v.length + 1) = c; omega⟩
    · exact ⟨[], p, rfl, by simp; omega⟩

/-- **C151** (full): a loop by index that adds an element in every round has no round for a vector without elements, and otherwise exactly as many as
there is room for elements. -/
theorem C151_push (g : Policy) (p : Prog) (i : Nat) (b : Option Nat) (c : Nat) (es : List Val) (hv : get p.vars i = some (.vec b c es))
    (hc : es.length ≤ c) (fuel : Nat) (hf : c < fuel) :
    ∃ visited q, indexLoop g i (fun _ q => [.fresh .str, .push i q.vars.length]) fuel 0 p = some (visited, .ok q) ∧
      visited.length = if es = [] then 0 else c := by
  by_cases h : es = []
  · subst h
    obtain ⟨f, rfl⟩ : ∃ f, fuel = f + 1 := ⟨fuel - 1, by omega⟩
    refine ⟨[], p, ?_, by simp⟩
    rw [indexLoop, hv]; rfl
  · have := List.length_pos_iff.mpr h
    obtain ⟨v, q, e, hl⟩ := indexLoop_push (g := g) fuel 0 p es hv hc (.inl this) (by omega)
    exact ⟨v, q, e, by rw [if_neg h]; omega⟩

/-! ### Taking all elements out -/

/-- **C151** (full): `while (!v.empty()) v.pop_back()` is `v.clear()`: the same objects are destroyed in the same order, with the same end. -/
theorem C151_drain (g : Policy) (i : Nat) (b : Option Nat) (c : Nat) (n : Nat) : ∀ (p : Prog) (es : List Val), es.length = n →
    get p.vars i = some (.vec b c es) → ∀ fuel, n < fuel → drain g i fuel p = some (step g p (.clear i) >>= fun r => .ok r.1) := by
  induction n with
  | zero =>
    intro p es hl hv fuel hf
    have : es = [] := List.length_eq_zero_iff.mp hl
    subst this
    obtain ⟨f, rfl⟩ : ∃ f, fuel = f + 1 := ⟨fuel - 1, by omega⟩
    have hs : p.vars.set i (some (.vec b c [])) = p.vars := by
      apply List.ext_getElem?
      intro j
      rw [List.getElem?_set]
      split
      · rename_i h
        subst h
        rw [get_eq hv]
        have := (List.getElem?_eq_some_iff.mp (get_eq hv)).1
        simp [this]
      · rfl
    rw [drain, hv]
    dsimp only [Option.bind_some, Val.elems]
    rw [if_pos List.length_nil, step, hv]
    dsimp only
    rw [List.reverse_nil, dropAll]
    show some (Outcome.ok p) = some (Outcome.ok _)
    rw [hs]
  | succ n ih =>
    intro p es hl hv fuel hf
    have hne : es ≠ [] := by intro h; rw [h] at hl; cases hl
    obtain ⟨f, rfl⟩ : ∃ f, fuel = f + 1 := ⟨fuel - 1, by omega⟩
    rw [drain]
    conv => rhs; rw [step]
    rw [step, hv]
    dsimp only [Option.bind_some, Val.elems]
    rw [if_neg (by omega), List.getLast?_eq_some_getLast hne]
    have hrev : es.reverse = es.getLast hne :: es.dropLast.reverse := by
      conv => lhs; rw [← List.dropLast_concat_getLast hne]
      rw [List.reverse_append]; rfl
    rw [hrev, dropAll]
    dsimp only
    cases hd : drop (es.getLast hne) p.heap with
    | ok h =>
      have hg : get (p.vars.set i (some (.vec b c es.dropLast))) i = some (.vec b c es.dropLast) := by
        rw [get_set _ _ _ _ _ hv, if_pos rfl]
      have := ih ⟨h, p.vars.set i (some (.vec b c es.dropLast))⟩ es.dropLast (by rw [List.length_dropLast]; omega) hg f (by omega)
      show drain g i f ⟨h, _⟩ = _
      rw [this, step, hg]
      dsimp only
      rw [List.set_set]
      rfl
    | throws => rfl
    | terminate => rfl
    | ub => rfl

/-! ### Examples -/

theorem two_state : ∃ p, run (refusing []) init two = .ok p ∧ Inv p ∧ ∃ b es, es.length = 2 ∧ get p.vars 0 = some (.vec (some b) 4 es) := by
  have hshape : (match run (refusing []) init two with
      | .ok p => (match get p.vars 0 with
        | some (.vec (some _) c es) => decide (c = 4 ∧ es.length = 2)
        | _ => false)
      | _ => false) = true := by decide +kernel
  rcases C132_program_partial (refusing []) two with ⟨q, e, hi⟩ | ⟨before, o, after, p, he, hr, _, hbad⟩
  · rw [e] at hshape
    dsimp only at hshape
    split at hshape
    · rename_i b c es hv
      obtain ⟨rfl, hl⟩ := of_decide_eq_true hshape
      exact ⟨q, e, hi, b, es, hl, hv⟩
    · cases hshape
  · exfalso
    have : o ∈ two := by rw [he]; simp
    simp only [two, List.mem_cons, List.not_mem_nil, or_false] at this
    rcases this with rfl | rfl | rfl | rfl | rfl <;> exact hbad.elim id id

/-- The hypotheses of `C151_ends`, `C151_safe`, `C151_pop`, `C151_push` and `C151_drain` are met: loops over a vector of two strings with room for four.
Removing the last element in every round has one round, adding one in every round has four. -/
example : ∃ p, Inv p ∧
    (∃ x q, indexLoop (refusing []) 0 (fun _ _ => [.pop 0]) 3 0 p = some ([x], .ok q)) ∧
    (∃ v q, indexLoop (refusing []) 0 (fun _ q => [.fresh .str, .push 0 q.vars.length]) 5 0 p = some (v, .ok q) ∧ v.length = 4) ∧
    (∃ v q, indexLoop (refusing []) 0 (fun _ _ => [.clear 0]) 5 0 p = some (v, .ok q) ∧ Inv q) ∧
    drain (refusing []) 0 3 p = some (step (refusing []) p (.clear 0) >>= fun r => .ok r.1) := by
  obtain ⟨p, _, hi, b, es, hl, hv⟩ := two_state
  refine ⟨p, hi, ?_, ?_, ?_, C151_drain _ 0 _ 4 2 p es hl hv 3 (by omega)⟩
  · obtain ⟨q, h, _⟩ := C151_pop (refusing []) p hi 0 _ 4 es hv 3 (by omega)
    match es, hl with
    | [x, _], _ => exact ⟨x, q, by simpa using h⟩
  · obtain ⟨v, q, h, hv⟩ := C151_push (refusing []) p 0 _ 4 es hv (by omega) 5 (by omega)
    rw [if_neg (by intro h; rw [h] at hl; cases hl)] at hv
    exact ⟨v, q, h, hv⟩
  · obtain ⟨v, q, h, hq, _⟩ := C151_safe (refusing []) 0 (fun _ _ => [.clear 0])
      (fun _ _ o ho => .inr (.inr (.inr (.inl (List.mem_singleton.mp ho))))) (fun _ _ o ho => by cases List.mem_singleton.mp ho; trivial)
      p hi _ 4 es hv (by omega)
    exact ⟨v, q, h, hq⟩

/-- The hypotheses of `C151_adds` are met, by a body that adds an element in the first round only: three are visited. -/
example : (match run (refusing []) init two with
    | .ok p =>
      (match indexLoop (refusing []) 0 (fun k _ => if k = 0 then [.string [0x63#8], .push 0 3] else []) 5 0 p with
      | some (v, .ok q) => decide (v.length = 3 ∧ q.vars.length = 4)
      | _ => false)
    | _ => false) = true := by decide +kernel

/-- The hypotheses of `C151_array` are met, by a body that stores a string over the element it visits. -/
example : (match run (refusing []) init [.array 32 3 .str] with
    | .ok p =>
      (match indexLoop (refusing []) 0 (fun k q => [.string [0x63#8], .store 0 k q.vars.length]) 4 0 p with
      | some (v, .ok q) => decide (v.length = 3 ∧ q.vars.length = 4)
      | _ => false)
    | _ => false) = true := by decide +kernel

/-- **C151** (the negation for bodies that end the variable): a round that finds the variable gone, or no container in it, is undefined; so the
condition on the bodies cannot be dropped. -/
theorem C151_gone (g : Policy) (i : Nat) (body : Body) (p q : Prog) (es : List Val) (x : Val) (fuel : Nat)
    (hv : (get p.vars i).bind Val.elems = some es) (hx : es[0]? = some x) (hr : run g p (body 0 p) = .ok q)
    (hg : (get q.vars i).bind Val.elems = none) : indexLoop g i body (fuel + 2) 0 p = some ([x], .ub) := by
  have hl : 0 < es.length := by
    cases es with
    | nil => cases hx
    | cons => exact Nat.zero_lt_succ _
  rw [indexLoop, hv]
  dsimp only
  rw [if_pos hl, hx]
  dsimp only
  rw [hr]
  dsimp only
  rw [indexLoop, hg]

/-- A body that ends the variable it runs over. -/
example : (match run (refusing []) init two with
    | .ok p =>
      ((get p.vars 0).bind Val.elems).isSome &&
      (match run (refusing []) p [.destroy 0] with
      | .ok q => ((get q.vars 0).bind Val.elems).isNone
      | _ => false) &&
      (match indexLoop (refusing []) 0 (fun _ _ => [.destroy 0]) 3 0 p with
      | some (v, .ub) => decide (v.length = 1)
      | _ => false)
    | _ => false) = true := by decide +kernel

end Solace.Nested
