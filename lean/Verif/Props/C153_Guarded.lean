import Verif.Props.C153_Threads
/-
C153, continued: calls under one mutex.
-/
namespace Solace.Threads

/-- Uses shared objects only while it holds the mutex (`b`: it holds it now), and ends without it. -/
inductive Held : Bool → Code → Prop where
  | stop : Held false .stop
  | rd {l : Loc} {k : Nat → Code} : (∀ v, Held true (k v)) → Held true (.rd l k)
  | wr {l : Loc} {v : Nat} {k : Code} : Held true k → Held true (.wr l v k)
  | acq {k : Code} : Held true k → Held false (.acq k)
  | rel {k : Code} : Held false k → Held true (.rel k)
  | out {b : Bool} {r : Res} {k : Code} : Held b k → Held b (.out r k)

theorem findFrom_held (id : Nat) (k : Code) (h : Held true k) (left : Nat) : ∀ i, Held true (findFrom id k left i) := by
  induction left with
  | zero => intro i; rw [findFrom]; exact .out h
  | succ n ih =>
    intro i
    rw [findFrom]
    refine .rd fun v => ?_
    split
    · exact .rd fun _ => .out h
    · exact ih _

theorem emplace_held (pos : Loc) (slot : Nat → Loc) (v : Nat) {full done : Code} (hf : Held true full) (hd : Held true done) :
    Held true (emplace pos slot v full done) := by
  rw [emplace]
  refine .rd fun p => ?_
  split
  · exact hf
  · refine .rd fun q => ?_
    split
    · exact hf
    · exact .wr (.rd fun _ => .wr hd)

theorem code_held (c : Call) (k : Code) (h : Held true k) : Held true (code c k) := by
  cases c with
  | allocate n given =>
    rw [code]
    refine .rd fun c => .rd fun s => ?_
    split
    · exact .out h
    · refine .rd fun l => ?_
      split
      · exact .out h
      · split
        · exact .out h
        · exact .rd fun _ => .wr (.out h)
  | free n => rw [code]; exact .rd fun _ => .wr (.out h)
  | lock => rw [code]; exact .wr (.out h)
  | unlock => rw [code]; exact .wr (.out h)
  | isLocked => rw [code]; exact .rd fun _ => .out h
  | limit => rw [code]; exact .rd fun _ => .rd fun _ => .out h
  | size => rw [code]; exact .rd fun _ => .out h
  | register id d =>
    rw [code]
    have o : Held true (.rd .valuesPos fun p => .out (.num (wrap32 p)) k) := .rd fun _ => .out h
    refine emplace_held _ _ _ o (emplace_held _ _ _ (.rd fun p => ?_) o)
    split
    · exact o
    · exact .rd fun _ => .wr (.rd fun _ => o)
  | find id => rw [code]; exact .rd fun _ => .rd fun _ => .rd fun n => findFrom_held id k h n 0
  | own r => rw [code]; exact .out h

/-- Every call that uses what the threads share is made under the mutex. -/
def Guards (cs : List (Bool × Call)) : Prop := ∀ x ∈ cs, x.1 = true ∨ ∃ r, x.2 = .own r

theorem compile_held (cs : List (Bool × Call)) (h : Guards cs) : Held false (compile cs) := by
  induction cs with
  | nil => exact .stop
  | cons x cs ih =>
    obtain ⟨b, c⟩ := x
    have ih := ih fun y hy => h y (List.mem_cons_of_mem _ hy)
    cases b with
    | true => rw [compile]; exact .acq (code_held c _ (.rel ih))
    | false =>
      rcases h (false, c) (List.mem_cons_self ..) with h | ⟨r, h⟩
      · cases h
      · dsimp only at h
        subst h
        rw [compile, code]
        exact .out ih

/-- Who holds the mutex after the events. -/
def holder : List Event → Option Nat
  | es => es.foldl (fun o e => match e.act with | .acq => some e.tid | .rel => none | _ => o) none

/-- Every event is one that the mutex allows. -/
def Orderly (tr : List Event) : Prop :=
  ∀ (i : Nat) (e : Event), tr[i]? = some e → match e.act with
    | .acq => holder (tr.take i) = none
    | _ => holder (tr.take i) = some e.tid

theorem holder_snoc (tr : List Event) (e : Event) :
    holder (tr ++ [e]) = match e.act with | .acq => some e.tid | .rel => none | _ => holder tr := by
  rw [holder, List.foldl_append, List.foldl_cons, List.foldl_nil]
  rfl

theorem orderly_snoc {tr : List Event} {e : Event} (h : Orderly tr)
    (he : match e.act with | .acq => holder tr = none | _ => holder tr = some e.tid) : Orderly (tr ++ [e]) := by
  intro i f hf
  by_cases hi : i < tr.length
  · rw [List.getElem?_append_left hi] at hf
    rw [List.take_append_of_le_length (Nat.le_of_lt hi)]
    exact h i f hf
  · have hl : i = tr.length := by
      have := (List.getElem?_eq_some_iff.mp hf).1
      rw [List.length_append, List.length_singleton] at this
      omega
    subst hl
    rw [List.getElem?_append_right (Nat.le_refl _), Nat.sub_self] at hf
    cases hf
    rw [List.take_append_of_le_length (Nat.le_refl _), List.take_length]
    exact he

/-- What executions of such threads keep. -/
def Kept (c : Config) (tr : List Event) : Prop :=
  (∀ t, Held (decide (c.owner = some t)) (c.codes t)) ∧ holder tr = c.owner ∧ Orderly tr

theorem step_kept {c : Config} {tr : List Event} (h : Kept c tr) (t : Nat) : Kept (step c t).1 (tr ++ (step c t).2) := by
  obtain ⟨h1, h2, h3⟩ := h
  have ht := h1 t
  have key : ∀ k, Held (decide (c.owner = some t)) k → ∀ u, Held (decide (c.owner = some u)) (upd c.codes t k u) := by
    intro k hk u
    rw [upd]
    split
    · rename_i hu; subst hu; exact hk
    · exact h1 u
  rw [step]
  cases hc : c.codes t with
  | stop => simpa using ⟨h1, h2, h3⟩
  | rd l k =>
    rw [hc] at ht
    obtain ⟨ho, hk⟩ : decide (c.owner = some t) = true ∧ ∀ v, Held true (k v) := by
      generalize decide (c.owner = some t) = b at ht
      cases ht with
      | rd hk => exact ⟨rfl, hk⟩
    exact ⟨key _ (ho ▸ hk _), by rw [holder_snoc]; exact h2, orderly_snoc h3 (h2.trans (of_decide_eq_true ho))⟩
  | wr l v k =>
    rw [hc] at ht
    obtain ⟨ho, hk⟩ : decide (c.owner = some t) = true ∧ Held true k := by
      generalize decide (c.owner = some t) = b at ht
      cases ht with
      | wr hk => exact ⟨rfl, hk⟩
    exact ⟨key _ (ho ▸ hk), by rw [holder_snoc]; exact h2, orderly_snoc h3 (h2.trans (of_decide_eq_true ho))⟩
  | acq k =>
    rw [hc] at ht
    dsimp only
    split
    · rename_i ho
      have hk : Held true k := by
        rw [ho] at ht
        cases ht with
        | acq hk => exact hk
      refine ⟨fun u => ?_, by rw [holder_snoc], orderly_snoc h3 (h2.trans ho)⟩
      dsimp only
      rw [upd]
      split
      · rename_i hu; subst hu; simpa using hk
      · rename_i hu
        have := h1 u
        rw [ho] at this
        simpa [show t ≠ u from fun e => hu e.symm] using this
    · simpa using ⟨h1, h2, h3⟩
  | rel k =>
    rw [hc] at ht
    obtain ⟨ho, hk⟩ : decide (c.owner = some t) = true ∧ Held false k := by
      generalize decide (c.owner = some t) = b at ht
      cases ht with
      | rel hk => exact ⟨rfl, hk⟩
    have ho := of_decide_eq_true ho
    refine ⟨fun u => ?_, by rw [holder_snoc], orderly_snoc h3 (h2.trans ho)⟩
    dsimp only
    rw [upd]
    split
    · simpa using hk
    · rename_i hu
      have := h1 u
      rw [ho] at this
      simpa [show t ≠ u from fun e => hu e.symm] using this
  | out r k =>
    rw [hc] at ht
    have hk : Held (decide (c.owner = some t)) k := by
      generalize decide (c.owner = some t) = b at ht
      cases ht with
      | out hk => exact hk
    have := key _ hk
    simpa using ⟨this, h2, h3⟩

/-- The holder after one more event. -/
theorem holder_take {tr : List Event} {j : Nat} {e : Event} (h : tr[j]? = some e) :
    holder (tr.take (j + 1)) = match e.act with | .acq => some e.tid | .rel => none | _ => holder (tr.take j) := by
  have : tr.take (j + 1) = tr.take j ++ [e] := by rw [List.take_add_one, h]; rfl
  rw [this, holder_snoc]

/-- Who comes to hold the mutex has acquired it. -/
theorem acquired {tr : List Event} (i u : Nat) (hi : holder (tr.take i) ≠ some u) (j : Nat) :
    i ≤ j → j ≤ tr.length → holder (tr.take j) = some u → ∃ a, i ≤ a ∧ a < j ∧ tr[a]? = some ⟨u, .acq⟩ := by
  induction j with
  | zero => intro h1 _ h2; have : i = 0 := by omega
            subst this; exact absurd h2 hi
  | succ j ih =>
    intro h1 hl h2
    by_cases hij : i = j + 1
    · subst hij; exact absurd h2 hi
    have hj : tr[j]? = some tr[j] := List.getElem?_eq_getElem (by omega)
    rw [holder_take hj] at h2
    have rest : holder (tr.take j) = some u → ∃ a, i ≤ a ∧ a < j + 1 ∧ tr[a]? = some ⟨u, .acq⟩ := fun h => by
      obtain ⟨a, x, y, z⟩ := ih (by omega) (by omega) h
      exact ⟨a, x, by omega, z⟩
    cases he : tr[j].act with
    | acq =>
      rw [he] at h2
      refine ⟨j, by omega, by omega, ?_⟩
      rw [hj, ← Option.some.inj h2, ← he]
    | rel => rw [he] at h2; cases h2
    | rd l => rw [he] at h2; exact rest h2
    | wr l => rw [he] at h2; exact rest h2

/-- Who no longer holds it has released it. -/
theorem released {tr : List Event} (ho : Orderly tr) (i t : Nat) (hi : holder (tr.take i) = some t) (j : Nat) :
    i ≤ j → j ≤ tr.length → holder (tr.take j) = none → ∃ r, i ≤ r ∧ r < j ∧ tr[r]? = some ⟨t, .rel⟩ := by
  induction j using Nat.strongRecOn with
  | ind n ih =>
    intro h1 hl h2
    by_cases hin : i = n
    · subst hin; rw [hi] at h2; cases h2
    obtain ⟨j, rfl⟩ : ∃ j, n = j + 1 := ⟨n - 1, by omega⟩
    by_cases hn : holder (tr.take j) = none
    · obtain ⟨a, x, y, z⟩ := ih j (by omega) (by omega) (by omega) hn
      exact ⟨a, x, by omega, z⟩
    have hj : tr[j]? = some tr[j] := List.getElem?_eq_getElem (by omega)
    rw [holder_take hj] at h2
    cases he : tr[j].act with
    | acq => rw [he] at h2; cases h2
    | rd l => rw [he] at h2; exact absurd h2 hn
    | wr l => rw [he] at h2; exact absurd h2 hn
    | rel =>
      have hh := ho j _ hj
      rw [he] at hh
      dsimp only at hh
      by_cases ht : tr[j].tid = t
      · refine ⟨j, by omega, by omega, ?_⟩
        rw [hj, ← ht, ← he]
      · -- another holder: the first one has released it before
        obtain ⟨a, x, y, z⟩ := acquired i tr[j].tid (by rw [hi]; exact fun e => ht (Option.some.inj e).symm) j (by omega) (by omega) hh
        have hz := ho a _ z
        dsimp only at hz
        obtain ⟨r, p, q, w⟩ := ih a (by omega) x (by omega) hz
        exact ⟨r, p, by omega, w⟩

theorem orderly_race {tr : List Event} (ho : Orderly tr) : ¬ Race tr := by
  rintro ⟨i, j, e, f, l, hij, hi, hj, hne, he, hf, -, hn⟩
  have h1 : holder (tr.take i) = some e.tid := by
    have := ho i e hi
    rcases he with he | he <;> rw [he] at this <;> exact this
  have h2 : holder (tr.take j) = some f.tid := by
    have := ho j f hj
    rcases hf with hf | hf <;> rw [hf] at this <;> exact this
  have hl : j < tr.length := (List.getElem?_eq_some_iff.mp hj).1
  obtain ⟨a, ha1, ha2, ha3⟩ := acquired i f.tid (by rw [h1]; exact fun x => hne (Option.some.inj x)) j (by omega) (by omega) h2
  have hz := ho a _ ha3
  dsimp only at hz
  obtain ⟨r, hr1, hr2, hr3⟩ := released ho i e.tid h1 a ha1 (by omega) hz
  have hri : i < r := by
    rcases Nat.lt_or_eq_of_le hr1 with h | h
    · exact h
    · subst h
      rw [hi] at hr3
      have ha : e.act = .rel := congrArg Event.act (Option.some.inj hr3)
      rcases he with he | he <;> rw [ha] at he <;> cases he
  exact hn (.trans (.po hri hi hr3 rfl) (.trans (.sync hr2 hr3 ha3) (.po ha2 ha3 hj rfl)))

/-- **C153** (partial: the user of the library holds one mutex around every call that takes or gives back memory or uses the registry): no execution
has a data race, whatever the threads do. -/
theorem C153_guarded_partial (m : Mem) (progs : Nat → List (Bool × Call)) (hp : ∀ t, Guards (progs t)) (ts : List Nat) :
    ¬ Race (run (start m progs) ts).2 := by
  have h := run_induct Kept (fun c tr t h => step_kept h t) ts (start m progs) []
    ⟨fun t => by simpa [start] using compile_held _ (hp t), rfl, fun i e he => by cases he⟩
  rw [List.nil_append] at h
  exact orderly_race h.2.2

end Solace.Threads
