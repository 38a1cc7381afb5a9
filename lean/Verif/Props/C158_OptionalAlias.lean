import Verif.Spec.OptionalAlias
/-
C158: what the references returned by `Optional::filter` and `Optional::orElse` stand for later on.
-/
namespace Solace.OptAlias
variable {T : Type}

/-- References are never changed, and objects keep their numbers. -/
theorem step_grows {s t : State T} {x : Step T} (h : step s x = .ok t) :
    (∃ a, t.optRefs = s.optRefs ++ a) ∧ (∃ b, t.valRefs = s.valRefs ++ b) ∧ s.opts.length ≤ t.opts.length ∧ s.vals.length ≤ t.vals.length ∧
      (∀ i, i < s.opts.length → ¬TouchesOpt i x → t.opts[i]? = s.opts[i]?) ∧ (∀ j, j < s.vals.length → ¬TouchesVal j x → t.vals[j]? = s.vals[j]?) := by
  cases x <;> simp only [step] at h
  case make v => cases h; simp +contextual [List.getElem?_append_left]
  case makeValue v => cases h; simp +contextual [List.getElem?_append_left]
  all_goals
    split at h
    · cases h
      simp +contextual [TouchesOpt, TouchesVal]
    · cases h

theorem run_grows (xs : List (Step T)) : ∀ {s t : State T}, run s xs = .ok t →
    (∃ a, t.optRefs = s.optRefs ++ a) ∧ (∃ b, t.valRefs = s.valRefs ++ b) ∧ s.opts.length ≤ t.opts.length ∧ s.vals.length ≤ t.vals.length ∧
      (∀ i, i < s.opts.length → (∀ x ∈ xs, ¬TouchesOpt i x) → t.opts[i]? = s.opts[i]?) ∧
      (∀ j, j < s.vals.length → (∀ x ∈ xs, ¬TouchesVal j x) → t.vals[j]? = s.vals[j]?) := by
  induction xs with
  | nil => intro s t h; cases h; simp
  | cons x xs ih =>
    intro s t h
    rw [run] at h
    cases hs : step s x with
    | ok u =>
      rw [hs, Outcome.bind_ok] at h
      obtain ⟨⟨a, a1⟩, ⟨b, b1⟩, c1, d1, e1, f1⟩ := step_grows hs
      obtain ⟨⟨a', a2⟩, ⟨b', b2⟩, c2, d2, e2, f2⟩ := ih h
      refine ⟨⟨a ++ a', by rw [a2, a1, List.append_assoc]⟩, ⟨b ++ b', by rw [b2, b1, List.append_assoc]⟩, by omega, by omega, fun i hi hx => ?_, fun i hi hx => ?_⟩
      · rw [e2 i (by omega) fun y hy => hx y (List.mem_cons_of_mem _ hy), e1 i hi (hx x List.mem_cons_self)]
      · rw [f2 i (by omega) fun y hy => hx y (List.mem_cons_of_mem _ hy), f1 i hi (hx x List.mem_cons_self)]
    | throws => rw [hs] at h; cases h
    | terminate => rw [hs] at h; cases h
    | ub => rw [hs] at h; cases h

theorem filter_ref {s t u : State T} {i : Nat} {o : Option T} {p : T → Bool} {later : List (Step T)} (ho : Holds s i o) (h1 : step s (.filter i p) = .ok t)
    (h2 : run t later = .ok u) : u.optRefs[s.optRefs.length]? = some (filterPlace i o p) ∧ t.opts = s.opts := by
  simp only [step] at h1
  rw [show s.opts[i]? = some (some o) from ho] at h1
  cases h1
  obtain ⟨⟨a, ha⟩, _⟩ := run_grows later h2
  refine ⟨?_, rfl⟩
  rw [ha]
  simp

theorem orElse_ref {s t u : State T} {i j : Nat} {o : Option T} {v : T} {later : List (Step T)} (ho : Holds s i o) (hv : HoldsVal s j v)
    (h1 : step s (.orElse i j) = .ok t) (h2 : run t later = .ok u) :
    u.valRefs[s.valRefs.length]? = some (orElsePlace i j o) ∧ t.opts = s.opts ∧ t.vals = s.vals := by
  simp only [step] at h1
  rw [show s.opts[i]? = some (some o) from ho, show s.vals[j]? = some (some v) from hv] at h1
  cases h1
  obtain ⟨_, ⟨a, ha⟩, _⟩ := run_grows later h2
  refine ⟨?_, rfl, rfl⟩
  rw [ha]
  simp

theorem holds_lt {s : State T} {i : Nat} {o : Option T} (h : Holds s i o) : i < s.opts.length := (List.getElem?_eq_some_iff.mp h).1

/-- **C158** (full), `filter`, whatever the program does between the call and the reading: an empty result stays empty for ever; one that is not is the optional itself as it
is at the time of reading, and cannot be read when that is gone. -/
theorem C158_filter (s t u : State T) (i : Nat) (o : Option T) (p : T → Bool) (later : List (Step T)) (ho : Holds s i o) (h1 : step s (.filter i p) = .ok t)
    (h2 : run t later = .ok u) :
    (¬Passes p o → readOpt u s.optRefs.length = .ok none) ∧
    (Passes p o → (∀ o', Holds u i o' → readOpt u s.optRefs.length = .ok o') ∧ (Gone u i → readOpt u s.optRefs.length = .ub)) := by
  obtain ⟨e, _⟩ := filter_ref ho h1 h2
  unfold readOpt
  rw [e]
  refine ⟨fun hn => ?_, ?_⟩
  · have : filterPlace i o p = .emptyInstance := by
      cases o with
      | none => rfl
      | some v => exact if_neg fun h => hn ⟨v, rfl, h⟩
    rw [this]
  · rintro ⟨v, rfl, hv⟩
    have : filterPlace i (some v) p = .object i := if_pos hv
    rw [this]
    refine ⟨fun o' h' => ?_, fun h' => ?_⟩ <;> dsimp only
    · rw [show u.opts[i]? = some (some o') from h']
    · rw [show u.opts[i]? = some none from h']

/-- **C158** (partial: the optional is not touched), the filtered optional is what it was. Missing: after a change or the end of the optional the negations below hold. -/
theorem C158_filter_partial (s t u : State T) (i : Nat) (o : Option T) (p : T → Bool) (later : List (Step T)) (ho : Holds s i o)
    (h1 : step s (.filter i p) = .ok t) (h2 : run t later = .ok u) (hl : ∀ x ∈ later, ¬TouchesOpt i x) :
    readOpt u s.optRefs.length = .ok (o.filter p) := by
  obtain ⟨n, y⟩ := C158_filter s t u i o p later ho h1 h2
  by_cases hp : Passes p o
  · have hu : Holds u i o := by
      unfold Holds
      obtain ⟨_, et⟩ := filter_ref ho h1 h2
      rw [(run_grows later h2).2.2.2.2.1 i (by rw [et]; exact holds_lt ho) hl, et]
      exact ho
    rw [(y hp).1 o hu]
    obtain ⟨v, rfl, hv⟩ := hp
    simp [Option.filter, hv]
  · rw [n hp]
    cases o with
    | none => rfl
    | some v =>
      have : p v = false := by
        cases h : p v with
        | false => rfl
        | true => exact absurd ⟨v, rfl, h⟩ hp
      simp [Option.filter, this]

/-- **C158, negation**: after an assignment, to the optional or by moving to or from it, the result of `filter` holds an element that the predicate refused, for every
predicate, every element that passed it and every one that does not. -/
theorem C158_filter_changed (s t : State T) (i : Nat) (v w : T) (p : T → Bool) (ho : Holds s i (some v)) (hv : p v = true) (hw : p w = false)
    (h1 : step s (.filter i p) = .ok t) :
    (∃ u, run t [.assign i (some w)] = .ok u ∧ readOpt u s.optRefs.length = .ok (some w) ∧ p w = false) ∧
    (∀ k, Holds s k (some w) → ∃ u, run t [.swap i k] = .ok u ∧ readOpt u s.optRefs.length = .ok (some w)) := by
  obtain ⟨_, et⟩ := filter_ref (later := []) ho h1 rfl
  have hi := holds_lt ho
  have hti : t.opts[i]? = some (some (some v)) := by rw [et]; exact ho
  constructor
  · have h2 : run t [.assign i (some w)] = .ok { t with opts := t.opts.set i (some (some w)) } := by
      simp only [run, step, hti, Outcome.bind_ok]
    refine ⟨_, h2, ((C158_filter s t _ i _ p _ ho h1 h2).2 ⟨v, rfl, hv⟩).1 _ ?_, hw⟩
    unfold Holds
    exact List.getElem?_set_self (by rw [et]; exact hi)
  · intro k hk
    have hki : i ≠ k := by
      rintro rfl
      have : some (some (some v)) = some (some (some w)) := ho.symm.trans hk
      simp only [Option.some.injEq] at this
      rw [this, hw] at hv
      cases hv
    have htk : t.opts[k]? = some (some (some w)) := by rw [et]; exact hk
    have h2 : run t [.swap i k] = .ok { t with opts := (t.opts.set i (some (some w))).set k (some (some v)) } := by
      simp only [run, step, hti, htk, Outcome.bind_ok]
    refine ⟨_, h2, ((C158_filter s t _ i _ p _ ho h1 h2).2 ⟨v, rfl, hv⟩).1 _ ?_⟩
    unfold Holds
    dsimp only
    rw [List.getElem?_set_ne (Ne.symm hki)]
    exact List.getElem?_set_self (by rw [et]; exact hi)

/-- **C158, negation**: the result of `filter` on a temporary cannot be read when there is an element and it passed; it can when not, so a test without such an element
sees nothing. -/
theorem C158_filter_temporary (s : State T) (o : Option T) (p : T → Bool) :
    ∃ u, run s [.make o, .filter s.opts.length p, .destroy s.opts.length] = .ok u ∧
      (Passes p o → readOpt u s.optRefs.length = .ub) ∧ (¬Passes p o → readOpt u s.optRefs.length = .ok none) := by
  let s1 : State T := { s with opts := s.opts ++ [some o] }
  have ho : Holds s1 s.opts.length o := by simp [Holds, s1]
  have ho' : s1.opts[s.opts.length]? = some (some o) := ho
  let t : State T := { s1 with optRefs := s1.optRefs ++ [filterPlace s.opts.length o p] }
  have h1 : step s1 (.filter s.opts.length p) = .ok t := by simp only [step, ho']; rfl
  have h2 : run t [.destroy s.opts.length] = .ok { t with opts := t.opts.set s.opts.length none } := by
    have : t.opts[s.opts.length]? = some (some o) := ho
    simp only [run, step, this, Outcome.bind_ok]
  obtain ⟨n, y⟩ := C158_filter s1 t _ s.opts.length o p _ ho h1 h2
  refine ⟨_, ?_, fun h => (y h).2 ?_, n⟩
  · rw [run, show step s (.make o) = .ok s1 from rfl, Outcome.bind_ok, run, h1, Outcome.bind_ok, h2]
  · unfold Gone
    exact List.getElem?_set_self (holds_lt ho)

/-- **C158** (full), `orElse`: what is returned is the element of the optional itself, or the other value itself, as they are at the time of reading; neither can be read when
it is gone. -/
theorem C158_orElse (s t u : State T) (i j : Nat) (o : Option T) (v : T) (later : List (Step T)) (ho : Holds s i o) (hv : HoldsVal s j v)
    (h1 : step s (.orElse i j) = .ok t) (h2 : run t later = .ok u) :
    (∀ x, o = some x → (∀ y, Holds u i (some y) → readVal u s.valRefs.length = .ok y) ∧
      (Holds u i none ∨ Gone u i → readVal u s.valRefs.length = .ub)) ∧
    (o = none → (∀ y, HoldsVal u j y → readVal u s.valRefs.length = .ok y) ∧ (GoneVal u j → readVal u s.valRefs.length = .ub)) := by
  obtain ⟨e, _⟩ := orElse_ref ho hv h1 h2
  unfold readVal
  rw [e]
  constructor
  · rintro x rfl
    refine ⟨fun y hy => ?_, fun hy => ?_⟩
    · simp only [orElsePlace, show u.opts[i]? = some (some (some y)) from hy]
    · rcases hy with hy | hy
      · simp only [orElsePlace, show u.opts[i]? = some (some none) from hy]
      · simp only [orElsePlace, show u.opts[i]? = some none from hy]
  · rintro rfl
    refine ⟨fun y hy => ?_, fun hy => ?_⟩
    · simp only [orElsePlace, show u.vals[j]? = some (some y) from hy]
    · simp only [orElsePlace, show u.vals[j]? = some none from hy]

/-- **C158** (partial: neither the optional nor the value is touched). Missing: see the negation below. -/
theorem C158_orElse_partial (s t u : State T) (i j : Nat) (o : Option T) (v : T) (later : List (Step T)) (ho : Holds s i o) (hv : HoldsVal s j v)
    (h1 : step s (.orElse i j) = .ok t) (h2 : run t later = .ok u) (hl : ∀ x ∈ later, ¬TouchesOpt i x ∧ ¬TouchesVal j x) :
    readVal u s.valRefs.length = .ok (o.getD v) := by
  obtain ⟨_, et, ev⟩ := orElse_ref ho hv h1 h2
  obtain ⟨a, b⟩ := C158_orElse s t u i j o v later ho hv h1 h2
  have g := run_grows later h2
  cases o with
  | none =>
    refine (b rfl).1 v ?_
    unfold HoldsVal
    rw [g.2.2.2.2.2 j (by rw [ev]; exact (List.getElem?_eq_some_iff.mp hv).1) fun x hx => (hl x hx).2, ev]
    exact hv
  | some x =>
    refine (a x rfl).1 x ?_
    unfold Holds
    rw [g.2.2.2.2.1 i (by rw [et]; exact holds_lt ho) fun x hx => (hl x hx).1, et]
    exact ho

/-- **C158, negation**: `T const& r = o.orElse(T(...))` of an empty optional cannot be read, the temporary is gone; it can when the optional holds something. -/
theorem C158_orElse_temporary (s : State T) (i : Nat) (o : Option T) (v : T) (ho : Holds s i o) :
    ∃ u, run s [.makeValue v, .orElse i s.vals.length, .destroyValue s.vals.length] = .ok u ∧
      (o = none → readVal u s.valRefs.length = .ub) ∧ (∀ x, o = some x → readVal u s.valRefs.length = .ok x) := by
  let s1 : State T := { s with vals := s.vals ++ [some v] }
  have hv : HoldsVal s1 s.vals.length v := by simp [HoldsVal, s1]
  have hv' : s1.vals[s.vals.length]? = some (some v) := hv
  have ho1 : Holds s1 i o := ho
  have ho' : s1.opts[i]? = some (some o) := ho
  let t : State T := { s1 with valRefs := s1.valRefs ++ [orElsePlace i s.vals.length o] }
  have h1 : step s1 (.orElse i s.vals.length) = .ok t := by simp only [step, ho', hv']; rfl
  have h2 : run t [.destroyValue s.vals.length] = .ok { t with vals := t.vals.set s.vals.length none } := by
    have : t.vals[s.vals.length]? = some (some v) := hv
    simp only [run, step, this, Outcome.bind_ok]
  obtain ⟨a, b⟩ := C158_orElse s1 t _ i s.vals.length o v _ ho1 hv h1 h2
  refine ⟨_, ?_, fun h => (b h).2 ?_, fun x hx => (a x hx).1 x ?_⟩
  · rw [run, show step s (.makeValue v) = .ok s1 from rfl, Outcome.bind_ok, run, h1, Outcome.bind_ok, h2]
  · unfold GoneVal
    exact List.getElem?_set_self (List.getElem?_eq_some_iff.mp hv).1
  · subst hx
    exact ho

/-- **C158** (full), `orElse`: after an assignment to the other value, or to the optional, the result is the new value. -/
theorem C158_orElse_changed (s t : State T) (i j : Nat) (o : Option T) (v w : T) (ho : Holds s i o) (hv : HoldsVal s j v) (h1 : step s (.orElse i j) = .ok t) :
    (o = none → ∃ u, run t [.assignValue j w] = .ok u ∧ readVal u s.valRefs.length = .ok w) ∧
    (∀ x, o = some x → ∃ u, run t [.assign i (some w)] = .ok u ∧ readVal u s.valRefs.length = .ok w) := by
  obtain ⟨_, et, ev⟩ := orElse_ref (later := []) ho hv h1 rfl
  constructor
  · intro hn
    have htj : t.vals[j]? = some (some v) := by rw [ev]; exact hv
    have h2 : run t [.assignValue j w] = .ok { t with vals := t.vals.set j (some w) } := by
      simp only [run, step, htj, Outcome.bind_ok]
    refine ⟨_, h2, ((C158_orElse s t _ i j o v _ ho hv h1 h2).2 hn).1 w ?_⟩
    unfold HoldsVal
    exact List.getElem?_set_self (by rw [ev]; exact (List.getElem?_eq_some_iff.mp hv).1)
  · intro x hx
    have hti : t.opts[i]? = some (some o) := by rw [et]; exact ho
    have h2 : run t [.assign i (some w)] = .ok { t with opts := t.opts.set i (some (some w)) } := by
      simp only [run, step, hti, Outcome.bind_ok]
    refine ⟨_, h2, ((C158_orElse s t _ i j o v _ ho hv h1 h2).1 x hx).1 w ?_⟩
    unfold Holds
    exact List.getElem?_set_self (by rw [et]; exact holds_lt ho)

/-- An optional with 4, filtered for even numbers, read; then 3 is assigned, and read again; an empty result beside it. -/
example : let s : State Nat := ⟨[some (some 4), some none], [some 9], [], []⟩
    Holds s 0 (some 4) ∧ HoldsVal s 0 9 ∧ Passes (fun n : Nat => n % 2 == 0) (some 4) ∧
    (do let t ← run s [.filter 0 (fun n => n % 2 == 0), .filter 1 (fun _ => true), .orElse 1 0, .make (some 5)]
        let a ← readOpt t 0
        let b ← readOpt t 1
        let c ← readVal t 0
        let u ← run t [.assign 0 (some 3), .assign 1 (some 7), .assignValue 0 8]
        let d ← readOpt u 0
        let e ← readOpt u 1
        let f ← readVal u 0
        pure (a, b, c, d, e, f)) = .ok (some 4, none, 9, some 3, none, 8) :=
  ⟨rfl, rfl, ⟨4, rfl, rfl⟩, rfl⟩

end Solace.OptAlias
