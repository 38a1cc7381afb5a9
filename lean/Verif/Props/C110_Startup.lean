import Verif.Model.Startup
import Verif.Props.C66_ErrorDomain
/-
C110: error domains registered while a program starts.
-/
namespace Solace.Startup
open ErrorDomains
variable {D : Type}

/-- The registrations among some initialisers, in order. -/
def registrations : List (Init D) → List (BitVec 64 × D)
  | [] => []
  | .map :: is => registrations is
  | .register id d :: is => (id, d) :: registrations is

theorem registrations_append (a b : List (Init D)) : registrations (a ++ b) = registrations a ++ registrations b := by
  induction a with
  | nil => rfl
  | cons i a ih => cases i <;> simp [registrations, ih]

theorem register_returns (rs : List (BitVec 64 × D)) (id : BitVec 64) (d : D) :
    ∃ n, (register (run registry rs).1 id d).2 = .ok n := by
  have h : ∀ (m : Dict (BitVec 64) D) (rs : List (BitVec 64 × D)) (x : BitVec 64 × D),
      (run m (rs ++ [x])).2 = (run m rs).2 ++ [(register (run m rs).1 x.1 x.2).2] := by
    intro m rs
    induction rs generalizing m with
    | nil => intro x; rfl
    | cons r rs ih => intro x; rw [List.cons_append, run, run, ih]; rfl
  have h1 := (C66_every_history (rs ++ [(id, d)]) 0#64).2
  rw [h, List.length_append, List.length_singleton, List.range_succ, List.map_append] at h1
  exact ⟨_, (List.cons.inj (List.append_inj' h1 rfl).2).1⟩

theorem run_snoc (m : Dict (BitVec 64) D) (rs : List (BitVec 64 × D)) (x : BitVec 64 × D) :
    (run m (rs ++ [x])).1 = (register (run m rs).1 x.1 x.2).1 := by
  induction rs generalizing m with
  | nil => rfl
  | cons r rs ih => rw [List.cons_append, run, ih]; rfl

theorem start_after (is : List (Init D)) (h : Init.map ∉ is) : ∀ rs : List (BitVec 64 × D),
    start (some (run registry rs).1) is = .ok (some (run registry (rs ++ registrations is)).1) := by
  induction is with
  | nil => intro rs; rw [registrations, List.append_nil]; rfl
  | cons i is ih =>
    intro rs
    cases i with
    | map => exact absurd (List.mem_cons_self ..) h
    | register id d =>
      obtain ⟨n, hn⟩ := register_returns rs id d
      have hs : step (some (run registry rs).1) (.register id d) = .ok (some (run registry (rs ++ [(id, d)])).1) := by
        rw [run_snoc]
        generalize hg : register (run registry rs).1 id d = g at hn
        obtain ⟨m', r⟩ := g
        simp only at hn
        subst hn
        simp only [step, hg]
      rw [start, hs, Outcome.bind_ok, ih (fun hm => h (List.mem_cons_of_mem _ hm)), registrations, List.append_assoc]
      rfl

theorem put_zeroed (id : BitVec 64) (d : D) : (register zeroed id d).1 = zeroed := by
  simp [register, Dict.put, zeroed, Vec.emplaceBack, Vec.capacity, Vec.empty]

theorem zeroed_before (is : List (Init D)) (h : Init.map ∉ is) : is.foldl stepZeroed zeroed = zeroed := by
  induction is with
  | nil => rfl
  | cons i is ih =>
    cases i with
    | map => exact absurd (List.mem_cons_self ..) h
    | register id d =>
      rw [List.foldl_cons, stepZeroed, put_zeroed, ih (fun hm => h (List.mem_cons_of_mem _ hm))]

theorem zeroed_after (is : List (Init D)) (h : Init.map ∉ is) : ∀ rs : List (BitVec 64 × D),
    is.foldl stepZeroed (run registry rs).1 = (run registry (rs ++ registrations is)).1 := by
  induction is with
  | nil => intro rs; rw [registrations, List.append_nil]; rfl
  | cons i is ih =>
    intro rs
    cases i with
    | map => exact absurd (List.mem_cons_self ..) h
    | register id d =>
      rw [List.foldl_cons, stepZeroed, ← run_snoc _ _ (id, d), ih (fun hm => h (List.mem_cons_of_mem _ hm)), registrations,
        List.append_assoc]
      rfl

/-- **C110** (partial: the map is initialised before every registration). The program starts, and afterwards each id that some
translation unit registered, and nobody else registered before it, is found with its domain, if there are at most 128
registrations; nothing else is found. Missing: the other orders, see `C110_order` and `C110_zeroed`. -/
theorem C110_start_partial (is : List (Init D)) (h : Init.map ∉ is) :
    ∃ m, start none (.map :: is) = .ok (some m) ∧
      (∀ id, find m id = .ok (firstFor ((registrations is).take 128) id)) ∧
      ((registrations is).length ≤ 128 → ((registrations is).map Prod.fst).Nodup →
        ∀ id d, Init.register id d ∈ is → find m id = .ok (some d)) := by
  refine ⟨(run registry (registrations is)).1, ?_, fun id => (C66_every_history _ id).1, ?_⟩
  · have := start_after is h []
    rw [List.nil_append] at this
    rw [start, step, Outcome.bind_ok]
    exact this
  · intro hl hn id d hm
    refine (C66_registered_partial _ hl hn).1 id d ?_
    clear hl hn h
    induction is with
    | nil => cases hm
    | cons i is ih =>
      cases i with
      | map =>
        rw [registrations]
        rcases List.mem_cons.mp hm with e | e
        · cases e
        · exact ih e
      | register id' d' =>
        rw [registrations]
        rcases List.mem_cons.mp hm with e | e
        · cases e; exact List.mem_cons_self ..
        · exact List.mem_cons_of_mem _ (ih e)

/-- **C110, exactly**: with the map's initialiser anywhere in the order, the start is defined if and only if no registration comes
before it. -/
theorem C110_order (before after : List (Init D)) (hb : Init.map ∉ before) (ha : Init.map ∉ after) :
    ((∃ s, start none (before ++ .map :: after) = .ok s) ↔ before = []) ∧
    (before ≠ [] → start none (before ++ .map :: after) = .ub) := by
  have hub : before ≠ [] → start none (before ++ .map :: after) = .ub := by
    intro hne
    cases before with
    | nil => exact absurd rfl hne
    | cons i is =>
      cases i with
      | map => exact absurd (List.mem_cons_self ..) hb
      | register id d => rfl
  refine ⟨⟨fun ⟨s, hs⟩ => Classical.byContradiction fun hne => ?_, fun he => ?_⟩, hub⟩
  · rw [hub hne] at hs; cases hs
  · subst he
    obtain ⟨m, hm, -⟩ := C110_start_partial after ha
    exact ⟨_, hm⟩

/-- **C110, the other reading**: where the zeros are taken for a map, the program starts in every order, and exactly the
registrations after the map's initialiser count: a domain registered before it is not found, and nothing reports that. -/
theorem C110_zeroed (before after : List (Init D)) (hb : Init.map ∉ before) (ha : Init.map ∉ after) (id : BitVec 64) :
    find (startZeroed (before ++ .map :: after)) id = .ok (firstFor ((registrations after).take 128) id) := by
  have := zeroed_after after ha []
  rw [List.nil_append] at this
  rw [startZeroed, List.foldl_append, zeroed_before before hb, List.foldl_cons, stepZeroed]
  show find (after.foldl stepZeroed (run registry []).1) id = _
  rw [this]
  exact (C66_every_history _ id).1

/-- **C110, negation**: the two initialisers of the library in the other order. By the letter the behaviour is undefined; with zeros
taken for a map the system domain is not found for the rest of the program. -/
theorem C110_lost (d : D) :
    start none [.register ErrorValue.systemCategory d, .map] = .ub ∧
    find (startZeroed [.register ErrorValue.systemCategory d, .map]) ErrorValue.systemCategory = .ok none := by
  refine ⟨rfl, ?_⟩
  rw [show [Init.register ErrorValue.systemCategory d, .map] = [.register ErrorValue.systemCategory d] ++ .map :: [] from rfl,
    C110_zeroed _ _ (by simp) (by simp)]
  rfl

example : registrations [Init.register 1#64 'a', .register 2#64 'b'] = [(1#64, 'a'), (2#64, 'b')] ∧
    Init.map ∉ [Init.register 1#64 'a', .register 2#64 'b'] ∧
    ((registrations [Init.register 1#64 'a', .register 2#64 'b']).map Prod.fst).Nodup := by decide

end Solace.Startup
