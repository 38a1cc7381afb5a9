import Verif.Props.C153_Apart
/-
C153, continued: two threads that register error domains at the same time.
-/
namespace Solace.Threads

variable {m : Mem} {o : Option Nat} {cs : Nat → Code} {os : Nat → List Res}

/-- A vector that has room, up to where the new element is to be written. -/
theorem run_look {t : Nat} {pos : Loc} {slot : Nat → Loc} {v : Nat} {full done : Code} (h : cs t = emplace pos slot v full done) (hp : m pos < 128)
    (ts : List Nat) :
    (run ⟨m, o, cs, os⟩ (t :: t :: ts)).1 =
      (run ⟨m, o, upd cs t (.wr (slot (m pos)) v (.rd pos fun p => .wr pos (wrap64 (p + 1)) done)), os⟩ ts).1 := by
  rw [emplace] at h
  rw [run_rd h, if_neg (by omega), run_rd (upd_same _ _ _), if_neg (by omega), upd_upd]

/-- From there to the end. -/
theorem run_place {t : Nat} {pos l : Loc} {v : Nat} {done : Code} (h : cs t = .wr l v (.rd pos fun p => .wr pos (wrap64 (p + 1)) done)) (hl : pos ≠ l)
    (hp : m pos < 128) (ts : List Nat) :
    (run ⟨m, o, cs, os⟩ (t :: t :: t :: ts)).1 = (run ⟨(m.put l v).put pos (m pos + 1), o, upd cs t done, os⟩ ts).1 := by
  rw [run_wr h, run_rd (upd_same _ _ _), put_other _ _ hl, run_wr (upd_same _ _ _), upd_upd, upd_upd, wrap64_of_lt (by omega)]

theorem run_told {t : Nat} {l : Loc} {f : Nat → Res} {k : Code} (h : cs t = .rd l fun p => .out (f p) k) (ts : List Nat) :
    (run ⟨m, o, cs, os⟩ (t :: t :: ts)).1 = (run ⟨m, o, upd cs t k, upd os t (os t ++ [f (m l)])⟩ ts).1 := by
  rw [run_rd h, run_out (upd_same _ _ _), upd_upd]

theorem search_at (m : Mem) (id : Nat) (j : Nat) : ∀ (n i : Nat), j < n → (∀ x, i ≤ x → x < i + j → m (.key x) ≠ id) → m (.key (i + j)) = id →
    search m id n i = some (m (.value (i + j))) := by
  induction j with
  | zero =>
    intro n i hn _ he
    obtain ⟨n, rfl⟩ : ∃ k, n = k + 1 := ⟨n - 1, by omega⟩
    have he' : m (.key i) = id := he
    rw [search, if_pos he', Nat.add_zero]
  | succ j ih =>
    intro n i hn hx he
    obtain ⟨n, rfl⟩ : ∃ k, n = k + 1 := ⟨n - 1, by omega⟩
    rw [search, if_neg (hx i (Nat.le_refl _) (by omega)), ih n (i + 1) (by omega) (fun x h1 h2 => hx x (by omega) (by omega))
      (by rw [← he]; congr 2; omega)]
    congr 3
    omega

/-- **C153** (the negation, for the registry): wherever two threads may register new domains, there is an interleaving after which both have been told
that the registry has grown, and which then finds the domain of the one under the name of the other, and under the name of the one a place that was
never written. -/
theorem C153_wrong_domain (m : Mem) (p a x b y : Nat) (hv : m .valuesPos = p) (hk : m .keysPos = p) (hp : p < 127) (hab : a ≠ b)
    (hnew : ∀ i, i < p → m (.key i) ≠ a ∧ m (.key i) ≠ b) :
    ∃ ts, let c := (run (start m (two (.register a x) (.register b y))) ts).1
      c.outs 0 = [.num (p + 2)] ∧ c.outs 1 = [.num (p + 1)] ∧
      (alone c.mem (.find b)).2 = .found (some x) ∧ (alone c.mem (.find a)).2 = .found (some (m (.value (p + 1)))) := by
  refine ⟨[0, 0, 1, 1, 1, 1, 1, 1, 1, 1, 1, 1, 1, 1, 0, 0, 0, 0, 0, 0, 0, 0, 0, 0], ?_⟩
  have n01 : (0 : Nat) ≠ 1 := by decide
  have n10 : (1 : Nat) ≠ 0 := by decide
  have h0 : (fun t => compile (two (.register a x) (.register b y) t)) 0 = code (.register a x) .stop := by
    dsimp only [two]; rw [if_pos rfl, compile, compile]
  have h1 : (fun t => compile (two (.register a x) (.register b y) t)) 1 = code (.register b y) .stop := by
    dsimp only [two]; rw [if_neg (by decide), if_pos rfl, compile, compile]
  rw [code] at h0 h1
  dsimp only
  rw [start, run_look h0 (by omega), run_look ((upd_other _ _ n10).trans h1) (by omega), run_place (upd_same _ _ _) (by simp) (by omega), upd_upd,
    run_look (upd_same _ _ _) (by rw [put_other _ _ (by simp), put_other _ _ (by simp)]; omega),
    run_place (upd_same _ _ _) (by simp) (by rw [put_other _ _ (by simp), put_other _ _ (by simp)]; omega), upd_upd, upd_upd,
    run_told (f := fun p => .num (wrap32 p)) (upd_same _ _ _), upd_upd,
    run_place ((upd_other _ _ n01).trans (upd_same _ _ _)) (by simp) (by
      rw [put_other _ _ (by simp), put_other _ _ (by simp), put_same]; omega),
    run_look (upd_same _ _ _) (by simp [Mem.put]; omega),
    run_place (upd_same _ _ _) (by simp) (by simp [Mem.put]; omega), upd_upd, upd_upd,
    run_told (f := fun p => .num (wrap32 p)) (upd_same _ _ _), run]
  dsimp only
  refine ⟨?_, ?_, ?_, ?_⟩
  · rw [upd_same, upd_other _ _ n01]
    simp [Mem.put, hv]
    exact wrap32_of_lt (by omega)
  · rw [upd_other _ _ n10, upd_same]
    simp [Mem.put, hv]
    exact wrap32_of_lt (by omega)
  · rw [alone]
    dsimp only
    rw [search_at _ b p _ 0]
    · simp [Mem.put, hv]
    · simp [Mem.put, hk]
      omega
    · intro i _ hi
      have := hnew i (by omega)
      simp [Mem.put, hk]
      rw [if_neg (by omega), if_neg (by omega)]
      exact this.2
    · simp [Mem.put, hk]
  · rw [alone]
    dsimp only
    rw [search_at _ a (p + 1) _ 0]
    · simp [Mem.put, hv]
    · simp [Mem.put, hk]
    · intro i _ hi
      rcases Nat.lt_or_ge i p with h | h
      · have h2 := (hnew i h).1
        have h3 : i ≠ p + 1 := by omega
        simp [Mem.put, hk, Nat.ne_of_lt h, h3, h2]
      · have h2 : i = p := by omega
        rw [h2]
        simp [Mem.put, hk]
        exact fun e => hab e.symm
    · simp [Mem.put, hk]

/-- An empty registry, and names 5 and 6 for the domains 50 and 60: under the name 6 the domain 50 is found. -/
example : kilobyte .valuesPos = 0 ∧ kilobyte .keysPos = 0 ∧ (∀ i, i < 0 → kilobyte (.key i) ≠ 5 ∧ kilobyte (.key i) ≠ 6) :=
  ⟨rfl, rfl, fun _ h => absurd h (Nat.not_lt_zero _)⟩

end Solace.Threads
