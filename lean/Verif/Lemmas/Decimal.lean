import Verif.Spec.Decimal
import Verif.Model.StringBuilder
namespace Solace.Decimal

theorem digitValue_digit {d : Nat} (h : d < 10) : digitValue? (digit d) = some d := by
  have : (digit d).toNat = 0x30 + d := by
    rw [digit, BitVec.toNat_ofNat]; omega
  rw [digitValue?, this, if_pos (by omega)]
  congr 1; omega

theorem value_append (a b : List Byte) :
    value? (a ++ b) = (value? a).bind fun n => b.foldlM (fun a c => (digitValue? c).map (10 * a + ·)) n := by
  rw [value?, List.foldlM_append]; rfl

theorem value_digit {d : Nat} (h : d < 10) : value? [digit d] = some d := by
  simp [value?, digitValue_digit h]

theorem value_snoc {cs : List Byte} {n d : Nat} (hc : value? cs = some n) (h : d < 10) :
    value? (cs ++ [digit d]) = some (10 * n + d) := by
  rw [value_append, hc]
  simp [digitValue_digit h]

theorem digit_ne_zero {d : Nat} (h : d < 10) (h0 : d ≠ 0) : digit d ≠ digit 0 := by
  intro he
  have h1 := digitValue_digit h
  rw [he, digitValue_digit (by omega)] at h1
  exact h0 (Option.some.inj h1).symm

theorem decimalDigits_spec (fuel n : Nat) (h : n < 10 ^ fuel) (hf : 0 < fuel) :
    value? (decimalDigits fuel n) = some n ∧ decimalDigits fuel n ≠ [] ∧
    ((decimalDigits fuel n).head? = some (digit 0) → n = 0) ∧
    (n < 10 → (decimalDigits fuel n).length = 1) ∧ ∀ c ∈ decimalDigits fuel n, ∃ d < 10, c = digit d := by
  induction fuel generalizing n with
  | zero => omega
  | succ fuel ih =>
    rw [decimalDigits]
    by_cases h10 : n < 10
    · rw [if_pos h10]
      refine ⟨value_digit h10, by simp, ?_, fun _ => rfl, ?_⟩
      · intro he
        exact Classical.byContradiction fun h0 => digit_ne_zero h10 h0 (Option.some.inj he)
      · intro c hc
        exact ⟨n, h10, List.mem_singleton.mp hc⟩
    · rw [if_neg h10]
      have hf' : 0 < fuel := by
        rcases fuel with _ | f
        · simp at h; omega
        · omega
      obtain ⟨i1, i2, i3, _, i5⟩ := ih (n / 10) (by rw [Nat.pow_succ] at h; omega) hf'
      refine ⟨?_, by simp, ?_, fun h => absurd h h10, ?_⟩
      · have := value_snoc i1 (d := n % 10) (by omega)
        rw [digit] at this
        rw [this]; congr 1; omega
      · intro he
        obtain ⟨x, xs, hx⟩ := List.exists_cons_of_ne_nil i2
        rw [hx] at he i3
        have := i3 (by simpa using he)
        omega
      · intro c hc
        rcases List.mem_append.mp hc with hc | hc
        · exact i5 c hc
        · exact ⟨n % 10, by omega, List.mem_singleton.mp hc⟩

/-- The model of `%u` is decimal notation. -/
theorem decimalText_spec {n : Nat} (h : n < 2 ^ 64) : IsDecimal n (decimalText n) := by
  obtain ⟨h1, h2, h3, h4, _⟩ := decimalDigits_spec 20 n (by omega) (by omega)
  exact ⟨h2, h1, fun he => h4 (by rw [h3 he]; omega)⟩

theorem decimalText_digits {n : Nat} (h : n < 2 ^ 64) : ∀ c ∈ decimalText n, ∃ d < 10, c = digit d :=
  (decimalDigits_spec 20 n (by omega) (by omega)).2.2.2.2

theorem digit_of_value {c : Byte} {d : Nat} (h : digitValue? c = some d) : c = digit d ∧ d < 10 := by
  rw [digitValue?] at h
  split at h
  · rename_i hc
    simp only [Option.some.injEq] at h
    refine ⟨BitVec.eq_of_toNat_eq ?_, by omega⟩
    rw [digit, BitVec.toNat_ofNat]
    omega
  · cases h

theorem value_snoc_inv {cs : List Byte} {c : Byte} {n : Nat} (h : value? (cs ++ [c]) = some n) :
    ∃ m d, value? cs = some m ∧ c = digit d ∧ d < 10 ∧ n = 10 * m + d := by
  rw [value_append] at h
  cases hc : value? cs with
  | none => rw [hc] at h; cases h
  | some m =>
    rw [hc] at h
    simp at h
    obtain ⟨d, hd, hn⟩ := h
    obtain ⟨h1, h2⟩ := digit_of_value hd
    exact ⟨m, d, rfl, h1, h2, hn.symm⟩

theorem snoc_of_ne_nil {cs : List Byte} (h : cs ≠ []) : ∃ a c, cs = a ++ [c] := by
  rcases List.eq_nil_or_concat cs with h' | ⟨a, c, h'⟩
  · exact absurd h' h
  · exact ⟨a, c, by rw [h', List.concat_eq_append]⟩

/-- Decimal notation is unique. -/
theorem isDecimal_unique {n : Nat} {a b : List Byte} (ha : IsDecimal n a) (hb : IsDecimal n b) : a = b := by
  have hd0 : digitValue? (digit 0) = some 0 := digitValue_digit (by omega)
  -- a notation longer than one digit has a positive value without its last digit
  have hpos : ∀ (cs : List Byte) (m : Nat), cs ≠ [] → cs.head? ≠ some (digit 0) → value? cs = some m → m ≠ 0 := by
    intro cs
    generalize hl : cs.length = l
    induction l generalizing cs with
    | zero => intro m h; exact absurd (List.length_eq_zero_iff.mp hl) h
    | succ l ih =>
      intro m hne hh hv hm
      obtain ⟨cs, c, rfl⟩ := snoc_of_ne_nil hne
      rw [List.length_append, List.length_singleton] at hl
      obtain ⟨k, d, hk, hc, hd, hn⟩ := value_snoc_inv hv
      by_cases hcs : cs = []
      · subst hcs
        apply hh
        rw [List.nil_append, List.head?_cons, hc]
        congr 2; omega
      · refine ih cs (by omega) k hcs ?_ hk (by omega)
        intro h
        apply hh
        obtain ⟨x, xs, rfl⟩ := List.exists_cons_of_ne_nil hcs
        simpa using h
  have key : ∀ (k : Nat) (n : Nat) (a b : List Byte), a.length ≤ k → IsDecimal n a → IsDecimal n b → a = b := by
    intro k
    induction k with
    | zero =>
      intro n a b hk ha _
      exact absurd (List.length_eq_zero_iff.mp (by omega)) ha.1
    | succ k ih =>
      intro n a b hk ha hb
      obtain ⟨a', x, rfl⟩ := snoc_of_ne_nil ha.1
      obtain ⟨b', y, rfl⟩ := snoc_of_ne_nil hb.1
      obtain ⟨ma, da, hva, rfl, hda, hna⟩ := value_snoc_inv ha.2.1
      obtain ⟨mb, db, hvb, rfl, hdb, hnb⟩ := value_snoc_inv hb.2.1
      have hm : ma = mb := by omega
      have hdd : da = db := by omega
      subst hm hdd
      have hhead : ∀ {c : List Byte}, c ≠ [] → IsDecimal n (c ++ [digit da]) → value? c = some ma →
          c.head? ≠ some (digit 0) ∧ ma ≠ 0 := by
        intro c hc hi hv
        have h1 : c.head? ≠ some (digit 0) := by
          intro h
          have := hi.2.2 (by
            obtain ⟨x, xs, rfl⟩ := List.exists_cons_of_ne_nil hc
            simpa using h)
          rw [List.length_append, List.length_singleton] at this
          exact hc (List.length_eq_zero_iff.mp (by omega))
        exact ⟨h1, hpos c ma hc h1 hv⟩
      by_cases hca : a' = []
      · by_cases hcb : b' = []
        · rw [hca, hcb]
        · have := (hhead hcb hb hvb).2
          rw [hca] at hva
          simp [value?] at hva
          omega
      · obtain ⟨h1, h2⟩ := hhead hca ha hva
        by_cases hcb : b' = []
        · rw [hcb] at hvb
          simp [value?] at hvb
          omega
        · obtain ⟨h3, _⟩ := hhead hcb hb hvb
          rw [List.length_append, List.length_singleton] at hk
          rw [ih ma a' b' (by omega) ⟨hca, hva, fun h => absurd h h1⟩ ⟨hcb, hvb, fun h => absurd h h3⟩]
  exact key a.length n a b (Nat.le_refl _) ha hb

end Solace.Decimal
