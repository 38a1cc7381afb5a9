import Verif.Spec.ResultTypes

/-
Lemmas for C126: narrowing and ranges, and what each combinator accepts.
-/
namespace Solace.ResTy

theorem pow_pos' (b : Nat) : (0 : Int) < 2 ^ b := Int.pow_pos (by decide)

theorem pow_le {a b : Nat} (h : a ≤ b) : (2 : Int) ^ a ≤ 2 ^ b := by
  have := Nat.pow_le_pow_right (n := 2) (by decide) h
  exact_mod_cast this

theorem pow_half {b : Nat} (h : 0 < b) : (2 : Int) ^ b = 2 * 2 ^ (b - 1) := by
  obtain ⟨k, rfl⟩ : ∃ k, b = k + 1 := ⟨b - 1, by omega⟩
  rw [Int.pow_succ]; simp; omega

/-- A conversion to a type that has the number leaves the number. -/
theorem convert_eq {T : Base} {n : Int} (hp : T.Proper) (h : InRange T n) : convert T n = n := by
  cases T with
  | cls i => rfl
  | int b s =>
    cases s with
    | false =>
      obtain ⟨h1, h2⟩ := h
      exact Int.emod_eq_of_lt h1 h2
    | true =>
      obtain ⟨h1, h2⟩ := h
      have hb := pow_half (b := b) hp
      show Int.bmod n (2 ^ b) = n
      have hc : ((2 ^ b : Nat) : Int) = 2 * 2 ^ (b - 1) := by rw [← hb]; simp
      apply Int.bmod_eq_of_le
      · rw [hc]; omega
      · rw [hc]; omega

/-- Braces accept exactly the conversions that keep every value. -/
theorem bracesOk_iff {S T : Base} (hS : S.Proper) (hT : T.Proper) : bracesOk S T = true ↔ Keeps S T := by
  cases S with
  | cls i => cases T <;> simp [bracesOk, Keeps]
  | int b s =>
    cases T with
    | cls j => simp [bracesOk, Keeps]
    | int b' s' =>
      have hb : 0 < b := hS
      have hb' : 0 < b' := hT
      have e1 := pow_half hb
      have e2 := pow_half hb'
      have p1 := pow_pos' (b - 1)
      have p2 := pow_pos' (b' - 1)
      cases s <;> cases s' <;> simp only [bracesOk, Keeps, InRange, decide_eq_true_eq]
      · constructor
        · intro h n hn
          have := pow_le h
          omega
        · intro h
          apply Classical.byContradiction
          intro hc
          have h3 := pow_le (a := b' + 1) (b := b) (by omega)
          rw [Int.pow_succ] at h3
          have := h (2 ^ b') (by omega)
          omega
      · constructor
        · intro h n hn
          have := pow_le (a := b) (b := b' - 1) (by omega)
          omega
        · intro h
          apply Classical.byContradiction
          intro hc
          have h3 := pow_le (a := b') (b := b) (by omega)
          have := h (2 ^ b - 1) (by omega)
          omega
      · constructor
        · intro h; cases h
        · intro h
          have := h (-1) (by omega)
          omega
      · constructor
        · intro h n hn
          have := pow_le (a := b - 1) (b := b' - 1) (by omega)
          omega
        · intro h
          apply Classical.byContradiction
          intro hc
          have h3 := pow_le (a := b') (b := b - 1) (by omega)
          have := h (-(2 ^ (b - 1))) (by omega)
          omega

theorem inRange_of_keeps {S T : Base} {n : Int} (h : Keeps S T) (hn : InRange S n) : InRange T n := by
  cases S <;> cases T <;> simp only [Keeps] at h
  · exact h n hn
  · exact trivial

theorem braces_eq {S T : Base} {n : Int} (hS : S.Proper) (hT : T.Proper) (h : bracesOk S T = true) (hn : InRange S n) :
    braces S T n = some n := by
  unfold braces
  rw [if_pos h, convert_eq hT (inRange_of_keeps ((bracesOk_iff hS hT).1 h) hn)]

theorem typeAfter_proper {k : Kind} {t : RTy} {r : Ret} (ht : t.Proper) (hr : r.Proper) : (typeAfter k t r).Proper := by
  obtain ⟨h1, h2⟩ := ht
  cases r <;> cases k <;> simp_all [typeAfter, RTy.Proper, Ret.Proper]

/-- The call resolved: the type is the one after the stage. -/
theorem typeOf_eq {k : Kind} {c : Cat} {r : Ret} {t u : RTy} (h : typeOf k c r t = some u) : u = typeAfter k t r := by
  obtain ⟨v, e⟩ := t
  cases v <;> cases k <;> cases c <;> cases r <;>
    simp [typeOf, overloads, resolve, resolve.pick, result, isResult, Qual.viable, Qual.better, bodyType, answerOk, Body.onValues,
      typeAfter] at h ⊢ <;> first | exact h.2.symm | exact h.symm | exact h.2.2.symm | skip

/-- The call resolved: what is passed on can be made. -/
theorem typeOf_pass {k : Kind} {c : Cat} {r : Ret} {t u : RTy} (h : typeOf k c r t = some u) :
    (k = .andThen → passErrorOk t u = true) ∧ (k ≠ .andThen → passValueOk t u = true) := by
  have hu := typeOf_eq h
  subst hu
  obtain ⟨v, e⟩ := t
  cases v <;> cases k <;> cases c <;> cases r <;>
    simp [typeOf, overloads, resolve, resolve.pick, result, isResult, Qual.viable, Qual.better, bodyType, answerOk, Body.onValues,
      typeAfter] at h ⊢ <;> simp_all

theorem passError_eq {t u : RTy} {n : Int} (ht : t.Proper) (hu : u.Proper) (hn : InRange t.err n) (h : passErrorOk t u = true) :
    passError t u n = some n := by
  unfold passErrorOk at h
  unfold passError
  split at h <;> rename_i hv
  · rw [if_pos hv, if_pos (by simpa using h)]
  · rw [if_neg hv, braces_eq ht.2 hu.2 h hn]

theorem passValue_eq {t u : RTy} {v : Option Int} (ht : t.Proper) (hu : u.Proper) (hf : Fits t (.good v)) (h : passValueOk t u = true) :
    passValue t u v = some v := by
  obtain ⟨tv, te⟩ := t
  obtain ⟨uv, ue⟩ := u
  cases v with
  | none =>
    have hf : tv = none := hf
    subst hf
    cases uv with
    | none => rfl
    | some d => simp [passValueOk] at h
  | some n =>
    obtain ⟨b, hb, hn⟩ := hf
    have hb : tv = some b := hb
    subst hb
    cases uv with
    | none => simp [passValueOk] at h
    | some d =>
      show (braces b d n).map some = _
      rw [braces_eq (ht.1 b rfl) (hu.1 d rfl) h hn]
      rfl

theorem keeps_refl (S : Base) : Keeps S S := by
  cases S with
  | int b s => exact fun _ h => h
  | cls i => rfl

/-- What is passed on fits the type it is passed to. -/
theorem fits_error {t u : RTy} {n : Int} (ht : t.Proper) (hu : u.Proper) (hn : InRange t.err n) (h : passErrorOk t u = true) :
    Fits u (.bad n) := by
  unfold passErrorOk at h
  split at h
  · have h : t.err = u.err := by simpa using h
    show InRange u.err n
    rw [← h]
    exact hn
  · exact inRange_of_keeps ((bracesOk_iff ht.2 hu.2).1 h) hn

theorem fits_value {t u : RTy} {v : Option Int} (ht : t.Proper) (hu : u.Proper) (hf : Fits t (.good v)) (h : passValueOk t u = true) :
    Fits u (.good v) := by
  obtain ⟨tv, te⟩ := t
  obtain ⟨uv, ue⟩ := u
  cases v with
  | none =>
    have hf : tv = none := hf
    subst hf
    cases uv with
    | none => rfl
    | some d => simp [passValueOk] at h
  | some n =>
    obtain ⟨b, hb, hn⟩ := hf
    have hb : tv = some b := hb
    subst hb
    cases uv with
    | none => simp [passValueOk] at h
    | some d => exact ⟨d, rfl, inRange_of_keeps ((bracesOk_iff (ht.1 b rfl) (hu.1 d rfl)).1 h) hn⟩

end Solace.ResTy
