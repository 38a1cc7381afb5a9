import Mathlib.Analysis.Complex.Trigonometric
/-
Rational and integer approximations of the sine of 1, ..., 64: the power series of `exp I` for the sine and cosine of 1, then the
addition theorems, in integers scaled by 2^200 with a bound of the error.
-/
namespace Solace.Hash.Sine
open Complex

/-- Partial sums of the series of the cosine and the sine of 1. -/
def C : Nat → ℚ
  | 0 => 0
  | n + 1 => C n + (-1) ^ n / (2 * n).factorial
def S : Nat → ℚ
  | 0 => 0
  | n + 1 => S n + (-1) ^ n / (2 * n + 1).factorial

theorem sum_eq (n : ℕ) : ∑ m ∈ Finset.range (2 * n), I ^ m / (m.factorial : ℂ) = ((C n : ℚ) : ℂ) + ((S n : ℚ) : ℂ) * I := by
  induction n with
  | zero => simp [C, S]
  | succ n ih =>
    rw [show 2 * (n + 1) = 2 * n + 1 + 1 by ring, Finset.sum_range_succ, Finset.sum_range_succ, ih, C, S]
    push_cast
    rw [pow_succ, pow_mul, I_sq]
    ring

theorem near_one : |Real.cos 1 - (C 26 : ℝ)| ≤ 1 / 2 ^ 210 ∧ |Real.sin 1 - (S 26 : ℝ)| ≤ 1 / 2 ^ 210 := by
  have h := exp_bound (x := I) (by simp) (n := 2 * 26) (by norm_num)
  rw [sum_eq] at h
  have hb : ‖I‖ ^ (2 * 26) * (((2 * 26).succ : ℝ) * (((2 * 26).factorial : ℝ) * ((2 * 26 : ℕ) : ℝ))⁻¹) ≤ 1 / 2 ^ 210 := by
    simp only [norm_I, one_pow, one_mul]
    norm_num [Nat.factorial]
  have h' := h.trans hb
  have he : exp I = (Real.cos 1 : ℂ) + (Real.sin 1 : ℂ) * I := by
    have := exp_mul_I 1
    simpa using this
  constructor
  · refine le_trans ?_ h'
    refine le_trans (le_of_eq ?_) (abs_re_le_norm _)
    rw [he]
    simp [-ofReal_cos, -ofReal_sin]
  · refine le_trans ?_ h'
    refine le_trans (le_of_eq ?_) (abs_im_le_norm _)
    rw [he]
    simp [-ofReal_cos, -ofReal_sin]

/-- 2^200 -/
def scale : ℤ := 2 ^ 200
def c1 : ℤ := (C 26 * 2 ^ 200).floor
def d1 : ℤ := (S 26 * 2 ^ 200).floor

/-- Integers close to 2^200 times the cosine and the sine of `k`. -/
def cs : Nat → ℤ × ℤ
  | 0 => (scale, 0)
  | k + 1 => (((cs k).1 * c1 - (cs k).2 * d1) / scale, ((cs k).2 * c1 + (cs k).1 * d1) / scale)

theorem one_near : |2 ^ 200 * Real.cos 1 - (c1 : ℝ)| ≤ 2 ∧ |2 ^ 200 * Real.sin 1 - (d1 : ℝ)| ≤ 2 := by
  have key : ∀ (x : ℝ) (q : ℚ), |x - (q : ℝ)| ≤ 1 / 2 ^ 210 → |2 ^ 200 * x - ((q * 2 ^ 200).floor : ℝ)| ≤ 2 := by
    intro x q h
    have h1 : (((q * 2 ^ 200).floor : ℚ) : ℚ) ≤ q * 2 ^ 200 := Int.floor_le (q * 2 ^ 200)
    have h2 : q * 2 ^ 200 < ((q * 2 ^ 200).floor : ℚ) + 1 := Int.lt_floor_add_one (q * 2 ^ 200)
    have h1' : ((q * 2 ^ 200).floor : ℝ) ≤ (q : ℝ) * 2 ^ 200 := by exact_mod_cast h1
    have h2' : (q : ℝ) * 2 ^ 200 < ((q * 2 ^ 200).floor : ℝ) + 1 := by exact_mod_cast h2
    generalize ((q * 2 ^ 200).floor : ℝ) = f at *
    rw [abs_le] at h ⊢
    constructor <;> norm_num at * <;> linarith
  exact ⟨key _ _ near_one.1, key _ _ near_one.2⟩

theorem div_near (a s : ℤ) (hs : 0 < s) : |((a / s : ℤ) : ℝ) - (a : ℝ) / s| ≤ 1 := by
  have h1 := Int.mul_ediv_add_emod a s
  have h2 := Int.emod_nonneg a hs.ne'
  have h3 := Int.emod_lt_of_pos a hs
  have hs' : (0 : ℝ) < s := by exact_mod_cast hs
  have h1' : (s : ℝ) * ((a / s : ℤ) : ℝ) + ((a % s : ℤ) : ℝ) = a := by exact_mod_cast h1
  have h2' : (0 : ℝ) ≤ ((a % s : ℤ) : ℝ) := by exact_mod_cast h2
  have h3' : ((a % s : ℤ) : ℝ) < s := by exact_mod_cast h3
  have : ((a / s : ℤ) : ℝ) - (a : ℝ) / s = - (((a % s : ℤ) : ℝ) / s) := by
    rw [← h1']; field_simp; ring
  rw [this, abs_neg, abs_of_nonneg (by positivity), div_le_one hs']
  exact h3'.le

theorem step_near (P x y p q e : ℝ) (a b a1 b1 : ℝ) (hP : 0 < P) (hx : |x| ≤ 1) (hy : |y| ≤ 1) (hp : |p| ≤ 1) (hq : |q| ≤ 1)
    (ha : |P * x - a| ≤ e) (hb : |P * y - b| ≤ e) (ha1 : |P * p - a1| ≤ 2) (hb1 : |P * q - b1| ≤ 2) (he : e ≤ P) :
    |P * (x * p - y * q) - (a * a1 - b * b1) / P| ≤ 2 * e + 8 := by
  have hA : |a| ≤ 2 * P := by
    have h1 : |P * x| ≤ P := by rw [abs_mul, abs_of_pos hP]; nlinarith
    have h2 : |a| ≤ |P * x| + |P * x - a| := by
      have := abs_sub_abs_le_abs_sub a (P * x)
      rw [abs_sub_comm a] at this
      linarith
    linarith
  have hB : |b| ≤ 2 * P := by
    have h1 : |P * y| ≤ P := by rw [abs_mul, abs_of_pos hP]; nlinarith
    have h2 : |b| ≤ |P * y| + |P * y - b| := by
      have := abs_sub_abs_le_abs_sub b (P * y)
      rw [abs_sub_comm b] at this
      linarith
    linarith
  have heq : P * (x * p - y * q) - (a * a1 - b * b1) / P =
      p * (P * x - a) + a / P * (P * p - a1) - q * (P * y - b) - b / P * (P * q - b1) := by
    field_simp; ring
  have t1 : |p * (P * x - a)| ≤ e := by
    rw [abs_mul]; have := abs_nonneg (P * x - a); nlinarith [abs_nonneg p]
  have t3 : |q * (P * y - b)| ≤ e := by
    rw [abs_mul]; have := abs_nonneg (P * y - b); nlinarith [abs_nonneg q]
  have t2 : |a / P * (P * p - a1)| ≤ 4 := by
    have : |a / P| ≤ 2 := by rw [abs_div, abs_of_pos hP, div_le_iff₀ hP]; exact hA
    rw [abs_mul]; nlinarith [abs_nonneg (a / P), abs_nonneg (P * p - a1)]
  have t4 : |b / P * (P * q - b1)| ≤ 4 := by
    have : |b / P| ≤ 2 := by rw [abs_div, abs_of_pos hP, div_le_iff₀ hP]; exact hB
    rw [abs_mul]; nlinarith [abs_nonneg (b / P), abs_nonneg (P * q - b1)]
  rw [heq]
  rw [abs_le] at *
  constructor <;> linarith [t1.1, t1.2, t2.1, t2.2, t3.1, t3.2, t4.1, t4.2]

theorem cs_near (k : ℕ) (hk : k ≤ 64) :
    |2 ^ 200 * Real.cos k - ((cs k).1 : ℝ)| ≤ 9 * 2 ^ k - 9 ∧ |2 ^ 200 * Real.sin k - ((cs k).2 : ℝ)| ≤ 9 * 2 ^ k - 9 := by
  induction k with
  | zero => norm_num [cs, scale]
  | succ k ih =>
    obtain ⟨ihc, ihs⟩ := ih (by omega)
    obtain ⟨h1c, h1s⟩ := one_near
    have he : (9 : ℝ) * 2 ^ k - 9 ≤ 2 ^ 200 := by
      have : (2 : ℝ) ^ k ≤ 2 ^ 64 := pow_le_pow_right₀ (by norm_num) (by omega)
      norm_num at this ⊢
      linarith
    have hS : (0 : ℤ) < scale := by unfold scale; positivity
    have hSr : ((scale : ℤ) : ℝ) = 2 ^ 200 := by unfold scale; push_cast; ring
    have hc := step_near (2 ^ 200) (Real.cos k) (Real.sin k) (Real.cos 1) (Real.sin 1) _ _ _ _ _ (by positivity)
      (Real.abs_cos_le_one _) (Real.abs_sin_le_one _) (Real.abs_cos_le_one _) (Real.abs_sin_le_one _) ihc ihs h1c h1s he
    have hs := step_near (2 ^ 200) (Real.sin k) (-Real.cos k) (Real.cos 1) (Real.sin 1) _ _ (-((cs k).1 : ℝ)) _ _ (by positivity)
      (Real.abs_sin_le_one _) (by rw [abs_neg]; exact Real.abs_cos_le_one _) (Real.abs_cos_le_one _) (Real.abs_sin_le_one _) ihs
      (by rw [show 2 ^ 200 * -Real.cos k - -((cs k).1 : ℝ) = -(2 ^ 200 * Real.cos k - ((cs k).1 : ℝ)) by ring, abs_neg]; exact ihc)
      h1c h1s he
    have dc := div_near ((cs k).1 * c1 - (cs k).2 * d1) scale hS
    have ds := div_near ((cs k).2 * c1 + (cs k).1 * d1) scale hS
    rw [hSr] at dc ds
    push_cast at dc ds ⊢
    rw [cs, Real.cos_add, Real.sin_add, pow_succ (2 : ℝ) k]
    simp only
    generalize (2 : ℝ) ^ 200 = P at *
    rw [show Real.sin k * Real.cos 1 - -Real.cos k * Real.sin 1 = Real.sin k * Real.cos 1 + Real.cos k * Real.sin 1 by ring,
      show ((cs k).2 : ℝ) * c1 - -((cs k).1 : ℝ) * d1 = ((cs k).2 : ℝ) * c1 + ((cs k).1 : ℝ) * d1 by ring] at hs
    rw [abs_le] at hc hs dc ds
    refine ⟨abs_le.mpr ⟨?_, ?_⟩, abs_le.mpr ⟨?_, ?_⟩⟩ <;> linarith [hc.1, hc.2, hs.1, hs.2, dc.1, dc.2, ds.1, ds.2]

end Solace.Hash.Sine
