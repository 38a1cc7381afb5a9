import Verif.Lemmas.Sine
import Verif.Model.Md5
import Verif.Model.Sha1
import Verif.Model.Sha2
import Mathlib.Analysis.SpecialFunctions.Pow.Real
import Mathlib.NumberTheory.PrimeCounting
/-
C79: the constants in the digest code are those the standards define by real numbers.
-/
namespace Solace.Hash

namespace Md5

/-- The constants of the 64 steps, in order. -/
def constants : List Word := (round1 ++ round2 ++ round3 ++ round4).map (·.t)

/-- The check of one constant against the integer approximation of the sine. -/
def tableOk (i : Nat) : Bool :=
  let d := (Sine.cs (i + 1)).2.natAbs
  let t := (constants[i]?.getD 0).toNat
  decide (2 ^ 168 * t + 9 * 2 ^ 64 ≤ d) && decide (d + 9 * 2 ^ 64 < 2 ^ 168 * (t + 1))

theorem table_ok : ∀ i < 64, tableOk i = true := by decide +kernel

/-- **C79**, MD5: the constant of step `i` (from 1) is the integer part of 2^32 |sin i|, as RFC 1321 section 3.4 says. -/
theorem C79_md5 : constants.length = 64 ∧
    ∀ i (hi : i < constants.length), ((constants[i]).toNat : ℤ) = ⌊(2 : ℝ) ^ 32 * |Real.sin ((i + 1 : ℕ) : ℝ)|⌋ := by
  have hlen : constants.length = 64 := by decide
  refine ⟨hlen, fun i hi => ?_⟩
  have hi' : i < 64 := hlen ▸ hi
  have h := table_ok i hi'
  unfold tableOk at h
  have hget : constants[i]?.getD 0 = constants[i] := by rw [List.getElem?_eq_getElem hi]; rfl
  simp only [hget, Bool.and_eq_true, decide_eq_true_eq] at h
  obtain ⟨h1, h2⟩ := h
  have hn := (Sine.cs_near (i + 1) (by omega)).2
  generalize (constants[i]).toNat = t at *
  generalize (Sine.cs (i + 1)).2 = d at *
  symm
  rw [Int.floor_eq_iff]
  have hpow : (2 : ℝ) ^ (i + 1) ≤ 2 ^ 64 := pow_le_pow_right₀ (by norm_num) (by omega)
  have hd : ((d.natAbs : ℕ) : ℝ) = |(d : ℝ)| := by
    rw [Nat.cast_natAbs]; push_cast; rfl
  have h1' : (2 : ℝ) ^ 168 * t + 9 * 2 ^ 64 ≤ |(d : ℝ)| := by rw [← hd]; exact_mod_cast h1
  have h2' : |(d : ℝ)| + 9 * 2 ^ 64 < (2 : ℝ) ^ 168 * (t + 1) := by rw [← hd]; exact_mod_cast h2
  have hs : |2 ^ 200 * Real.sin ((i + 1 : ℕ) : ℝ)| = 2 ^ 200 * |Real.sin ((i + 1 : ℕ) : ℝ)| := by
    rw [abs_mul, abs_of_pos (by positivity)]
  have ha := abs_sub_abs_le_abs_sub (2 ^ 200 * Real.sin ((i + 1 : ℕ) : ℝ)) (d : ℝ)
  have hb := abs_sub_abs_le_abs_sub (d : ℝ) (2 ^ 200 * Real.sin ((i + 1 : ℕ) : ℝ))
  rw [abs_sub_comm (d : ℝ)] at hb
  rw [hs] at ha hb
  generalize |Real.sin ((i + 1 : ℕ) : ℝ)| = x at *
  generalize |(d : ℝ)| = e at *
  norm_num at *
  constructor <;> linarith

end Md5

/-- Square roots by integers: `r = ⌊2^k √n⌋` if `r^2 ≤ 4^k n < (r+1)^2`. -/
theorem floor_sqrt (k n r : ℕ) (h1 : r ^ 2 ≤ 4 ^ k * n) (h2 : 4 ^ k * n < (r + 1) ^ 2) :
    ⌊(2 : ℝ) ^ k * √n⌋ = r := by
  rw [Int.floor_eq_iff]
  have hx : (0 : ℝ) ≤ √n := Real.sqrt_nonneg _
  have hsq : ((2 : ℝ) ^ k * √n) ^ 2 = 4 ^ k * n := by
    rw [mul_pow, Real.sq_sqrt (by positivity), ← pow_mul, mul_comm k 2, pow_mul]; norm_num
  have h1' : (r : ℝ) ^ 2 ≤ 4 ^ k * n := by exact_mod_cast h1
  have h2' : (4 : ℝ) ^ k * n < (r + 1) ^ 2 := by exact_mod_cast h2
  rw [← hsq] at h1' h2'
  constructor
  · push_cast; exact (pow_le_pow_iff_left₀ (by positivity) (by positivity) (by norm_num)).mp h1'
  · push_cast; exact lt_of_pow_lt_pow_left₀ 2 (by positivity) h2'

/-- **C79**, SHA-1: the constants of the four rounds are the integer parts of 2^30 times the square roots of 2, 3, 5 and 10. -/
theorem C79_sha1 : (Sha1.K1.toNat : ℤ) = ⌊(2 : ℝ) ^ 30 * √(2 : ℕ)⌋ ∧ (Sha1.K2.toNat : ℤ) = ⌊(2 : ℝ) ^ 30 * √(3 : ℕ)⌋ ∧
    (Sha1.K3.toNat : ℤ) = ⌊(2 : ℝ) ^ 30 * √(5 : ℕ)⌋ ∧ (Sha1.K4.toNat : ℤ) = ⌊(2 : ℝ) ^ 30 * √(10 : ℕ)⌋ :=
  ⟨(floor_sqrt 30 2 _ (by decide +kernel) (by decide +kernel)).symm,
   (floor_sqrt 30 3 _ (by decide +kernel) (by decide +kernel)).symm,
   (floor_sqrt 30 5 _ (by decide +kernel) (by decide +kernel)).symm,
   (floor_sqrt 30 10 _ (by decide +kernel) (by decide +kernel)).symm⟩

namespace Sha2

/-- Trial division. -/
def isPrime (n : Nat) : Bool := decide (2 ≤ n) && (List.range n).all fun d => decide (d < 2) || n % d != 0

theorem isPrime_iff (n : Nat) : isPrime n = true ↔ n.Prime := by
  rw [isPrime, Bool.and_eq_true, decide_eq_true_eq, List.all_eq_true, Nat.prime_def_lt']
  refine and_congr_right fun _ => ⟨fun h m hm hlt hd => ?_, fun h d hd => ?_⟩
  · have := h m (List.mem_range.mpr hlt)
    simp only [Bool.or_eq_true, decide_eq_true_eq, bne_iff_ne] at this
    rcases this with h' | h'
    · omega
    · exact h' (Nat.mod_eq_zero_of_dvd hd)
  · simp only [Bool.or_eq_true, decide_eq_true_eq, bne_iff_ne]
    by_cases h2 : d < 2
    · exact .inl h2
    · exact .inr fun h0 => h d (by omega) (List.mem_range.mp hd) (Nat.dvd_of_mod_eq_zero h0)

theorem nth_prime (t q : Nat) (hq : isPrime q = true) (hc : ((List.range q).filter isPrime).length = t) :
    Nat.nth Nat.Prime t = q := by
  have hcount : ∀ n, Nat.count Nat.Prime n = ((List.range n).filter isPrime).length := by
    intro n
    induction n with
    | zero => rfl
    | succ n ih =>
      rw [Nat.count_succ, ih, List.range_succ, List.filter_append, List.length_append]
      congr 1
      by_cases h : isPrime n = true
      · rw [if_pos ((isPrime_iff n).mp h)]; simp [h]
      · rw [if_neg fun h' => h ((isPrime_iff n).mpr h')]; simp [h]
  rw [← hc, ← hcount]
  exact Nat.nth_count ((isPrime_iff q).mp hq)

/-- If `x^k = n` and `r^k ≤ n 2^(32 k) < (r+1)^k` then `r` modulo 2^32 is the first 32 bits of the fractional part of `x`. -/
theorem fract_root (k n r : ℕ) (hk : k ≠ 0) (x : ℝ) (hx : 0 ≤ x) (hxk : x ^ k = n) (h1 : r ^ k ≤ n * 2 ^ (32 * k))
    (h2 : n * 2 ^ (32 * k) < (r + 1) ^ k) : ⌊(2 : ℝ) ^ 32 * Int.fract x⌋ = ((r % 2 ^ 32 : ℕ) : ℤ) := by
  have hp : (x * 2 ^ 32) ^ k = n * 2 ^ (32 * k) := by rw [mul_pow, hxk, ← pow_mul]
  have h1' : (r : ℝ) ^ k ≤ (x * 2 ^ 32) ^ k := by rw [hp]; exact_mod_cast h1
  have h2' : (x * 2 ^ 32) ^ k < ((r : ℝ) + 1) ^ k := by rw [hp]; exact_mod_cast h2
  have l1 : (r : ℝ) ≤ x * 2 ^ 32 := (pow_le_pow_iff_left₀ (by positivity) (by positivity) hk).mp h1'
  have l2 : x * 2 ^ 32 < (r : ℝ) + 1 := (pow_lt_pow_iff_left₀ (by positivity) (by positivity) hk).mp h2'
  have hdm := Nat.div_add_mod r (2 ^ 32)
  have hm : r % 2 ^ 32 < 2 ^ 32 := Nat.mod_lt _ (by positivity)
  generalize r % 2 ^ 32 = m at *
  generalize r / 2 ^ 32 = q at *
  have hdm' : (2 : ℝ) ^ 32 * q + m = r := by exact_mod_cast hdm
  have hm' : (m : ℝ) + 1 ≤ 2 ^ 32 := by exact_mod_cast hm
  have hm0 : (0 : ℝ) ≤ m := by positivity
  have hfl : ⌊x⌋ = (q : ℤ) := by
    rw [Int.floor_eq_iff]
    push_cast
    norm_num at *
    constructor <;> linarith
  rw [Int.fract, hfl, Int.floor_eq_iff]
  push_cast
  norm_num at *
  constructor <;> linarith

/-- The primes below 312, and a whole-table check of the constants against them. -/
def kOk (t : Nat) : Bool :=
  let q := ((List.range 312).filter isPrime)[t]?.getD 0
  let w := (K[t]?.getD 0).toNat
  (List.range 7).any fun a =>
    let r := a * 2 ^ 32 + w
    isPrime q && decide (((List.range q).filter isPrime).length = t) && decide (r ^ 3 ≤ q * 2 ^ (32 * 3)) &&
      decide (q * 2 ^ (32 * 3) < (r + 1) ^ 3)

theorem k_ok : ∀ t < 64, kOk t = true := by decide +kernel

/-- The same for the initial values. -/
def hOk (t : Nat) : Bool :=
  let q := ((List.range 20).filter isPrime)[t]?.getD 0
  let w := (init.state[t]?.getD 0).toNat
  (List.range 7).any fun a =>
    let r := a * 2 ^ 32 + w
    isPrime q && decide (((List.range q).filter isPrime).length = t) && decide (r ^ 2 ≤ q * 2 ^ (32 * 2)) &&
      decide (q * 2 ^ (32 * 2) < (r + 1) ^ 2)

theorem h_ok : ∀ t < 8, hOk t = true := by decide +kernel

end Sha2

/-- **C79**, SHA-256: constant `t` is the first 32 bits of the fractional part of the cube root of the `t`th prime number, as
FIPS 180-4 section 4.2.2 says. -/
theorem C79_sha256 : Sha2.K.length = 64 ∧ ∀ t (ht : t < Sha2.K.length) (x : ℝ), 0 ≤ x →
    x ^ 3 = (Nat.nth Nat.Prime t : ℝ) → ((Sha2.K[t]).toNat : ℤ) = ⌊(2 : ℝ) ^ 32 * Int.fract x⌋ := by
  have hlen : Sha2.K.length = 64 := by decide
  refine ⟨hlen, fun t ht x hx hx3 => ?_⟩
  have h := Sha2.k_ok t (hlen ▸ ht)
  unfold Sha2.kOk at h
  have hget : Sha2.K[t]?.getD 0 = Sha2.K[t] := by rw [List.getElem?_eq_getElem ht]; rfl
  simp only [hget, List.any_eq_true, Bool.and_eq_true, decide_eq_true_eq] at h
  obtain ⟨a, _, ⟨⟨hp, hc⟩, h1⟩, h2⟩ := h
  rw [Sha2.nth_prime _ _ hp hc] at hx3
  rw [Sha2.fract_root 3 _ _ (by norm_num) x hx hx3 h1 h2]
  congr 1
  have := (Sha2.K[t]).isLt
  omega

/-- Such an `x` exists. -/
example (t : ℕ) : ∃ x : ℝ, 0 ≤ x ∧ x ^ 3 = (Nat.nth Nat.Prime t : ℝ) :=
  ⟨(Nat.nth Nat.Prime t : ℝ) ^ (((3 : ℕ) : ℝ)⁻¹), by positivity, Real.rpow_inv_natCast_pow (by positivity) (by norm_num)⟩

/-- **C79**, SHA-256: word `t` of the initial state is the first 32 bits of the fractional part of the square root of the `t`th
prime number (section 5.3.3). -/
theorem C79_sha256_init : Sha2.init.state.length = 8 ∧ ∀ t (ht : t < Sha2.init.state.length),
    ((Sha2.init.state[t]).toNat : ℤ) = ⌊(2 : ℝ) ^ 32 * Int.fract (√(Nat.nth Nat.Prime t : ℝ))⌋ := by
  have hlen : Sha2.init.state.length = 8 := by decide
  refine ⟨hlen, fun t ht => ?_⟩
  have h := Sha2.h_ok t (hlen ▸ ht)
  unfold Sha2.hOk at h
  have hget : Sha2.init.state[t]?.getD 0 = Sha2.init.state[t] := by rw [List.getElem?_eq_getElem ht]; rfl
  simp only [hget, List.any_eq_true, Bool.and_eq_true, decide_eq_true_eq] at h
  obtain ⟨a, _, ⟨⟨hp, hc⟩, h1⟩, h2⟩ := h
  rw [Sha2.nth_prime _ _ hp hc]
  rw [Sha2.fract_root 2 _ _ (by norm_num) _ (Real.sqrt_nonneg _) (Real.sq_sqrt (by positivity)) h1 h2]
  congr 1
  have := (Sha2.init.state[t]).isLt
  omega

end Solace.Hash
