import Verif.Model.FixedSizeDigest
/-
C75: the length a digest of fixed size declares.
-/
namespace Solace.Hash.Fixed

/-- **C75** (full): a digest of `n` bytes declares `8 n` bits modulo 2^32. -/
theorem C75_fixed (n : Nat) : digestLength n = 8 * n % 2 ^ 32 := by
  rw [digestLength, size, wrap32_def, wrap32_def]
  omega

/-- **C75** (full): so it declares its length exactly when it has less than 2^29 bytes, and its size when less than 2^32. -/
theorem C75_fixed_exact (n : Nat) : (digestLength n = 8 * n ↔ n < 2 ^ 29) ∧ (size n = n ↔ n < 2 ^ 32) := by
  rw [C75_fixed, size, wrap32_def]
  omega

example : digestLength 32 = 256 ∧ digestLength (2 ^ 29) = 0 := by decide +kernel

end Solace.Hash.Fixed
