/-
Shared vocabulary of the model: bytes, outcomes of a C++ call, error codes, machine arithmetic.
-/
namespace Solace

/-- `byte` / `uint8` (/repo/include/solace/types.hpp). Characters (`char`) use the same type; where the code
promotes a `char` to `int` the model uses the signed reading `BitVec.toInt` (x86-64 ABI). -/
abbrev Byte := BitVec 8

/-- How a C++ call can end: a value, an exception leaving the call, `std::terminate` (an exception leaving a
`noexcept` function), or undefined behaviour. Non-termination is modelled separately, with fuel. -/
inductive Outcome (α : Type u) where
  | ok (a : α)
  | throws
  | terminate
  | ub
deriving DecidableEq, Repr

namespace Outcome

@[reducible] def bind (x : Outcome α) (f : α → Outcome β) : Outcome β :=
  match x with
  | ok a => f a
  | throws => throws
  | terminate => terminate
  | ub => ub

instance : Monad Outcome where
  pure := Outcome.ok
  bind := Outcome.bind

@[simp] theorem bind_ok (a : α) (f : α → Outcome β) : (Outcome.ok a >>= f) = f a := rfl
@[simp] theorem bind_throws (f : α → Outcome β) : ((Outcome.throws : Outcome α) >>= f) = .throws := rfl
@[simp] theorem bind_terminate (f : α → Outcome β) :
    ((Outcome.terminate : Outcome α) >>= f) = .terminate := rfl
@[simp] theorem bind_ub (f : α → Outcome β) : ((Outcome.ub : Outcome α) >>= f) = .ub := rfl
@[simp] theorem pure_def (a : α) : (pure a : Outcome α) = .ok a := rfl
@[simp] theorem map_def (f : α → β) (x : Outcome α) : f <$> x = x >>= fun a => .ok (f a) := rfl

/-- A call made from a `noexcept` function: an escaping exception terminates the program. -/
def noexcept (x : Outcome α) : Outcome α :=
  match x with
  | throws => terminate
  | y => y

@[simp] theorem noexcept_ok (a : α) : noexcept (ok a) = ok a := rfl
@[simp] theorem noexcept_throws : noexcept (throws : Outcome α) = terminate := rfl
@[simp] theorem noexcept_terminate : noexcept (terminate : Outcome α) = terminate := rfl
@[simp] theorem noexcept_ub : noexcept (ub : Outcome α) = ub := rfl

end Outcome

/-- Error codes used by the modelled functions (/repo/include/solace/posixErrorDomain.hpp and
/repo/include/solace/error.hpp). The text attached to an error is not modelled. -/
inductive Err where
  /-- `SystemErrors::Overflow` / `BasicError::Overflow` -/
  | overflow
  /-- `BasicError::InvalidInput` -/
  | invalidInput
  /-- `GenericError::DOM` -/
  | dom
  /-- `GenericError::NOMEM` -/
  | nomem
  /-- `GenericError::PERM` -/
  | perm
  /-- `SystemErrors::NODATA` -/
  | nodata
  /-- `SystemErrors::ILSEQ` -/
  | ilseq
  /-- the parse error of `tryParseAtom` -/
  | parse
  /-- an error made from `errno` -/
  | errno
deriving DecidableEq, Repr

deriving instance DecidableEq for Except

/-- Reduction of an arithmetic result to `size_t` / `uint64`. -/
@[irreducible] def wrap64 (n : Nat) : Nat := n % 2 ^ 64
/-- `a - b` on `size_t` / `uint64` operands. -/
@[irreducible] def sub64 (a b : Nat) : Nat := (a + 2 ^ 64 - b) % 2 ^ 64
/-- Reduction to `uint16` (`StringView::size_type`). -/
@[irreducible] def wrap16 (n : Nat) : Nat := n % 2 ^ 16
/-- `a - b` on `uint16` operands, reduced to `uint16`. -/
@[irreducible] def sub16 (a b : Nat) : Nat := (a + 2 ^ 16 - b) % 2 ^ 16
/-- Reduction to `uint32`. -/
@[irreducible] def wrap32 (n : Nat) : Nat := n % 2 ^ 32

theorem wrap64_def (n : Nat) : wrap64 n = n % 2 ^ 64 := by rw [wrap64]
theorem wrap64_of_lt {n : Nat} (h : n < 2 ^ 64) : wrap64 n = n := by rw [wrap64]; omega
theorem wrap64_le (n : Nat) : wrap64 n ≤ n := by rw [wrap64]; omega
theorem wrap64_lt (n : Nat) : wrap64 n < 2 ^ 64 := by rw [wrap64]; omega

theorem wrap32_def (n : Nat) : wrap32 n = n % 2 ^ 32 := by rw [wrap32]
theorem wrap32_of_lt {n : Nat} (h : n < 2 ^ 32) : wrap32 n = n := by rw [wrap32]; omega
theorem wrap32_le (n : Nat) : wrap32 n ≤ n := by rw [wrap32]; omega
theorem wrap32_lt (n : Nat) : wrap32 n < 2 ^ 32 := by rw [wrap32]; omega

theorem wrap16_def (n : Nat) : wrap16 n = n % 2 ^ 16 := by rw [wrap16]
theorem wrap16_of_lt {n : Nat} (h : n < 2 ^ 16) : wrap16 n = n := by rw [wrap16]; omega
theorem wrap16_le (n : Nat) : wrap16 n ≤ n := by rw [wrap16]; omega
theorem wrap16_lt (n : Nat) : wrap16 n < 2 ^ 16 := by rw [wrap16]; omega

theorem sub64_of_le {a b : Nat} (h : b ≤ a) (ha : a < 2 ^ 64) : sub64 a b = a - b := by
  rw [sub64]; omega

theorem sub64_of_lt {a b : Nat} (h : a < b) (_hb : b ≤ 2 ^ 64) : sub64 a b = a + 2 ^ 64 - b := by
  rw [sub64]; omega

theorem sub64_lt (a b : Nat) : sub64 a b < 2 ^ 64 := by
  rw [sub64]; omega

theorem sub16_of_le {a b : Nat} (h : b ≤ a) (ha : a < 2 ^ 16) : sub16 a b = a - b := by
  rw [sub16]; omega

theorem sub16_of_lt {a b : Nat} (h : a < b) (_hb : b ≤ 2 ^ 16) : sub16 a b = a + 2 ^ 16 - b := by
  rw [sub16]; omega

end Solace
