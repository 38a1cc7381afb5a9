import Verif.Model.Assert
import Verif.Props.C67_Exception
/-
C88: assertions let a value through exactly when it meets the condition, and otherwise throw an exception with a text that
tells what was wrong.
-/
namespace Solace.Assert
open Exn

/-- The call throws an exception whose text is `t`, with memory for the text available. -/
def Raises {α : Type} (strerror : Int → List Byte) (r : Except Exception α) (t : List Byte) : Prop :=
  ∃ e, r = .error e ∧ Complete (construct true strerror e) t

theorem viewOf_short (tag : List Byte) (h : tag.length < 2 ^ 16) : viewOf tag = tag := by
  rw [viewOf, wrap16_of_lt h, List.take_length]

/-- **C88** (full): an index is returned unchanged exactly when it is in the range, and every other one is an exception. -/
theorem C88_range (index from' to' : Nat) (message : List Byte) :
    (valueInRange index from' to' = .ok index ↔ from' ≤ index ∧ index < to') ∧
    (valueInRangeWith index from' to' message = .ok index ↔ from' ≤ index ∧ index < to') ∧
    (indexInRange index to' message = .ok index ↔ index < to') ∧
    (∀ i, valueInRange index from' to' = .ok i ∨ valueInRangeWith index from' to' message = .ok i ∨
      indexInRange index to' message = .ok i → i = index) := by
  refine ⟨?_, ?_, ?_, ?_⟩
  · rw [valueInRange]
    split
    · simp only [reduceCtorEq, false_iff]; omega
    · simp only [true_iff]; omega
  · rw [valueInRangeWith]
    split
    · simp only [reduceCtorEq, false_iff]; omega
    · simp only [true_iff]; omega
  · rw [indexInRange]
    split
    · simp only [reduceCtorEq, false_iff]; omega
    · simp only [true_iff]; omega
  · rintro i (h | h | h)
    · rw [valueInRange] at h
      split at h <;> cases h
      rfl
    · rw [valueInRangeWith] at h
      split at h <;> cases h
      rfl
    · rw [indexInRange] at h
      split at h <;> cases h
      rfl

theorem rangeText_prefix {pre name reason : List Byte} {i lo hi : Nat} {t : List Byte} (h : IsRangeText pre name reason i lo hi t) :
    pre.length ≤ t.length := by
  obtain ⟨a, b, c, _, _, _, rfl⟩ := h
  simp only [List.length_append]
  omega

/-- **C88** (partial: memory for the text is available and the text is shorter than 2^16 - 8 characters), the texts of failing
range assertions name the index and the range, after the message. -/
theorem C88_range_text_partial (strerror : Int → List Byte) (index from' to' : Nat) (message t : List Byte)
    (hr : index < 2 ^ 64 ∧ from' < 2 ^ 64 ∧ to' < 2 ^ 64) (hl : t.length + 8 < 2 ^ 16) :
    (¬ (from' ≤ index ∧ index < to') → IsRangeText (lit "Index out of range") [] (lit "is out of range") index from' to' t →
      Raises strerror (valueInRange index from' to') t) ∧
    (¬ (from' ≤ index ∧ index < to') → IsRangeText message [] (lit "is out of range") index from' to' t →
      Raises strerror (valueInRangeWith index from' to' message) t) ∧
    (to' ≤ index → IsRangeText message [] (lit "is out of range") index 0 to' t →
      Raises strerror (indexInRange index to' message) t) := by
  refine ⟨fun h ht => ?_, fun h ht => ?_, fun h ht => ?_⟩
  · refine ⟨.indexOutOfRangeOf index from' to', ?_, C67_text_partial strerror (.indexOutOfRangeOf index from' to') hr t ht hl⟩
    rw [valueInRange, if_pos (by omega)]
  · have hm := rangeText_prefix ht
    refine ⟨.indexOutOfRangeWith index from' to' message, ?_,
      C67_text_partial strerror (.indexOutOfRangeWith index from' to' message) hr t ht hl⟩
    rw [valueInRangeWith, if_pos (by omega), viewOf_short _ (by omega)]
  · have hm := rangeText_prefix ht
    refine ⟨.indexOutOfRangeWith index 0 to' message, ?_,
      C67_text_partial strerror (.indexOutOfRangeWith index 0 to' message) ⟨hr.1, by omega, hr.2.2⟩ t ht hl⟩
    rw [indexInRange, if_pos h, viewOf_short _ (by omega)]

/-- **C88** (full): a condition passes exactly when it is true, a pointer passes `assertNull` exactly when it is null and
`assertNotNull` exactly when it is not, and the pointer is returned. -/
theorem C88_conditions (condition : Bool) (errno : Int) (ptr : Option Nat) (tag : List Byte) :
    (assertTrue condition tag = .ok () ↔ condition = true) ∧
    (assertTrue1 condition = .ok () ↔ condition = true) ∧
    (assertErrno condition errno tag = .ok () ↔ condition = true) ∧
    (∀ q, assertNull ptr tag = .ok q ↔ ptr = none ∧ q = none) ∧
    (∀ q, assertNotNull ptr tag = .ok q ↔ q = ptr ∧ ∃ a, ptr = some a) ∧
    (∀ q, assertNull1 ptr = .ok q ↔ ptr = none ∧ q = none) ∧
    (∀ q, assertNotNull1 ptr = .ok q ↔ q = ptr ∧ ∃ a, ptr = some a) := by
  refine ⟨?_, ?_, ?_, ?_, ?_, ?_, ?_⟩
  · cases condition <;> simp [assertTrue]
  · cases condition <;> simp [assertTrue1, assertTrue]
  · cases condition <;> simp [assertErrno]
  · intro q
    cases ptr <;> simp [assertNull, assertTrue, Except.bind, eq_comm]
  · intro q
    cases ptr <;> simp [assertNotNull, assertTrue, Except.bind, @eq_comm _ q]
  · intro q
    cases ptr <;> simp [assertNull1, assertNull, assertTrue, Except.bind, eq_comm]
  · intro q
    cases ptr <;> simp [assertNotNull1, assertNotNull, assertTrue, Except.bind, @eq_comm _ q]

theorem fail_complete (strerror : Int → List Byte) (tag : List Byte) (h : tag.length < 2 ^ 16) :
    Complete (construct true strerror (fail tag)) tag := by
  rw [fail, viewOf_short tag h]
  exact ofView_complete tag

/-- **C88** (partial: memory for the text is available and the tag is shorter than 2^16 characters), the texts of failing
assertions: the tag, or what the one-argument forms say. -/
theorem C88_texts_partial (strerror : Int → List Byte) (tag : List Byte) (a : Nat) (h : tag.length < 2 ^ 16) :
    Raises strerror (assertTrue false tag) tag ∧
    Raises strerror (assertTrue1 false) (lit "Assertion failed") ∧
    Raises strerror (assertNull (some a) tag) tag ∧
    Raises strerror (assertNotNull none tag) tag ∧
    Raises strerror (assertNotNull1 none) (lit "Assertion violation: Null pointer value passed.") := by
  refine ⟨⟨_, rfl, fail_complete strerror tag h⟩, ⟨_, rfl, fail_complete strerror _ (by decide +kernel)⟩,
    ⟨_, rfl, fail_complete strerror tag h⟩, ⟨_, rfl, fail_complete strerror tag h⟩,
    ⟨_, rfl, fail_complete strerror _ (by decide +kernel)⟩⟩

/-- **C88** (partial, as before), `assertErrno` and `raiseInvalidStateError`: the text is the tag with the error number and
its description, and the exception carries the error number. -/
theorem C88_errno_partial (strerror : Int → List Byte) (errno : Int) (tag t : List Byte) (hc : -2 ^ 31 ≤ errno ∧ errno < 2 ^ 31)
    (ht : IsErrnoText strerror errno tag t) (hl : t.length + 8 < 2 ^ 16) :
    ∃ e, assertErrno false errno tag = .error e ∧ errorCode e = some errno ∧ Complete (construct true strerror e) t := by
  have hm : tag.length ≤ t.length := by
    obtain ⟨c, _, rfl⟩ := ht
    simp only [List.length_append]
    omega
  refine ⟨_, rfl, rfl, ?_⟩
  rw [failErrno, viewOf_short tag (by omega)]
  exact C67_text_partial strerror (.ioCodeText errno tag) hc t ht hl

theorem C88_invalid_state_partial (strerror : Int → List Byte) (tag : List Byte) (h : tag.length + 14 < 2 ^ 16) :
    Complete (construct true strerror invalidState) (lit "Invalid State") ∧
    Complete (construct true strerror (invalidStateTag tag)) (lit "Invalid State " ++ tag) := by
  refine ⟨ofView_complete _, ?_⟩
  have e : lit "Invalid State " = lit "Invalid State" ++ lit " " := by decide +kernel
  have hl : (lit "Invalid State" ++ lit " ").length = 14 := by decide +kernel
  rw [invalidStateTag, viewOf_short tag (by omega), e]
  exact join_complete _ tag (by rw [List.length_append, hl]; omega)

/-- **C88, negation**: a pointer that should have been null but was not is reported as a null pointer, with the text of the
opposite assertion. -/
theorem C88_null_text_wrong (strerror : Int → List Byte) (a : Nat) :
    Raises strerror (assertNull1 (some a)) (lit "Assertion violation: Null pointer value passed.") ∧
    assertNull1 (some a) = assertNotNull1 none :=
  ⟨⟨_, rfl, fail_complete strerror _ (by decide +kernel)⟩, rfl⟩

/-- **C88, negation**: the text of a tag of 65536 characters is empty. -/
theorem C88_long_tag (strerror : Int → List Byte) (tag : List Byte) (h : tag.length = 2 ^ 16) :
    Raises strerror (assertTrue false tag) [] := by
  refine ⟨_, rfl, ?_⟩
  have e : wrap16 (2 ^ 16) = 0 := by rw [wrap16_def, Nat.mod_self]
  rw [fail, viewOf, h, e, List.take_zero]
  exact ofView_complete []

example : valueInRange 5 1 6 = .ok 5 ∧ valueInRange 6 1 6 = .error (.indexOutOfRangeOf 6 1 6) ∧
    valueInRange 0 1 6 = .error (.indexOutOfRangeOf 0 1 6) := by decide +kernel
/-- The hypotheses of `C88_range_text_partial` and `C88_errno_partial` can be met. -/
example : IsRangeText (lit "at") [] (lit "is out of range") 7 0 5 (lit "at: 7 is out of range [0, 5)") ∧
    (lit "at: 7 is out of range [0, 5)").length + 8 < 2 ^ 16 := by
  refine ⟨⟨decimalText 7, decimalText 0, decimalText 5, Decimal.decimalText_spec (by omega),
    Decimal.decimalText_spec (by omega), Decimal.decimalText_spec (by omega), by decide +kernel⟩, by decide +kernel⟩
example : IsErrnoText (fun _ => lit "No such file") 2 (lit "open") (lit "open[2]: No such file") :=
  ⟨signedText 2, signedText_spec 2 (by omega), by decide +kernel⟩

end Solace.Assert
