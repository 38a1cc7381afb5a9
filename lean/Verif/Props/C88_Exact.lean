import Verif.Props.C88_Assert
import Verif.Props.C67_Exact
/-
C88 exactly: the texts of failing assertions for tags and messages of every length.
-/
namespace Solace.Assert
open Exn

/-- What is left of a C string of any length: as many characters as its length modulo 65536. -/
def cut (tag : List Byte) : List Byte := tag.take (tag.length % 2 ^ 16)

theorem viewOf_eq (tag : List Byte) : viewOf tag = cut tag := by rw [viewOf, wrap16_def, cut]

theorem cut_length (tag : List Byte) : (cut tag).length = tag.length % 2 ^ 16 := by
  rw [cut, List.length_take]
  have := Nat.mod_le tag.length (2 ^ 16)
  omega

theorem cut_eq_iff (tag : List Byte) : cut tag = tag ↔ tag.length < 2 ^ 16 := by
  constructor
  · intro h
    have := congrArg List.length h
    rw [cut_length] at this
    omega
  · intro h
    rw [cut, Nat.mod_eq_of_lt h, List.take_length]

theorem complete_unique {r : Outcome ErrorString} {a b : List Byte} (ha : Complete r a) (hb : Complete r b) : a = b := by
  obtain ⟨s, h1, h2, -⟩ := ha
  obtain ⟨s', g1, g2, -⟩ := hb
  rw [h1] at g1
  cases g1
  rw [h2] at g2
  exact Outcome.ok.inj g2

/-- **C88** (exactly, memory available): the text of a failing `assertTrue`, `assertNull` and `assertNotNull` is what is left of
the tag, and so it is the tag if and only if that has less than 65536 characters. -/
theorem C88_texts_exact (strerror : Int → List Byte) (tag t : List Byte) (a : Nat) :
    (Raises strerror (assertTrue false tag) t ↔ t = cut tag) ∧
    (Raises strerror (assertNull (some a) tag) t ↔ t = cut tag) ∧
    (Raises strerror (assertNotNull none tag) t ↔ t = cut tag) ∧
    (Raises strerror (assertTrue false tag) tag ↔ tag.length < 2 ^ 16) := by
  have hc : Complete (construct true strerror (fail tag)) (cut tag) := by
    rw [fail, viewOf_eq]; exact ofView_complete _
  have key : ∀ (α : Type) (r : Except Exception α), r = .error (fail tag) → ∀ t, Raises strerror r t ↔ t = cut tag := by
    intro α r hr t
    constructor
    · rintro ⟨e, h1, h2⟩
      rw [hr] at h1
      cases h1
      exact complete_unique h2 hc
    · rintro rfl
      exact ⟨_, hr, hc⟩
  refine ⟨key _ _ rfl t, key _ _ rfl t, key _ _ rfl t, ?_⟩
  rw [key _ (assertTrue false tag) rfl tag, ← cut_eq_iff]
  exact eq_comm

/-- **C88** (exactly, memory available), `assertErrno`: with `t` the text made of what is left of the tag, the error number and
its description, the message is `t` if `t` has less than 65534 characters, and otherwise the call is undefined, because composing
the message writes outside its buffer. -/
theorem C88_errno_exact (strerror : Int → List Byte) (hse : ∀ c, (strerror c).length < 2 ^ 15) (errno : Int) (tag t : List Byte)
    (hc : -2 ^ 31 ≤ errno ∧ errno < 2 ^ 31) (ht : IsErrnoText strerror errno (cut tag) t) :
    ∃ e, assertErrno false errno tag = .error e ∧ errorCode e = some errno ∧
      (Complete (construct true strerror e) t ↔ t.length < 65534) ∧ (construct true strerror e = .ub ↔ 65534 ≤ t.length) := by
  refine ⟨_, rfl, rfl, ?_⟩
  have hl : (cut tag).length < 2 ^ 16 := by rw [cut_length]; exact Nat.mod_lt _ (by decide)
  have h := C67_exact strerror hse (.ioCodeText errno (cut tag)) hc hl t ht
  rw [failErrno, viewOf_eq]
  simp only [slack, Overruns] at h
  exact ⟨h.1.trans (by omega), h.2.1.trans (by omega)⟩

/-- **C88** (exactly, memory available), range assertions with a message: as before, with eight characters. Without a message the
text is always complete. -/
theorem C88_range_exact (strerror : Int → List Byte) (hse : ∀ c, (strerror c).length < 2 ^ 15) (index from' to' : Nat)
    (message t : List Byte) (hr : index < 2 ^ 64 ∧ from' < 2 ^ 64 ∧ to' < 2 ^ 64) :
    (¬ (from' ≤ index ∧ index < to') → IsRangeText (cut message) [] (lit "is out of range") index from' to' t →
      ∃ e, valueInRangeWith index from' to' message = .error e ∧
        (Complete (construct true strerror e) t ↔ t.length < 65528) ∧ (construct true strerror e = .ub ↔ 65528 ≤ t.length)) ∧
    (to' ≤ index → IsRangeText (cut message) [] (lit "is out of range") index 0 to' t →
      ∃ e, indexInRange index to' message = .error e ∧
        (Complete (construct true strerror e) t ↔ t.length < 65528) ∧ (construct true strerror e = .ub ↔ 65528 ≤ t.length)) ∧
    (¬ (from' ≤ index ∧ index < to') → IsRangeText (lit "Index out of range") [] (lit "is out of range") index from' to' t →
      Raises strerror (valueInRange index from' to') t) := by
  have hl : (cut message).length < 2 ^ 16 := by rw [cut_length]; exact Nat.mod_lt _ (by decide)
  have key : ∀ lo, lo < 2 ^ 64 → IsRangeText (cut message) [] (lit "is out of range") index lo to' t →
      (Complete (construct true strerror (.indexOutOfRangeWith index lo to' (viewOf message))) t ↔ t.length < 65528) ∧
      (construct true strerror (.indexOutOfRangeWith index lo to' (viewOf message)) = .ub ↔ 65528 ≤ t.length) := by
    intro lo hlo ht
    have h := C67_exact strerror hse (.indexOutOfRangeWith index lo to' (cut message)) ⟨hr.1, hlo, hr.2.2⟩ hl t ht
    rw [viewOf_eq]
    simp only [slack, Overruns] at h
    exact ⟨h.1.trans (by omega), h.2.1.trans (by omega)⟩
  refine ⟨fun h ht => ⟨_, ?_, key from' hr.2.1 ht⟩, fun h ht => ⟨_, ?_, key 0 (by omega) ht⟩, fun h ht => ?_⟩
  · rw [valueInRangeWith, if_pos (by omega)]
  · rw [indexInRange, if_pos h]
  · refine (C88_range_text_partial strerror index from' to' message t hr ?_).1 h ht
    have p1 : (lit "Index out of range").length = 18 := by decide +kernel
    have r1 : (lit "is out of range").length = 15 := by decide +kernel
    obtain ⟨a, b, c, h1, h2, h3, rfl⟩ := ht
    rw [Decimal.isDecimal_unique h1 (Decimal.decimalText_spec hr.1), Decimal.isDecimal_unique h2 (Decimal.decimalText_spec hr.2.1),
      Decimal.isDecimal_unique h3 (Decimal.decimalText_spec hr.2.2)]
    have i1 := (decimalText_length index).2
    have i2 := (decimalText_length from').2
    have i3 := (decimalText_length to').2
    simp only [if_true, List.length_append, p1, r1, len_space, len_range, len_comma, len_paren, len_colon]
    omega

/-- **C88** (exactly, memory available), `raiseInvalidStateError(tag)`: the text is complete if and only if what is left of the tag
has less than 65522 characters; the call is never undefined. -/
theorem C88_invalid_state_exact (strerror : Int → List Byte) (hse : ∀ c, (strerror c).length < 2 ^ 15) (tag : List Byte) :
    (Complete (construct true strerror (invalidStateTag tag)) (lit "Invalid State " ++ cut tag) ↔ tag.length % 2 ^ 16 < 65522) ∧
    construct true strerror (invalidStateTag tag) ≠ .ub := by
  have e : lit "Invalid State " = lit "Invalid State" ++ lit " " := by decide +kernel
  have hl : (lit "Invalid State" ++ lit " ").length = 14 := by decide +kernel
  have hc : (cut tag).length < 2 ^ 16 := by rw [cut_length]; exact Nat.mod_lt _ (by decide)
  have h := C67_exact strerror hse (.invalidStateTag (cut tag)) trivial hc _ rfl
  rw [invalidStateTag, viewOf_eq, e]
  refine ⟨h.1.trans ?_, fun hu => (h.2.1.mp hu).elim⟩
  rw [List.length_append, hl, cut_length]
  simp only [slack]
  omega

example : cut (List.replicate 65537 0x61#8) = [0x61#8] := by
  rw [cut, List.length_replicate, List.take_replicate]; rfl
example : IsErrnoText (fun _ => lit "E") 5 [0x61#8] (lit "a[5]: E") :=
  ⟨signedText 5, signedText_spec 5 (by omega), by decide +kernel⟩

/-- The code an exception was made with, if it was made with one. -/
def CodeGiven (e : Exn.Exception) (c : Int) : Prop := e = .ioCode c ∨ ∃ text, e = .ioCodeText c text

/-- **C88**: the codes exceptions of input and output report. Made with a code they report it, made without one they report -1,
which is no error number; `NotOpen` is the exception made with its text, and no other exception has a code. So a code that is not
negative is the one given. -/
theorem C88_code (ok : Bool) (strerror : Int → List Byte) (e : Exn.Exception) (c : Int) :
    (CodeGiven e c → errorCode e = some c) ∧
    (errorCode e = some c → 0 ≤ c → CodeGiven e c) ∧
    (∀ text, errorCode (.io text) = some (-1)) ∧
    errorCode .notOpen = errorCode (.io (lit "File descriptor not opened")) ∧
    construct ok strerror .notOpen = construct ok strerror (.io (lit "File descriptor not opened")) := by
  refine ⟨?_, ?_, fun _ => rfl, rfl, rfl⟩
  · rintro (rfl | ⟨t, rfl⟩) <;> rfl
  · intro h hc
    cases e with
    | io t => simp only [errorCode, Option.some.injEq] at h; omega
    | notOpen => simp only [errorCode, Option.some.injEq] at h; omega
    | ioCode k => simp only [errorCode, Option.some.injEq] at h; exact .inl (by rw [h])
    | ioCodeText k t => simp only [errorCode, Option.some.injEq] at h; exact .inr ⟨t, by rw [h]⟩
    | _ => cases h

example : CodeGiven (.ioCodeText 5 [0x61#8]) 5 := .inr ⟨_, rfl⟩

end Solace.Assert
