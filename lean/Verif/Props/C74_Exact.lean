import Verif.Props.C71_C74_Char
/-! C74 on both byte orders and for all code values. -/
namespace Solace.Chr

/-- **C74, exactly, big-endian hosts, code values up to 255**: the classes and cases are as on a little-endian host, but the
underscore is no symbol and there is no new line. -/
theorem C74_big_exact (v : Nat) (hv : v ≤ 255) :
    isDigit true (ofValue true v) = isDigit false (ofValue false v) ∧
    isXDigit true (ofValue true v) = isXDigit false (ofValue false v) ∧
    isUpperCase true (ofValue true v) = isUpperCase false (ofValue false v) ∧
    isLowerCase true (ofValue true v) = isLowerCase false (ofValue false v) ∧
    isLetter true (ofValue true v) = isLetter false (ofValue false v) ∧
    isLetterOrDigit true (ofValue true v) = isLetterOrDigit false (ofValue false v) ∧
    isWhitespace true (ofValue true v) = isWhitespace false (ofValue false v) ∧
    isPunctuation true (ofValue true v) = isPunctuation false (ofValue false v) ∧
    isCntrl true (ofValue true v) = isCntrl false (ofValue false v) ∧
    isPrintable true (ofValue true v) = isPrintable false (ofValue false v) ∧
    isGraphical true (ofValue true v) = isGraphical false (ofValue false v) ∧
    isSymbol true (ofValue true v) = .ok (decide (v ∈ uppers ++ lowers ++ digits)) ∧
    isFirstSymbol true (ofValue true v) = .ok (decide (v ∈ uppers ++ lowers)) ∧
    isNewLine (ofValue true v) = false ∧
    toLower true (ofValue true v) = .ok (ofValue true (if v ∈ uppers then v + 32 else v)) ∧
    toUpper true (ofValue true v) = .ok (ofValue true (if v ∈ lowers then v - 32 else v)) := by
  have table : ∀ w : Fin 256,
    isDigit true (ofValue true w) = isDigit false (ofValue false w) ∧
    isXDigit true (ofValue true w) = isXDigit false (ofValue false w) ∧
    isUpperCase true (ofValue true w) = isUpperCase false (ofValue false w) ∧
    isLowerCase true (ofValue true w) = isLowerCase false (ofValue false w) ∧
    isLetter true (ofValue true w) = isLetter false (ofValue false w) ∧
    isLetterOrDigit true (ofValue true w) = isLetterOrDigit false (ofValue false w) ∧
    isWhitespace true (ofValue true w) = isWhitespace false (ofValue false w) ∧
    isPunctuation true (ofValue true w) = isPunctuation false (ofValue false w) ∧
    isCntrl true (ofValue true w) = isCntrl false (ofValue false w) ∧
    isPrintable true (ofValue true w) = isPrintable false (ofValue false w) ∧
    isGraphical true (ofValue true w) = isGraphical false (ofValue false w) ∧
    isSymbol true (ofValue true w) = .ok (decide (w.val ∈ uppers ++ lowers ++ digits)) ∧
    isFirstSymbol true (ofValue true w) = .ok (decide (w.val ∈ uppers ++ lowers)) ∧
    isNewLine (ofValue true w) = false ∧
    toLower true (ofValue true w) = .ok (ofValue true (if w.val ∈ uppers then w.val + 32 else w.val)) ∧
    toUpper true (ofValue true w) = .ok (ofValue true (if w.val ∈ lowers then w.val - 32 else w.val)) := by decide +kernel
  exact table ⟨v, by omega⟩

theorem byte_eq (n m : Nat) (hm : m < 256) : (BitVec.ofNat 8 n = BitVec.ofNat 8 m) ↔ n % 256 = m := by
  rw [← BitVec.toNat_inj, BitVec.toNat_ofNat, BitVec.toNat_ofNat, Nat.mod_eq_of_lt (a := m) (by omega)]

/-- **C74, exactly, new lines**: on a little-endian host the characters with a code value whose low 16 bits are 10, on a
big-endian one those whose high 16 bits are 0x0A00. -/
theorem C74_newline_exact (v : Nat) (hv : v < 2 ^ 32) :
    (isNewLine (ofValue false v) = true ↔ v % 2 ^ 16 = 10) ∧ (isNewLine (ofValue true v) = true ↔ v / 2 ^ 16 = 0x0A00) := by
  have e1 : hostRepr false 4 v = [BitVec.ofNat 8 v, BitVec.ofNat 8 (v / 256), BitVec.ofNat 8 (v / 256 / 256),
    BitVec.ofNat 8 (v / 256 / 256 / 256)] := rfl
  have e2 : hostRepr true 4 v = [BitVec.ofNat 8 (v / 256 / 256 / 256), BitVec.ofNat 8 (v / 256 / 256), BitVec.ofNat 8 (v / 256),
    BitVec.ofNat 8 v] := rfl
  constructor
  · rw [isNewLine, startsAs, ofValue, Bool.and_eq_true, beq_iff_eq, beq_iff_eq, e1, List.getElem?_cons_zero,
      List.getElem?_cons_succ, List.getElem?_cons_zero, Option.some.injEq, Option.some.injEq, byte_eq _ 10 (by omega),
      byte_eq _ 0 (by omega)]
    omega
  · rw [isNewLine, startsAs, ofValue, Bool.and_eq_true, beq_iff_eq, beq_iff_eq, e2, List.getElem?_cons_zero,
      List.getElem?_cons_succ, List.getElem?_cons_zero, Option.some.injEq, Option.some.injEq, byte_eq _ 10 (by omega),
      byte_eq _ 0 (by omega)]
    omega

/-- **C74, exactly, wide characters**: from 256 on, except for the last code value (`C74_eof`), every question that goes to the
C library is undefined behaviour. -/
theorem C74_wide_exact (big : Bool) (v : Nat) (h : 255 < v) (h' : v < 2 ^ 32 - 1) :
    isXDigit big (ofValue big v) = .ub ∧ isLetterOrDigit big (ofValue big v) = .ub ∧ isUpperCase big (ofValue big v) = .ub ∧
    isLowerCase big (ofValue big v) = .ub ∧ isCntrl big (ofValue big v) = .ub ∧ isGraphical big (ofValue big v) = .ub ∧
    isPrintable big (ofValue big v) = .ub ∧ isPunctuation big (ofValue big v) = .ub ∧
    isFirstSymbol big (ofValue big v) = .ub := by
  have hval := (C71_order big v v (by omega) (by omega)).1
  have hc : ∀ p, classify p v = .ub := fun p => by rw [classify, if_neg (by omega), if_neg (by omega)]
  simp only [isXDigit, isLetter, isLetterOrDigit, isUpperCase, isLowerCase, isCntrl, isGraphical, isPrintable, isPunctuation,
    isFirstSymbol, hval, hc, Outcome.bind_ub, and_self]

/-- **C74, exactly, characters made from single bytes**: on a little-endian host they have the code value of the byte; on a
big-endian host every question about any of them that goes to the C library is undefined behaviour, except for zero. -/
theorem C74_byte_exact (b : Byte) (p : Nat → Bool) :
    classify p ((ofByte b).value false) = .ok (p b.toNat) ∧
    (b ≠ 0#8 → classify p ((ofByte b).value true) = .ub) := by
  have hb := b.isLt
  constructor
  · rw [(C71_byte_order false b b).2.2, classify, if_pos (by omega)]
  · intro h
    have h0 : b.toNat ≠ 0 := fun e => h (by rw [← BitVec.toNat_inj, e]; rfl)
    have : (ofByte b).value true = 2 ^ 24 * b.toNat := by simp [value, hostValue, ofByte, leValue]; omega
    rw [this, classify, if_neg (by omega), if_neg (by omega)]

example : isNewLine (ofValue true 0x0A000041) = true ∧ isNewLine (ofValue false 0xFFFF000A) = true := by decide
example : isSymbol true (ofValue true 0x5F) = .ok false := by decide +kernel

end Solace.Chr
