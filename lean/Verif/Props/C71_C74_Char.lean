import Verif.Model.Char
import Verif.Lemmas.Endian
import Verif.Props.C06_Endian
/-
C71 (characters and their bytes) and C74 (classification of characters).
-/
namespace Solace.Chr

/-! ### C71 -/

theorem countFrom_no_zero (bs rest : List Byte) (h : 0#8 ∉ bs) :
    countFrom (bs ++ 0#8 :: rest) = bs.length ∧ countFrom bs = bs.length := by
  induction bs with
  | nil => exact ⟨rfl, rfl⟩
  | cons b bs ih =>
    simp only [List.mem_cons, not_or] at h
    obtain ⟨i1, i2⟩ := ih h.2
    constructor
    · rw [List.cons_append, countFrom, if_neg (fun e => h.1 e.symm), i1, List.length_cons]
    · rw [countFrom, if_neg (fun e => h.1 e.symm), i2, List.length_cons]

theorem take_pad (bs : List Byte) (hl : bs.length ≤ 4) :
    (bs ++ List.replicate 5 0#8).take 4 = bs ++ List.replicate (4 - bs.length) 0#8 := by
  rw [List.take_append, List.take_of_length_le hl, List.take_replicate, Nat.min_eq_left (by omega)]

/-- **C71** (partial: bytes other than zero): a character built from up to four bytes gives them back. Missing: zero bytes,
where the negation below holds. -/
theorem C71_bytes_partial (bs : List Byte) (hl : bs.length ≤ 4) (h0 : 0#8 ∉ bs) :
    ∃ c, ofBytes bs = .ok c ∧ c.getBytes = bs ∧ c.getBytesCount = bs.length := by
  refine ⟨_, by rw [ofBytes, if_pos (by omega)], ?_⟩
  have hc : getBytesCount ⟨(bs ++ List.replicate 5 0#8).take 4⟩ = bs.length := by
    rw [getBytesCount, take_pad bs hl]
    by_cases h4 : bs.length = 4
    · rw [h4, Nat.sub_self, List.replicate_zero, List.append_nil, (countFrom_no_zero bs [] h0).2]; exact h4
    · obtain ⟨k, hk⟩ : ∃ k, 4 - bs.length = k + 1 := ⟨3 - bs.length, by omega⟩
      rw [hk, List.replicate_succ, (countFrom_no_zero bs _ h0).1]
  refine ⟨?_, hc⟩
  rw [getBytes, hc, take_pad bs hl]
  exact List.take_left

/-- **C71, negation**: a zero byte cuts the character off; more than five bytes is undefined behaviour. -/
theorem C71_bytes_negation (a b : Byte) (long : List Byte) (h : 5 < long.length) :
    (∃ c, ofBytes [a, 0#8, b] = .ok c ∧ c.getBytes ≠ [a, 0#8, b]) ∧ ofBytes long = .ub := by
  constructor
  · refine ⟨_, by rw [ofBytes, if_pos (by simp)], ?_⟩
    intro he
    have := congrArg List.length he
    simp only [getBytes, getBytesCount, countFrom, List.take_succ_cons, List.cons_append, List.length_take,
      if_true] at this
    split at this <;> simp at this
  · rw [ofBytes, if_neg (by omega)]

theorem getBytes_takeWhile (l : List Byte) : l.take (countFrom l) = l.takeWhile (· != 0#8) := by
  induction l with
  | nil => rfl
  | cons b l ih =>
    rw [countFrom, List.takeWhile_cons]
    by_cases hb : b = 0#8
    · simp [hb]
    · rw [if_neg hb, List.take_succ_cons, ih]
      simp [hb]

/-- **C71**: from any view of at most five bytes the first four are kept, zero filled, and given back up to the first zero;
a longer view is undefined behaviour. -/
theorem C71_bytes_exact (bs : List Byte) :
    (bs.length ≤ 5 → ∃ c, ofBytes bs = .ok c ∧ (∀ i < 4, c.bytes[i]? = some (bs.getD i 0#8)) ∧ c.bytes.length = 4 ∧
      c.getBytes = (bs.take 4).takeWhile (· != 0#8)) ∧
    (5 < bs.length → ofBytes bs = .ub) := by
  refine ⟨fun h => ⟨_, by rw [ofBytes, if_pos h], fun i hi => ?_, by simp, ?_⟩, fun h => by rw [ofBytes, if_neg (by omega)]⟩
  · simp only
    rw [List.getElem?_take, if_pos hi, List.getElem?_append]
    by_cases hb : i < bs.length
    · rw [if_pos hb, List.getD_eq_getElem?_getD, List.getElem?_eq_getElem hb]; rfl
    · rw [if_neg hb, List.getElem?_replicate, if_pos (by omega), List.getD_eq_getElem?_getD,
        List.getElem?_eq_none (by omega)]; rfl
  · rw [getBytes, getBytesCount, getBytes_takeWhile]
    simp only
    by_cases h4 : bs.length ≤ 4
    · rw [take_pad bs h4, List.take_of_length_le h4]
      generalize 4 - bs.length = k
      clear h h4
      induction bs with
      | nil => cases k with
        | zero => rfl
        | succ k => rw [List.replicate_succ]; rfl
      | cons b bs ih => rw [List.cons_append, List.takeWhile_cons, List.takeWhile_cons, ih]
    · rw [List.take_append_of_le_length (by omega)]

example : ofBytes [1, 2, 3, 4, 5] = .ok ⟨[1, 2, 3, 4]⟩ := by decide +kernel

/-- **C71**: equality of characters is equality of their bytes, on either byte order. -/
theorem C71_equals (big : Bool) (a b : List Byte) (ha : a.length = 4) (hb : b.length = 4) :
    equals big ⟨a⟩ ⟨b⟩ = true ↔ a = b := by
  rw [equals, beq_iff_eq, value, value]
  exact ⟨fun h => hostValue_inj (by omega) h, fun h => by rw [h]⟩

/-- **C71**: a character built from a code value has it back, and comparison is the order of the code values. -/
theorem C71_order (big : Bool) (v w : Nat) (hv : v < 2 ^ 32) (hw : w < 2 ^ 32) :
    (ofValue big v).value big = v ∧
    (equals big (ofValue big v) (ofValue big w) = true ↔ v = w) ∧
    (lt big (ofValue big v) (ofValue big w) = true ↔ v < w) ∧ (le big (ofValue big v) (ofValue big w) = true ↔ v ≤ w) ∧
    (gt big (ofValue big v) (ofValue big w) = true ↔ w < v) ∧ (ge big (ofValue big v) (ofValue big w) = true ↔ w ≤ v) := by
  have h : ∀ u, u < 2 ^ 32 → (ofValue big u).value big = u := fun u hu => by
    rw [value, ofValue]; exact hostValue_hostRepr big 4 u (by omega)
  simp only [equals, lt, le, gt, ge, h v hv, h w hw, beq_iff_eq, decide_eq_true_eq, and_self]

/-- **C71**: characters built from single bytes compare as the bytes do, on either byte order; on a little-endian host
the code value is the byte. -/
theorem C71_byte_order (big : Bool) (a b : Byte) :
    (lt big (ofByte a) (ofByte b) = true ↔ a.toNat < b.toNat) ∧ (equals big (ofByte a) (ofByte b) = true ↔ a = b) ∧
    (ofByte a).value false = a.toNat := by
  have hv : ∀ x : Byte, (ofByte x).value big = (if big then 2 ^ 24 else 1) * x.toNat := by
    intro x; cases big <;> simp [value, hostValue, ofByte, leValue] <;> omega
  refine ⟨?_, ?_, by simp [value, hostValue, ofByte, leValue]⟩
  · rw [lt, hv, hv, decide_eq_true_eq]; cases big <;> simp
  · rw [ofByte, ofByte, C71_equals big _ _ rfl rfl]
    exact ⟨fun h => (List.cons.inj h).1, fun h => by rw [h]⟩

example : ofBytes [0xE2#8, 0x82#8, 0xAC#8] = .ok ⟨[0xE2#8, 0x82#8, 0xAC#8, 0#8]⟩ ∧
    getBytes ⟨[0xE2#8, 0x82#8, 0xAC#8, 0#8]⟩ = [0xE2#8, 0x82#8, 0xAC#8] := by decide

/-! ### C74 -/

/-- The ASCII letters, digits and so on, as lists of characters. -/
def digits : List Nat := "0123456789".toList.map Char.toNat
def uppers : List Nat := "ABCDEFGHIJKLMNOPQRSTUVWXYZ".toList.map Char.toNat
def lowers : List Nat := "abcdefghijklmnopqrstuvwxyz".toList.map Char.toNat
def hexes : List Nat := "0123456789ABCDEFabcdef".toList.map Char.toNat
def puncts : List Nat := "!\"#$%&'()*+,-./:;<=>?@[\\]^_`{|}~".toList.map Char.toNat
def blanks : List Nat := [9, 10, 11, 12, 13, 32]

/-- **C74** (partial: code values up to 255, little-endian host): classification by the ASCII classes. Missing: larger code
values and big-endian hosts, where the negations below hold. -/
theorem C74_classes_partial (v : Nat) (hv : v ≤ 255) :
    isDigit false (ofValue false v) = .ok (decide (v ∈ digits)) ∧
    isXDigit false (ofValue false v) = .ok (decide (v ∈ hexes)) ∧
    isUpperCase false (ofValue false v) = .ok (decide (v ∈ uppers)) ∧
    isLowerCase false (ofValue false v) = .ok (decide (v ∈ lowers)) ∧
    isLetter false (ofValue false v) = .ok (decide (v ∈ uppers ++ lowers)) ∧
    isLetterOrDigit false (ofValue false v) = .ok (decide (v ∈ uppers ++ lowers ++ digits)) ∧
    isWhitespace false (ofValue false v) = .ok (decide (v ∈ blanks)) ∧
    isPunctuation false (ofValue false v) = .ok (decide (v ∈ puncts)) ∧
    isSymbol false (ofValue false v) = .ok (decide (v ∈ uppers ++ lowers ++ digits ++ ['_'.toNat])) ∧
    isFirstSymbol false (ofValue false v) = .ok (decide (v ∈ uppers ++ lowers ++ ['_'.toNat])) ∧
    isNewLine (ofValue false v) = decide (v = '\n'.toNat) := by
  have table : ∀ v : Fin 256,
    isDigit false (ofValue false v) = .ok (decide (v.val ∈ digits)) ∧
    isXDigit false (ofValue false v) = .ok (decide (v.val ∈ hexes)) ∧
    isUpperCase false (ofValue false v) = .ok (decide (v.val ∈ uppers)) ∧
    isLowerCase false (ofValue false v) = .ok (decide (v.val ∈ lowers)) ∧
    isLetter false (ofValue false v) = .ok (decide (v.val ∈ uppers ++ lowers)) ∧
    isLetterOrDigit false (ofValue false v) = .ok (decide (v.val ∈ uppers ++ lowers ++ digits)) ∧
    isWhitespace false (ofValue false v) = .ok (decide (v.val ∈ blanks)) ∧
    isPunctuation false (ofValue false v) = .ok (decide (v.val ∈ puncts)) ∧
    isSymbol false (ofValue false v) = .ok (decide (v.val ∈ uppers ++ lowers ++ digits ++ ['_'.toNat])) ∧
    isFirstSymbol false (ofValue false v) = .ok (decide (v.val ∈ uppers ++ lowers ++ ['_'.toNat])) ∧
    isNewLine (ofValue false v) = decide (v.val = '\n'.toNat) := by decide +kernel
  exact table ⟨v, by omega⟩

/-- **C74** (partial as above): control, printing and graphical characters. -/
theorem C74_print_partial (v : Nat) (hv : v ≤ 255) :
    isCntrl false (ofValue false v) = .ok (decide (v < 32 ∨ v = 127)) ∧
    isPrintable false (ofValue false v) = .ok (decide (v ∈ [32] ++ uppers ++ lowers ++ digits ++ puncts)) ∧
    isGraphical false (ofValue false v) = .ok (decide (v ∈ uppers ++ lowers ++ digits ++ puncts)) := by
  have table : ∀ v : Fin 256,
    isCntrl false (ofValue false v) = .ok (decide (v.val < 32 ∨ v.val = 127)) ∧
    isPrintable false (ofValue false v) = .ok (decide (v.val ∈ [32] ++ uppers ++ lowers ++ digits ++ puncts)) ∧
    isGraphical false (ofValue false v) = .ok (decide (v.val ∈ uppers ++ lowers ++ digits ++ puncts)) := by decide +kernel
  exact table ⟨v, by omega⟩

/-- **C74** (partial: code values up to 255, little-endian host): case conversion. -/
theorem C74_case_partial (v : Nat) (hv : v ≤ 255) :
    (v ∈ uppers → toLower false (ofValue false v) = .ok (ofValue false (v + 32)) ∧ v + 32 ∈ lowers) ∧
    (v ∉ uppers → toLower false (ofValue false v) = .ok (ofValue false v)) ∧
    (v ∈ lowers → toUpper false (ofValue false v) = .ok (ofValue false (v - 32)) ∧ v - 32 ∈ uppers) ∧
    (v ∉ lowers → toUpper false (ofValue false v) = .ok (ofValue false v)) := by
  have table : ∀ v : Fin 256,
    (v.val ∈ uppers → toLower false (ofValue false v) = .ok (ofValue false (v + 32)) ∧ v.val + 32 ∈ lowers) ∧
    (v.val ∉ uppers → toLower false (ofValue false v) = .ok (ofValue false v)) ∧
    (v.val ∈ lowers → toUpper false (ofValue false v) = .ok (ofValue false (v - 32)) ∧ v.val - 32 ∈ uppers) ∧
    (v.val ∉ lowers → toUpper false (ofValue false v) = .ok (ofValue false v)) := by decide +kernel
  exact table ⟨v, by omega⟩

/-- **C74, negation**: asking for the class or the case of any code value from 256 on, except the last, is undefined
behaviour. -/
theorem C74_wide_ub (big : Bool) (v : Nat) (h : 255 < v) (h' : v < 2 ^ 32 - 1) :
    isDigit big (ofValue big v) = .ub ∧ isLetter big (ofValue big v) = .ub ∧ isWhitespace big (ofValue big v) = .ub ∧
    isSymbol big (ofValue big v) = .ub ∧ toLower big (ofValue big v) = .ub ∧ toUpper big (ofValue big v) = .ub := by
  have hval := (C71_order big v v (by omega) (by omega)).1
  have hc : ∀ p, classify p v = .ub := fun p => by rw [classify, if_neg (by omega), if_neg (by omega)]
  have hm : ∀ f, mapCase f v = .ub := fun f => by rw [mapCase, if_neg (by omega), if_neg (by omega)]
  simp only [isDigit, isLetter, isWhitespace, isSymbol, isLetterOrDigit, toLower, toUpper, hval, hc, hm, Outcome.bind_ub,
    and_self]

/-- **C74, exactly**: the last code value is taken for the end of a file: it is in no class and has no other case. -/
theorem C74_eof (big : Bool) :
    let c := ofValue big (2 ^ 32 - 1)
    isDigit big c = .ok false ∧ isXDigit big c = .ok false ∧ isLetter big c = .ok false ∧ isLetterOrDigit big c = .ok false ∧
    isUpperCase big c = .ok false ∧ isLowerCase big c = .ok false ∧ isWhitespace big c = .ok false ∧ isCntrl big c = .ok false ∧
    isGraphical big c = .ok false ∧ isPrintable big c = .ok false ∧ isPunctuation big c = .ok false ∧
    toLower big c = .ok c ∧ toUpper big c = .ok c := by
  cases big <;> decide +kernel

/-- **C74, negation**: U+1000A is taken for a new line; on a big-endian host the new line is not. -/
theorem C74_newline_negation : isNewLine (ofValue false 0x1000A) = true ∧ isNewLine (ofValue true 0x0A) = false := by
  decide

example : (0x41 : Nat) ∈ uppers ∧ (0x61 : Nat) ∈ lowers ∧ (0x5B : Nat) ∉ uppers := by decide

end Solace.Chr
