import Verif.Props.C108_StringLaws
/-
C21, hash codes of different texts: which small changes `StringView::hashCode` (src/stringView.cpp:221-232) notices and which it does not.
-/
namespace Solace.StringView

theorem cancel31 (x y : BitVec 64) (k : Nat) (h : x * 31#64 ^ k = y * 31#64 ^ k) : x = y := by
  induction k with
  | zero => simpa using h
  | succ k ih =>
    apply ih
    have inv : ∀ z : BitVec 64, z * 31#64 ^ (k + 1) * 0xef7bdef7bdef7bdf#64 = z * 31#64 ^ k := by
      intro z
      rw [BitVec.pow_succ, BitVec.mul_assoc, BitVec.mul_assoc]
      have : 31#64 * 0xef7bdef7bdef7bdf#64 = 1#64 := by decide +kernel
      rw [this, BitVec.mul_one]
    rw [← inv x, ← inv y, h]

theorem add_cancel (x y z : BitVec 64) (h : x + z = y + z) : x = y := by
  have := congrArg (· - z) h
  simpa [BitVec.add_sub_cancel] using this

theorem signExtend_toInt64 (c : Byte) : (c.signExtend 64).toInt = c.toInt := BitVec.toInt_signExtend_of_le (by omega)

theorem toInt_byte_range (c : Byte) : -128 ≤ c.toInt ∧ c.toInt ≤ 127 := by
  have h1 := BitVec.toInt_lt (x := c)
  have h2 := BitVec.le_toInt (x := c)
  constructor <;> simp at h1 h2 <;> omega

/-- Two texts that differ in one piece have the same hash code exactly if the pieces, of the same length, have. -/
theorem C21_hash_piece (u p q v : List Byte) (h : p.length = q.length) :
    hashCode (u ++ p ++ v) = hashCode (u ++ q ++ v) ↔ hashCode p = hashCode q := by
  rw [C108_hash_append (u ++ p), C108_hash_append (u ++ q), C108_hash_append u p, C108_hash_append u q, h]
  constructor
  · intro e
    have := cancel31 _ _ _ (add_cancel _ _ _ e)
    rw [BitVec.add_comm, BitVec.add_comm (hashCode u * _)] at this
    exact add_cancel _ _ _ this
  · intro e; rw [e]

theorem hashCode_one (c : Byte) : hashCode [c] = c.signExtend 64 := by
  simp [hashCode]

theorem hashCode_two (a b : Byte) : hashCode [a, b] = b.signExtend 64 + a.signExtend 64 * 31#64 := by
  simp [hashCode]

/-- A change of one character always changes the hash code. -/
theorem C21_hash_one_change (u v : List Byte) (a b : Byte) (h : a ≠ b) : hashCode (u ++ [a] ++ v) ≠ hashCode (u ++ [b] ++ v) := by
  rw [Ne, C21_hash_piece u [a] [b] v rfl, hashCode_one, hashCode_one]
  intro e
  apply h
  have := congrArg BitVec.toInt e
  rw [signExtend_toInt64, signExtend_toInt64] at this
  exact BitVec.eq_of_toInt_eq this

example : hashCode [0x61#8, 0x62#8] ≠ hashCode [0x61#8, 0x63#8] := C21_hash_one_change [0x61#8] [] 0x62#8 0x63#8 (by decide)

/-- A change of two neighbouring characters goes unnoticed exactly if the second moves by 31 for each step of the first. -/
theorem C21_hash_two_changes (u v : List Byte) (a b c d : Byte) :
    hashCode (u ++ [a, b] ++ v) = hashCode (u ++ [c, d] ++ v) ↔ 31 * (a.toInt - c.toInt) = d.toInt - b.toInt := by
  rw [C21_hash_piece u [a, b] [c, d] v rfl, hashCode_two, hashCode_two]
  have ha := toInt_byte_range a
  have hb := toInt_byte_range b
  have hc := toInt_byte_range c
  have hd := toInt_byte_range d
  have key : ∀ (x y : Byte), (y.signExtend 64 + x.signExtend 64 * 31#64).toInt = y.toInt + 31 * x.toInt := by
    intro x y
    have hx := toInt_byte_range x
    have hy := toInt_byte_range y
    rw [BitVec.toInt_add, BitVec.toInt_mul, signExtend_toInt64, signExtend_toInt64]
    have : (31#64).toInt = 31 := by decide +kernel
    rw [this, Int.bmod_eq_of_le (n := x.toInt * 31) (by omega) (by omega), Int.bmod_eq_of_le (by omega) (by omega)]
    omega
  constructor
  · intro e
    have := congrArg BitVec.toInt e
    rw [key, key] at this
    omega
  · intro e
    apply BitVec.eq_of_toInt_eq
    rw [key, key]
    omega

example : hashCode [0x41#8, 0x61#8] = hashCode [0x42#8, 0x42#8] := (C21_hash_two_changes [] [] 0x41#8 0x61#8 0x42#8 0x42#8).mpr (by decide)

/-- Characters 0 in front do not count. -/
theorem C21_hash_leading_zeros (n : Nat) (s : List Byte) : hashCode (List.replicate n 0#8 ++ s) = hashCode s := by
  induction n with
  | zero => rfl
  | succ n ih =>
    have : List.replicate (n + 1) 0#8 ++ s = [0#8] ++ (List.replicate n 0#8 ++ s) := by simp [List.replicate_succ]
    rw [this, C108_hash_append, ih, hashCode_one]
    simp

example : hashCode [0#8, 0#8, 7#8] = hashCode [7#8] := C21_hash_leading_zeros 2 [7#8]

/-- So there are as many different texts with the same hash code as one likes: of `n` pairs, each may be one of two. -/
theorem C21_hash_many (ps : List Bool) :
    hashCode (ps.flatMap fun b => if b then [0x41#8, 0x61#8] else [0x42#8, 0x42#8])
      = hashCode (List.replicate ps.length [0x41#8, 0x61#8]).flatten := by
  induction ps with
  | nil => rfl
  | cons b ps ih =>
    rw [List.flatMap_cons, List.length_cons, List.replicate_succ, List.flatten_cons, C108_hash_append, C108_hash_append, ih]
    have hl : (ps.flatMap fun b => if b then [0x41#8, 0x61#8] else [0x42#8, 0x42#8]).length
        = (List.replicate ps.length [0x41#8, 0x61#8]).flatten.length := by
      clear ih
      induction ps with
      | nil => rfl
      | cons b ps ih => cases b <;> simp [ih, List.replicate_succ, Nat.add_comm]
    rw [hl]
    cases b
    · have : hashCode [0x42#8, 0x42#8] = hashCode [0x41#8, 0x61#8] := by decide +kernel
      simp [this]
    · rfl

example : hashCode [0x41#8, 0x61#8, 0x42#8, 0x42#8] = hashCode [0x41#8, 0x61#8, 0x41#8, 0x61#8] := C21_hash_many [true, false]

end Solace.StringView
