import Verif.Model.Machine
import Verif.Props.C40_C41_Exact
import Verif.Props.C29_C31_Exact
import Verif.Props.C74_Exact
/-! Helper lemmas for C141. -/
namespace Solace.Machine

theorem promote_signed (b : Bool) (c : Byte) : promote ⟨true, b⟩ c = c.toInt := rfl
theorem promote_unsigned (b : Bool) (c : Byte) : promote ⟨false, b⟩ c = c.toNat := rfl

theorem widen_signed (b : Bool) (c : Byte) : widen ⟨true, b⟩ c = c.signExtend 64 := rfl

theorem widen_unsigned (b : Bool) (c : Byte) : widen ⟨false, b⟩ c = c.setWidth 64 := by
  rw [widen, promote_unsigned, BitVec.ofInt_natCast]
  apply BitVec.eq_of_toNat_eq
  rw [BitVec.toNat_ofNat, BitVec.toNat_setWidth]

theorem toInt_eq_iff (c : Byte) : c.toInt = c.toNat ↔ c.toNat < 128 := by
  rw [BitVec.toInt_eq_toNat_cond]
  split
  · constructor
    · intro _; omega
    · intro _; rfl
  · constructor
    · intro h; omega
    · intro h; omega

/-! Atoms on machines with unsigned characters. -/

theorem shift_any (n : BitVec 64) (c : Byte) : ((n <<< 8) ||| c.setWidth 64).toNat = n.toNat * 256 % 2 ^ 64 + c.toNat := by
  have h1 : (c.setWidth 64).toNat = c.toNat := by
    rw [BitVec.toNat_setWidth]
    have := c.isLt
    omega
  rw [BitVec.toNat_or, h1, BitVec.toNat_shiftLeft, Nat.shiftLeft_eq]
  have h2 : n.toNat * 2 ^ 8 % 2 ^ 64 = (n.toNat % 2 ^ 56) <<< 8 := by
    rw [Nat.shiftLeft_eq]; omega
  rw [h2, ← Nat.shiftLeft_add_eq_or_of_lt (by have := c.isLt; omega), Nat.shiftLeft_eq]

open Atom (value pad value_append value_zeros shift_mod)

theorem wrapLoop_unsigned (b : Bool) (rest : List Byte) (hr : rest = [] ∨ ∃ r, rest = 0#8 :: r) (s : List Byte)
    (h0 : ∀ c ∈ s, c ≠ 0#8) :
    ∀ (k : Nat) (n : BitVec 64) (p : List Byte), p.length + s.length ≤ 8 → s.length ≤ k →
      n.toNat % 256 ^ p.length = value p →
      ∃ m, (wrapLoop ⟨false, b⟩ k (s ++ rest) n p.length = (m, p.length + s.length)) ∧
        m.toNat % 256 ^ (p.length + s.length) = value (p ++ s) := by
  induction s with
  | nil =>
    intro k n p _ _ hv
    refine ⟨n, ?_, by simpa using hv⟩
    rcases hr with rfl | ⟨r, rfl⟩
    · cases k <;> rfl
    · cases k <;> simp [wrapLoop]
  | cons c s ih =>
    intro k n p hp hk hv
    match k, hk with
    | k + 1, hk =>
      rw [List.length_cons] at hp hk
      rw [List.cons_append, wrapLoop, if_neg (h0 c (by simp)), widen_unsigned]
      have hqv : ((n <<< 8) ||| c.setWidth 64).toNat % 256 ^ (p ++ [c]).length = value (p ++ [c]) := by
        rw [shift_any n c, List.length_append, List.length_singleton, shift_mod _ _ _ (by omega) c.isLt, hv, value_append]
        simp [value]
      have hql : (p ++ [c]).length = p.length + 1 := by simp
      obtain ⟨m, h1, h2⟩ := ih (fun c h => h0 c (by simp [h])) k _ (p ++ [c]) (by omega) (by omega) hqv
      refine ⟨m, ?_, ?_⟩
      · rw [hql] at h1
        rw [h1, List.length_cons]; congr 1; omega
      · rw [hql] at h2
        rw [List.length_cons, show p.length + (s.length + 1) = p.length + 1 + s.length by omega, h2]
        simp

/-- With unsigned characters, an atom is the number with the characters as its digits. -/
theorem wrap_unsigned_value (b : Bool) (s : List Byte) (hl : s.length ≤ 8) (h0 : ∀ c ∈ s, c ≠ 0#8) (rest : List Byte)
    (hr : rest = [] ∨ ∃ r, rest = 0#8 :: r) : (wrap ⟨false, b⟩ (s ++ rest)).toNat = value (pad s) := by
  obtain ⟨m, h1, h2⟩ := wrapLoop_unsigned b rest hr s h0 8 0#64 [] (by simpa using hl) hl (by simp [value])
  rw [List.length_nil, Nat.zero_add] at h1 h2
  rw [wrap, h1]
  simp only
  by_cases hs : s.length = 0
  · rw [if_pos hs, List.length_eq_zero_iff.mp hs, pad, List.nil_append, value_zeros]
    rfl
  · rw [List.nil_append] at h2
    rw [if_neg hs, BitVec.toNat_shiftLeft, Nat.shiftLeft_eq, pad, value_append, value_zeros, List.length_replicate, ← h2, Nat.add_zero]
    generalize s.length = k at *
    have e1 : 2 ^ ((8 - k) * 8) = 256 ^ (8 - k) := by
      rw [show 256 = 2 ^ 8 from rfl, ← Nat.pow_mul, Nat.mul_comm]
    have e2 : 2 ^ 64 = 256 ^ k * 256 ^ (8 - k) := by
      rw [← Nat.pow_add, show k + (8 - k) = 8 by omega]
    rw [e1, e2, Nat.mul_mod_mul_right]

theorem wrapLoop_signed (b : Bool) : ∀ (k : Nat) (s : List Byte) (n : BitVec 64) (i : Nat),
    wrapLoop ⟨true, b⟩ k s n i = Atom.wrapLoop k s n i
  | 0, _, _, _ => rfl
  | _ + 1, [], _, _ => rfl
  | k + 1, c :: rest, n, i => by
    rw [wrapLoop, Atom.wrapLoop, wrapLoop_signed b k rest, widen_signed]

theorem wrap_signed (b : Bool) (s : List Byte) : wrap ⟨true, b⟩ s = Atom.wrap s := by
  rw [wrap, Atom.wrap, wrapLoop_signed]

theorem wrap_unsigned_counted (b : Bool) (s : List Byte) (hl : s.length ≤ 8) :
    (wrap ⟨false, b⟩ s).toNat = value (pad (Atom.counted s)) := by
  obtain ⟨rest, h1, h2⟩ := Atom.counted_rest s
  have hle := Atom.counted_le s
  have := wrap_unsigned_value b (Atom.counted s) (by omega) (Atom.counted_no_nul s) rest h2
  rwa [← h1] at this

/-! Trimming. -/

theorem isSpace_little (sg : Bool) (c : Byte) : isSpace ⟨sg, false⟩ c = .ok (StringView.isSpace c) := by
  revert c
  cases sg <;> decide +kernel

theorem isSpace_big (sg : Bool) (c : Byte) : isSpace ⟨sg, true⟩ c = if c = 0#8 then .ok false else .ub := by
  revert c
  cases sg <;> decide +kernel

theorem trimFrom_little (sg : Bool) (s : List Byte) : ∀ k i,
    trimFrom ⟨sg, false⟩ s k i = .ok (StringView.trimFrom s StringView.isSpace k i)
  | 0, _ => rfl
  | k + 1, i => by
    rw [trimFrom, StringView.trimFrom]
    cases s[i]? with
    | none => rfl
    | some c =>
      dsimp only
      rw [isSpace_little, Outcome.bind_ok]
      split
      · exact trimFrom_little sg s k (i + 1)
      · rfl

theorem trimTo_little (sg : Bool) (s : List Byte) (f : Nat) : ∀ t,
    trimTo ⟨sg, false⟩ s f t = .ok (StringView.trimTo s StringView.isSpace f t)
  | 0 => rfl
  | t + 1 => by
    rw [trimTo, StringView.trimTo]
    split
    · cases s[t]? with
      | none => rfl
      | some c =>
        dsimp only
        rw [isSpace_little, Outcome.bind_ok]
        split
        · exact trimTo_little sg s f t
        · rfl
    · rfl

end Solace.Machine
