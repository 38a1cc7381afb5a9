import Verif.Props.C103_Sha256Smaller
/-! C58, C59, C60: exactly which cuts of a message are hashed with the right length. -/
namespace Solace.Hash
open Spec

/-- The carries between the two counters that are not recorded, for pieces of these lengths after `t` bytes: of every piece at
most one. -/
def lost (t : Nat) : List Nat → Nat
  | [] => 0
  | n :: ns => ((t % 2 ^ 32 + n) / 2 ^ 32 - 1) + lost (t + n) ns

/-- Every piece ends less than 8 GiB after the last multiple of 4 GiB before it. -/
def Gentle (pieces : List (List Byte)) : Prop :=
  ∀ before p after, pieces = before ++ p :: after → before.flatten.length % 2 ^ 32 + p.length < 2 ^ 33

theorem carries_lost (ns : List Nat) : ∀ (t : Nat) (t1 : Word), t1.toNat < 2 ^ 32 →
    ((carries t t1 ns).toNat + lost t ns) % 2 ^ 32 = (t1.toNat + ((t + ns.sum) / 2 ^ 32 - t / 2 ^ 32)) % 2 ^ 32 := by
  induction ns with
  | nil => intro t t1 h; simp [carries, lost]
  | cons n ns ih =>
    intro t t1 h
    rw [carries, lost, List.sum_cons]
    have hi := ih (t + n) (carry t t1 n) (BitVec.isLt _)
    have h1 : (1 : Word).toNat = 1 := rfl
    have hc : (carry t t1 n).toNat % 2 ^ 32 = (t1.toNat + if (t + n) % 2 ^ 32 < n then 1 else 0) % 2 ^ 32 := by
      rw [carry]
      split
      · rw [BitVec.toNat_add, h1, Nat.mod_mod]
      · rw [Nat.add_zero]
    have hd : (if (t + n) % 2 ^ 32 < n then 1 else 0) + ((t % 2 ^ 32 + n) / 2 ^ 32 - 1) = (t + n) / 2 ^ 32 - t / 2 ^ 32 := by
      split <;> omega
    generalize (carries (t + n) (carry t t1 n) ns).toNat = A at *
    generalize lost (t + n) ns = L at *
    generalize (carry t t1 n).toNat = C at *
    generalize (if (t + n) % 2 ^ 32 < n then 1 else 0) = e at *
    generalize ns.sum = S at *
    generalize t1.toNat = T at *
    omega

theorem counted_lost (pieces : List (List Byte)) :
    (counted pieces + 2 ^ 32 * lost 0 (pieces.map List.length)) % 2 ^ 64 = pieces.flatten.length % 2 ^ 64 := by
  have h := carries_lost (pieces.map List.length) 0 0 (by decide)
  rw [← List.length_flatten, Nat.zero_add] at h
  have h0 : (0 : Word).toNat = 0 := rfl
  rw [h0] at h
  rw [counted]
  omega

theorem lost_le (ns : List Nat) : ∀ t, 2 ^ 32 * lost t ns ≤ t % 2 ^ 32 + ns.sum := by
  induction ns with
  | nil => intro t; simp [lost]
  | cons n ns ih =>
    intro t
    have := ih (t + n)
    rw [lost, List.sum_cons]
    omega

theorem lost_zero (pieces : List (List Byte)) : ∀ before : List (List Byte),
    lost before.flatten.length (pieces.map List.length) = 0 ↔ ∀ b p a, pieces = b ++ p :: a →
      (before ++ b).flatten.length % 2 ^ 32 + p.length < 2 ^ 33 := by
  induction pieces with
  | nil => intro before; simp [lost]
  | cons p ps ih =>
    intro before
    rw [List.map_cons, lost]
    have hi := ih (before ++ [p])
    rw [List.flatten_append, List.flatten_singleton, List.length_append] at hi
    constructor
    · intro h b q a e
      cases b with
      | nil =>
        cases e
        rw [List.append_nil]
        omega
      | cons b0 bs =>
        rw [List.cons_append] at e
        injection e with e1 e2
        have := hi.mp (by omega) bs q a e2
        rwa [e1, List.append_assoc] at this
    · intro h
      have h1 := h [] p ps rfl
      rw [List.append_nil] at h1
      have h2 := hi.mpr fun b q a e => by
        have := h (p :: b) q a (by rw [e]; rfl)
        rwa [List.append_assoc]
      omega

theorem gentle_iff (pieces : List (List Byte)) : Gentle pieces ↔ lost 0 (pieces.map List.length) = 0 :=
  (lost_zero pieces []).symm

theorem leBytes_eq_mod (a b : Nat) : leBytes 8 a = leBytes 8 b ↔ a % 2 ^ 64 = b % 2 ^ 64 := by
  have h256 : (256 : Nat) ^ 8 = 2 ^ 64 := by decide
  constructor
  · intro h
    refine Nat.mod_eq_of_lt (Nat.mod_lt a (by decide : 0 < 2 ^ 64)) ▸ ?_
    rw [Nat.mod_mod]
    have key : ∀ n x y, leBytes n x = leBytes n y → x % 256 ^ n = y % 256 ^ n := by
      intro n
      induction n with
      | zero => intro x y _; simp [Nat.mod_one]
      | succ n ih =>
        intro x y e
        rw [leBytes_succ, leBytes_succ] at e
        injection e with e1 e2
        have e1 := congrArg BitVec.toNat e1
        rw [BitVec.toNat_ofNat, BitVec.toNat_ofNat] at e1
        have e2 := ih _ _ e2
        rw [Nat.pow_succ, Nat.mul_comm, Nat.mod_mul, Nat.mod_mul (x := y), e2]
        rw [show (256 : Nat) = 2 ^ 8 from rfl]
        rw [e1]
    have := key 8 a b h
    rwa [h256] at this
  · intro h
    rw [← leBytes_mod 8 a, ← leBytes_mod 8 b, h256, h]

theorem lengthField_eq (le : Bool) (a b : Nat) : lengthField le a = lengthField le b ↔ a % 2 ^ 61 = b % 2 ^ 61 := by
  have h : leBytes 8 (8 * a) = leBytes 8 (8 * b) ↔ a % 2 ^ 61 = b % 2 ^ 61 := by
    rw [leBytes_eq_mod]
    omega
  cases le with
  | true => exact h
  | false =>
    refine Iff.trans ⟨fun e => ?_, fun e => congrArg List.reverse e⟩ h
    exact List.reverse_inj.mp e

/-- The length recorded at the end of the padding is right exactly when the carries lost are a multiple of 2^29, for messages
whose length in bits fits the field exactly if none is. -/
theorem recorded (le : Bool) (pieces : List (List Byte)) :
    (lengthField le (counted pieces) = lengthField le pieces.flatten.length ↔
      lost 0 (pieces.map List.length) % 2 ^ 29 = 0) ∧
    (pieces.flatten.length < 2 ^ 61 →
      (lengthField le (counted pieces) = lengthField le pieces.flatten.length ↔ Gentle pieces)) := by
  have h := counted_lost pieces
  have hl := lost_le (pieces.map List.length) 0
  rw [← List.length_flatten] at hl
  rw [lengthField_eq, gentle_iff]
  refine ⟨by omega, fun hs => by omega⟩

theorem lengthField_any (le : Bool) (pieces : List (List Byte)) (n : Nat)
    (hn : (n + 2 ^ 32 * lost 0 (pieces.map List.length)) % 2 ^ 61 = pieces.flatten.length % 2 ^ 61) :
    lengthField le (counted pieces) = lengthField le n := by
  have h := counted_lost pieces
  rw [lengthField_eq]
  omega

/-- **C58**, exactly: (1) the digest of any pieces is that of RFC 1321 with a length that is wrong by 4 GiB for every carry lost;
(2) it is the digest of the message whenever every piece ends less than 8 GiB after the last multiple of 4 GiB before it; (3)
for messages whose length in bits fits 64 bits, otherwise the length appended is wrong. -/
theorem Md5.C58_exact (h : Host) (pieces : List (List Byte)) :
    (∀ n, (n + 2 ^ 32 * lost 0 (pieces.map List.length)) % 2 ^ 61 = pieces.flatten.length % 2 ^ 61 →
      Md5.hash h pieces = .ok (Spec.Md5.md5WithLength n pieces.flatten)) ∧
    (Gentle pieces → Md5.hash h pieces = .ok (Spec.Md5.md5 pieces.flatten)) ∧
    (pieces.flatten.length < 2 ^ 61 → ¬Gentle pieces → ∃ n, Md5.hash h pieces = .ok (Spec.Md5.md5WithLength n pieces.flatten) ∧
      leBytes 8 (8 * n) ≠ leBytes 8 (8 * pieces.flatten.length)) := by
  have h1 : ∀ n, (n + 2 ^ 32 * lost 0 (pieces.map List.length)) % 2 ^ 61 = pieces.flatten.length % 2 ^ 61 →
      Md5.hash h pieces = .ok (Spec.Md5.md5WithLength n pieces.flatten) := by
    intro n hn
    have e : leBytes 8 (8 * counted pieces) = leBytes 8 (8 * n) := lengthField_any true pieces n hn
    rw [Md5.hash_eq, Spec.Md5.md5WithLength, Spec.Md5.md5WithLength, e]
  refine ⟨h1, fun g => h1 _ (by rw [(gentle_iff pieces).mp g]; rfl), fun hs g => ⟨_, Md5.hash_eq h pieces, ?_⟩⟩
  exact fun e => g (((recorded true pieces).2 hs).mp e)

/-- **C59**, exactly, as C58. -/
theorem Sha1.C59_exact (h : Host) (pieces : List (List Byte)) :
    (∀ n, (n + 2 ^ 32 * lost 0 (pieces.map List.length)) % 2 ^ 61 = pieces.flatten.length % 2 ^ 61 →
      Sha1.hash h pieces = .ok (Spec.Sha1.sha1WithLength n pieces.flatten)) ∧
    (Gentle pieces → Sha1.hash h pieces = .ok (Spec.Sha1.sha1 pieces.flatten)) ∧
    (pieces.flatten.length < 2 ^ 61 → ¬Gentle pieces →
      ∃ n, Sha1.hash h pieces = .ok (Spec.Sha1.sha1WithLength n pieces.flatten) ∧
        beBytes 8 (8 * n) ≠ beBytes 8 (8 * pieces.flatten.length)) := by
  have h1 : ∀ n, (n + 2 ^ 32 * lost 0 (pieces.map List.length)) % 2 ^ 61 = pieces.flatten.length % 2 ^ 61 →
      Sha1.hash h pieces = .ok (Spec.Sha1.sha1WithLength n pieces.flatten) := by
    intro n hn
    have e : beBytes 8 (8 * counted pieces) = beBytes 8 (8 * n) := lengthField_any false pieces n hn
    rw [Sha1.hash_eq, Spec.Sha1.sha1WithLength, Spec.Sha1.sha1WithLength, e]
  refine ⟨h1, fun g => h1 _ (by rw [(gentle_iff pieces).mp g]; rfl), fun hs g => ⟨_, Sha1.hash_eq h pieces, ?_⟩⟩
  exact fun e => g (((recorded false pieces).2 hs).mp e)

/-- **C60**, exactly, as C58. -/
theorem Sha2.C60_exact (h : Host) (pieces : List (List Byte)) :
    (∀ n, (n + 2 ^ 32 * lost 0 (pieces.map List.length)) % 2 ^ 61 = pieces.flatten.length % 2 ^ 61 →
      Sha2.hash h pieces = .ok (Sha256.sha256WithLength n pieces.flatten)) ∧
    (Gentle pieces → Sha2.hash h pieces = .ok (Sha256.sha256 pieces.flatten)) ∧
    (pieces.flatten.length < 2 ^ 61 → ¬Gentle pieces →
      ∃ n, Sha2.hash h pieces = .ok (Sha256.sha256WithLength n pieces.flatten) ∧
        beBytes 8 (8 * n) ≠ beBytes 8 (8 * pieces.flatten.length)) := by
  have h1 : ∀ n, (n + 2 ^ 32 * lost 0 (pieces.map List.length)) % 2 ^ 61 = pieces.flatten.length % 2 ^ 61 →
      Sha2.hash h pieces = .ok (Sha256.sha256WithLength n pieces.flatten) := by
    intro n hn
    have e : beBytes 8 (8 * counted pieces) = beBytes 8 (8 * n) := lengthField_any false pieces n hn
    rw [Sha2.hash_eq, Sha256.sha256WithLength, Sha256.sha256WithLength, e]
  refine ⟨h1, fun g => h1 _ (by rw [(gentle_iff pieces).mp g]; rfl), fun hs g => ⟨_, Sha2.hash_eq h pieces, ?_⟩⟩
  exact fun e => g (((recorded false pieces).2 hs).mp e)

/-- **C62**, exactly for the three block algorithms: two cuts of the same message are hashed alike when none of their pieces
loses a carry, however long they are. -/
theorem C62_gentle (h : Host) (a b : List (List Byte)) (e : a.flatten = b.flatten) (ha : Gentle a) (hb : Gentle b) :
    Md5.hash h a = Md5.hash h b ∧ Sha1.hash h a = Sha1.hash h b ∧ Sha2.hash h a = Sha2.hash h b := by
  rw [(Md5.C58_exact h a).2.1 ha, (Md5.C58_exact h b).2.1 hb, (Sha1.C59_exact h a).2.1 ha, (Sha1.C59_exact h b).2.1 hb,
    (Sha2.C60_exact h a).2.1 ha, (Sha2.C60_exact h b).2.1 hb, e]
  exact ⟨rfl, rfl, rfl⟩

/-- A single piece is hashed with the right length exactly if it is shorter than 8 GiB. -/
theorem gentle_single (m : List Byte) : Gentle [m] ↔ m.length < 2 ^ 33 := by
  rw [gentle_iff]
  simp only [List.map_cons, List.map_nil, lost]
  omega

/-- A piece of 5 GiB, and the carries lost by pieces of 5 GiB, 7 GiB and 1 GiB. -/
example (m : List Byte) (h : m.length = 5 * 2 ^ 30) : Gentle [m] := (gentle_single m).mpr (by omega)
example : lost 0 [5 * 2 ^ 30, 7 * 2 ^ 30, 2 ^ 30] = 1 := by decide

end Solace.Hash
