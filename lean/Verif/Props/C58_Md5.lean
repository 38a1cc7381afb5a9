import Verif.Model.Md5
import Verif.Spec.Md5
import Verif.Lemmas.Hashing
/-
C58: MD5 conforms to RFC 1321.
-/
namespace Solace.Hash

theorem rotl_eq (x : Word) (n : Nat) (h : n < 32) : (x <<< n) ||| (x >>> (32 - n)) = x.rotateLeft n := by
  rw [BitVec.rotateLeft_def, Nat.mod_eq_of_lt h]

theorem and_ones (x : Word) : x &&& 0xFFFFFFFF#32 = x := by
  have : (0xFFFFFFFF#32 : Word) = BitVec.allOnes 32 := by decide
  rw [this, BitVec.and_allOnes]

/-- Equality of words, bit by bit. -/
theorem word_ext {x y : Word} (h : ∀ i, i < 32 → x.getLsbD i = y.getLsbD i) : x = y := BitVec.eq_of_getLsbD_eq fun i hi => h i hi

/-- The two ways to write a choice. -/
theorem choice_eq (x y z : Word) : z ^^^ (x &&& (y ^^^ z)) = (x &&& y) ||| (~~~x &&& z) := by
  apply word_ext
  intro i hi
  simp only [BitVec.getLsbD_xor, BitVec.getLsbD_and, BitVec.getLsbD_or, BitVec.getLsbD_not, hi, decide_true, Bool.true_and]
  cases x.getLsbD i <;> cases y.getLsbD i <;> cases z.getLsbD i <;> rfl

end Solace.Hash

namespace Solace.Hash.Md5
open Spec

theorem S_eq (x : Word) (n : Nat) (h : n < 32) : S x n = x.rotateLeft n := by
  rw [S, and_ones, rotl_eq x n h]

theorem F1_eq (x y z : Word) : F1 x y z = Spec.Md5.F x y z := choice_eq x y z

theorem F2_eq (x y z : Word) : F2 x y z = Spec.Md5.G x y z := by
  rw [F2, Spec.Md5.G, BitVec.and_comm x z, BitVec.and_comm y, ← choice_eq, BitVec.xor_comm x y]

/-- The variables in the roles a, b, c, d of step `j`. -/
def roles (j : Nat) : Reg × Reg × Reg × Reg :=
  match j % 4 with
  | 0 => (.A, .B, .C, .D)
  | 1 => (.D, .A, .B, .C)
  | 2 => (.C, .D, .A, .B)
  | _ => (.B, .C, .D, .A)

def view (j : Nat) (r : Regs) : Md5.Buf := ⟨r.get (roles j).1, r.get (roles j).2.1, r.get (roles j).2.2.1, r.get (roles j).2.2.2⟩

/-- The arguments of step `j` according to the RFC. -/
def args (j : Nat) : Args :=
  ⟨(roles j).1, (roles j).2.1, (roles j).2.2.1, (roles j).2.2.2, Md5.k j, Md5.s j, Md5.T[j]?.getD 0⟩

theorem tables : round1 = (List.range' 0 16).map args ∧ round2 = (List.range' 16 16).map args ∧
    round3 = (List.range' 32 16).map args ∧ round4 = (List.range' 48 16).map args := by
  refine ⟨?_, ?_, ?_, ?_⟩ <;> decide +kernel

theorem s_lt (j : Nat) (h : j < 64) : Md5.s j < 32 := by
  have : ∀ j ∈ List.range 64, Md5.s j < 32 := by decide +kernel
  exact this j (List.mem_range.mpr h)

theorem k_lt (j : Nat) : Md5.k j < 16 ∨ 64 ≤ j := by
  rw [Md5.k]
  split
  · omega
  · split
    · omega
    · split <;> omega

theorem view_P (F : Word → Word → Word → Word) (X : List Word) (r : Regs) (j : Nat) (h : j < 64) :
    view (j + 1) (P F X r (args j)) =
      ⟨(view j r).d, (view j r).b + ((view j r).a + F (view j r).b (view j r).c (view j r).d + X[Md5.k j]?.getD 0 +
        Md5.T[j]?.getD 0).rotateLeft (Md5.s j), (view j r).b, (view j r).c⟩ := by
  have hs := s_lt j h
  have h4 : j % 4 = 0 ∨ j % 4 = 1 ∨ j % 4 = 2 ∨ j % 4 = 3 := by omega
  simp only [P, args, view, roles]
  rcases h4 with h4 | h4 | h4 | h4
  · have h5 : (j + 1) % 4 = 1 := by omega
    simp only [h4, h5, Regs.get, Regs.set, S_eq _ _ hs, BitVec.add_assoc, BitVec.add_comm]
  · have h5 : (j + 1) % 4 = 2 := by omega
    simp only [h4, h5, Regs.get, Regs.set, S_eq _ _ hs, BitVec.add_assoc, BitVec.add_comm]
  · have h5 : (j + 1) % 4 = 3 := by omega
    simp only [h4, h5, Regs.get, Regs.set, S_eq _ _ hs, BitVec.add_assoc, BitVec.add_comm]
  · have h5 : (j + 1) % 4 = 0 := by omega
    simp only [h4, h5, Regs.get, Regs.set, S_eq _ _ hs, BitVec.add_assoc, BitVec.add_comm]

theorem round_eq (F : Word → Word → Word → Word) (X : List Word) (Y : Nat → Word) (hX : ∀ k < 16, X[k]?.getD 0 = Y k) (n : Nat) :
    ∀ (j : Nat) (r : Regs), j + n ≤ 64 → (∀ i, j ≤ i → i < j + n → ∀ x y z, F x y z = Md5.f i x y z) →
    view (j + n) (((List.range' j n).map args).foldl (P F X) r) = (List.range' j n).foldl (Md5.step Y) (view j r) := by
  induction n with
  | zero => intro j r _ _; rfl
  | succ n ih =>
    intro j r hj hF
    rw [List.range'_succ, List.map_cons, List.foldl_cons, List.foldl_cons]
    have hstep : view (j + 1) (P F X r (args j)) = Md5.step Y (view j r) j := by
      rw [view_P F X r j (by omega), Md5.step, ← hF j (Nat.le_refl _) (by omega), hX _ ((k_lt j).resolve_right (by omega))]
    rw [← hstep, ← ih (j + 1) _ (by omega) (fun i h1 h2 => hF i (by omega) (by omega))]
    have : j + (n + 1) = j + 1 + n := by omega
    rw [this]

theorem process_eq (h : Host) (s : Regs) (data : List Byte) (hd : data.length = 64) :
    view 0 (process h s data) = Md5.compress (view 0 s) data := by
  have hX : ∀ k < 16, (readWords h true (ByteReader.ofView data) (h.words 16).val)[k]?.getD 0 = leWord data k := by
    intro k hk
    rw [readWords_block h true data hd _ (h.words 16).property]
    simp [hk]
  obtain ⟨t1, t2, t3, t4⟩ := tables
  rw [process]
  simp only [t1, t2, t3, t4]
  generalize readWords h true (ByteReader.ofView data) (h.words 16).val = X at hX
  have f1 : ∀ i, 0 ≤ i → i < 0 + 16 → ∀ x y z, F1 x y z = Md5.f i x y z := by
    intro i _ hi x y z
    rw [F1_eq, Md5.f, if_pos (by omega)]
  have f2 : ∀ i, 16 ≤ i → i < 16 + 16 → ∀ x y z, F2 x y z = Md5.f i x y z := by
    intro i _ hi x y z
    rw [F2_eq, Md5.f, if_neg (by omega), if_pos (by omega)]
  have f3 : ∀ i, 32 ≤ i → i < 32 + 16 → ∀ x y z, F3 x y z = Md5.f i x y z := by
    intro i _ hi x y z
    rw [Md5.f, if_neg (by omega), if_neg (by omega), if_pos (by omega)]
    rfl
  have f4 : ∀ i, 48 ≤ i → i < 48 + 16 → ∀ x y z, F4 x y z = Md5.f i x y z := by
    intro i _ hi x y z
    rw [Md5.f, if_neg (by omega), if_neg (by omega), if_neg (by omega)]
    rfl
  have e1 := round_eq F1 X _ hX 16 0 s (by omega) f1
  have e2 := round_eq F2 X _ hX 16 16 (((List.range' 0 16).map args).foldl (P F1 X) s) (by omega) f2
  rw [show 0 + 16 = 16 from rfl] at e1
  rw [e1, show 16 + 16 = 32 from rfl] at e2
  generalize ((List.range' 0 16).map args).foldl (P F1 X) s = r1 at e2 ⊢
  have e3 := round_eq F3 X _ hX 16 32 (((List.range' 16 16).map args).foldl (P F2 X) r1) (by omega) f3
  rw [e2, show 32 + 16 = 48 from rfl] at e3
  generalize ((List.range' 16 16).map args).foldl (P F2 X) r1 = r2 at e3 ⊢
  have e4 := round_eq F4 X _ hX 16 48 (((List.range' 32 16).map args).foldl (P F3 X) r2) (by omega) f4
  rw [e3, show 48 + 16 = 64 from rfl] at e4
  generalize ((List.range' 32 16).map args).foldl (P F3 X) r2 = r3 at e4 ⊢
  generalize ((List.range' 48 16).map args).foldl (P F4 X) r3 = r4 at e4 ⊢
  rw [← List.foldl_append, ← List.foldl_append, ← List.foldl_append] at e4
  have hrange : List.range' 0 16 ++ List.range' 16 16 ++ List.range' 32 16 ++ List.range' 48 16 = List.range 64 := by decide
  rw [← List.append_assoc, ← List.append_assoc, hrange] at e4
  have hv : view 64 r4 = view 0 r4 := rfl
  rw [Md5.compress, ← e4, hv]
  rfl

theorem chain_view (h : Host) (m : List Byte) (le : Bool) (n : Nat) (s : Regs) :
    view 0 (chain (process h) s (lengthField le n) m) = chain Md5.compress (view 0 s) (lengthField le n) m := by
  rw [chain, chain]
  have hall : ∀ b ∈ blocksOf (padded (lengthField le n) m), b.length = 64 := blocksOf_length le n m
  generalize blocksOf (padded (lengthField le n) m) = bs at hall
  induction bs generalizing s with
  | nil => rfl
  | cons b bs ih =>
    rw [List.foldl_cons, List.foldl_cons, ← process_eq h s b (hall b (List.mem_cons_self ..))]
    exact ih _ fun b hb => hall b (List.mem_cons_of_mem _ hb)

theorem hash_eq (h : Host) (pieces : List (List Byte)) :
    hash h pieces = .ok (Md5.md5WithLength (counted pieces) pieces.flatten) := by
  rw [hash]
  obtain ⟨c, e, i, t⟩ := updates_inv (process h) pieces (inv_init (process h) (init h).state (h.bytes 64).val (h.bytes 64).property)
  have e' : updates (process h) (init h) pieces = .ok c := e
  rw [e', Outcome.bind_ok, digest]
  obtain ⟨c', e2, hs, -⟩ := pad_chain (process h) h true i
  rw [e2, Outcome.bind_ok, Outcome.pure_def, Outcome.bind_ok, Outcome.pure_def]
  refine congrArg Outcome.ok ?_
  have ht : c.total0.toNat + 2 ^ 32 * c.total1.toNat = counted pieces := by
    rw [counted, i.total0, t, List.nil_append]
    rfl
  rw [ht, List.nil_append] at hs
  simp only
  rw [output_eq h true 16 _ rfl (by decide), hs, Md5.md5WithLength]
  have hl : leBytes 8 (8 * counted pieces) = lengthField true (counted pieces) := rfl
  have hi : Spec.Md5.init = view 0 (init h).state := rfl
  rw [hl, hi, ← chain_view, Md5.out]
  rfl

/-- **C58** (partial: pieces below 4 GiB): whatever the pieces, the digest is the MD5 digest of their concatenation. Missing:
single pieces of 4 GiB and more, where the length recorded can be wrong (`C58_any_pieces`, `C58_long_piece`). -/
theorem C58_md5_partial (h : Host) (pieces : List (List Byte)) (hp : ∀ p ∈ pieces, p.length < 2 ^ 32) :
    hash h pieces = .ok (Md5.md5 pieces.flatten) := by
  rw [hash_eq, counted_small pieces hp, Md5.md5, Md5.md5WithLength, Md5.md5WithLength]
  have := lengthField_mod true pieces.flatten.length
  rw [lengthField, lengthField, if_pos rfl, if_pos rfl] at this
  rw [this]

/-- **C58**, what is computed for all pieces: MD5 except that the length at the end is what the counters say. -/
theorem C58_any_pieces (h : Host) (pieces : List (List Byte)) :
    hash h pieces = .ok (Md5.md5WithLength (counted pieces) pieces.flatten) := hash_eq h pieces

/-- **C58, negation**: one update with a message of 8 GiB is finished with the length field of a message of 4 GiB. -/
theorem C58_long_piece (h : Host) (m : List Byte) (hm : m.length = 2 ^ 33) :
    hash h [m] = .ok (Md5.md5WithLength (2 ^ 32) m) ∧ leBytes 8 (8 * 2 ^ 32) ≠ leBytes 8 (8 * m.length) := by
  constructor
  · rw [hash_eq]
    have : counted [m] = 2 ^ 32 := by
      simp only [counted, List.flatten_cons, List.flatten_nil, List.append_nil, List.map_cons, List.map_nil, carries, carry, hm]
      decide +kernel
    rw [this]
    simp
  · rw [hm]; decide +kernel

/-- A host for examples. -/
def someHost : Host where
  big := false
  bytes n := ⟨List.replicate n 0xAA#8, by simp⟩
  words n := ⟨List.replicate n 0xAAAAAAAA#32, by simp⟩

def bytesOf (s : List Nat) : List Byte := s.map (BitVec.ofNat 8)

/-- The test suite of RFC 1321, A.5: "abc" in two pieces. -/
example : hash someHost [bytesOf [97], bytesOf [98, 99]] = .ok (bytesOf [0x90, 0x01, 0x50, 0x98, 0x3c, 0xd2, 0x4f, 0xb0,
    0xd6, 0x96, 0x3f, 0x7d, 0x28, 0xe1, 0x7f, 0x72]) := by decide +kernel

end Solace.Hash.Md5
