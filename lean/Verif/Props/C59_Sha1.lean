import Verif.Model.Sha1
import Verif.Spec.Sha1
import Verif.Props.C58_Md5
/-
C59: SHA-1 conforms to FIPS 180-4.
-/
namespace Solace.Hash

theorem Ch_eq (x y z : Word) : z ^^^ (x &&& (y ^^^ z)) = (x &&& y) ^^^ (~~~x &&& z) := by
  apply word_ext
  intro i hi
  simp only [BitVec.getLsbD_xor, BitVec.getLsbD_and, BitVec.getLsbD_not, hi, decide_true, Bool.true_and]
  cases x.getLsbD i <;> cases y.getLsbD i <;> cases z.getLsbD i <;> rfl

theorem Maj_eq (x y z : Word) : (x &&& y) ||| (z &&& (x ||| y)) = (x &&& y) ^^^ (x &&& z) ^^^ (y &&& z) := by
  apply word_ext
  intro i hi
  simp only [BitVec.getLsbD_xor, BitVec.getLsbD_and, BitVec.getLsbD_or]
  cases x.getLsbD i <;> cases y.getLsbD i <;> cases z.getLsbD i <;> rfl

theorem and15 (n : Nat) : n &&& 0x0F = n % 16 := Nat.and_two_pow_sub_one_eq_mod n 4

end Solace.Hash

namespace Solace.Hash.Sha1
open Spec

theorem S_eq (x : Word) (n : Nat) (h : n < 32) : S x n = x.rotateLeft n := by
  rw [S, and_ones, rotl_eq x n h]

/-- The variables in the roles a, b, c, d, e of step `j`. -/
def roles (j : Nat) : Reg × Reg × Reg × Reg × Reg :=
  match j % 5 with
  | 0 => (.A, .B, .C, .D, .E)
  | 1 => (.E, .A, .B, .C, .D)
  | 2 => (.D, .E, .A, .B, .C)
  | 3 => (.C, .D, .E, .A, .B)
  | _ => (.B, .C, .D, .E, .A)

def view (j : Nat) (r : Regs) : Sha1.Buf :=
  ⟨r.get (roles j).1, r.get (roles j).2.1, r.get (roles j).2.2.1, r.get (roles j).2.2.2.1, r.get (roles j).2.2.2.2⟩

def args (j : Nat) : Args :=
  ⟨(roles j).1, (roles j).2.1, (roles j).2.2.1, (roles j).2.2.2.1, (roles j).2.2.2.2, if j < 16 then .W j else .R j⟩

theorem tables : round1 = (List.range' 0 20).map args ∧ round2 = (List.range' 20 20).map args ∧
    round3 = (List.range' 40 20).map args ∧ round4 = (List.range' 60 20).map args := by
  refine ⟨?_, ?_, ?_, ?_⟩ <;> decide +kernel

/-- What the array holds before step `j`. -/
def Holds (M : Nat → Word) (W : List Word) (j : Nat) : Prop :=
  W.length = 16 ∧ ∀ t, j ≤ t + 16 → t < max j 16 → W[t % 16]? = some (Sha1.W M t)

theorem eval_spec {M : Nat → Word} {W : List Word} {j : Nat} (h : Holds M W j) :
    ((args j).x.eval W).1 = Sha1.W M j ∧ Holds M ((args j).x.eval W).2 (j + 1) := by
  obtain ⟨hl, hw⟩ := h
  by_cases hj : j < 16
  · have hx : (args j).x = .W j := by rw [args]; simp only; rw [if_pos hj]
    rw [hx, Src.eval]
    have := hw j (by omega) (by omega)
    rw [Nat.mod_eq_of_lt hj] at this
    refine ⟨by rw [this]; rfl, hl, ?_⟩
    intro t h1 h2
    exact hw t (by omega) (by omega)
  · have hx : (args j).x = .R j := by rw [args]; simp only; rw [if_neg hj]
    have g3 := hw (j - 3) (by omega) (by omega)
    have g8 := hw (j - 8) (by omega) (by omega)
    have g14 := hw (j - 14) (by omega) (by omega)
    have g16 := hw (j - 16) (by omega) (by omega)
    have hmod : (j - 16) % 16 = j % 16 := by omega
    rw [hmod] at g16
    have hval : S (W[(j - 3) &&& 0x0F]?.getD 0 ^^^ W[(j - 8) &&& 0x0F]?.getD 0 ^^^ W[(j - 14) &&& 0x0F]?.getD 0 ^^^
        W[j &&& 0x0F]?.getD 0) 1 = Sha1.W M j := by
      rw [and15, and15, and15, and15, g3, g8, g14, g16, S_eq _ _ (by decide), Sha1.W.eq_def M j, if_neg hj]
      rfl
    rw [hx, Src.eval]
    simp only
    rw [hval]
    refine ⟨rfl, by rw [List.length_set, hl], ?_⟩
    intro t h1 h2
    rw [and15]
    by_cases ht : t = j
    · subst ht
      rw [List.getElem?_set_self (by rw [hl]; exact Nat.mod_lt _ (by decide))]
    · rw [List.getElem?_set_ne (by omega)]
      exact hw t (by omega) (by omega)

theorem view_P (F : Word → Word → Word → Word) (K : Word) (r : Regs) (W : List Word) (j : Nat) :
    view (j + 1) (P F K (r, W) (args j)).1 =
      ⟨(view j r).a.rotateLeft 5 + F (view j r).b (view j r).c (view j r).d + (view j r).e + K + ((args j).x.eval W).1,
        (view j r).a, (view j r).b.rotateLeft 30, (view j r).c, (view j r).d⟩ := by
  have h4 : j % 5 = 0 ∨ j % 5 = 1 ∨ j % 5 = 2 ∨ j % 5 = 3 ∨ j % 5 = 4 := by omega
  have hP : (P F K (r, W) (args j)).1 =
      (r.set (args j).e (r.get (args j).e + (S (r.get (args j).a) 5 + F (r.get (args j).b) (r.get (args j).c)
        (r.get (args j).d) + K + ((args j).x.eval W).1))).set (args j).b
        (S ((r.set (args j).e (r.get (args j).e + (S (r.get (args j).a) 5 + F (r.get (args j).b) (r.get (args j).c)
        (r.get (args j).d) + K + ((args j).x.eval W).1))).get (args j).b) 30) := rfl
  rw [hP]
  generalize ((args j).x.eval W).1 = x
  have hadd : ∀ e a f k x : Word, e + (a + f + k + x) = a + f + e + k + x := by intros; ac_rfl
  rcases h4 with h4 | h4 | h4 | h4 | h4
  · have h5 : (j + 1) % 5 = 1 := by omega
    simp only [args, view, roles, h4, h5, Regs.get, Regs.set, S_eq _ 5 (by decide), S_eq _ 30 (by decide), hadd]
  · have h5 : (j + 1) % 5 = 2 := by omega
    simp only [args, view, roles, h4, h5, Regs.get, Regs.set, S_eq _ 5 (by decide), S_eq _ 30 (by decide), hadd]
  · have h5 : (j + 1) % 5 = 3 := by omega
    simp only [args, view, roles, h4, h5, Regs.get, Regs.set, S_eq _ 5 (by decide), S_eq _ 30 (by decide), hadd]
  · have h5 : (j + 1) % 5 = 4 := by omega
    simp only [args, view, roles, h4, h5, Regs.get, Regs.set, S_eq _ 5 (by decide), S_eq _ 30 (by decide), hadd]
  · have h5 : (j + 1) % 5 = 0 := by omega
    simp only [args, view, roles, h4, h5, Regs.get, Regs.set, S_eq _ 5 (by decide), S_eq _ 30 (by decide), hadd]

theorem round_eq (F : Word → Word → Word → Word) (K : Word) (M : Nat → Word) (n : Nat) :
    ∀ (j : Nat) (s : Regs × List Word), Holds M s.2 j →
    (∀ i, j ≤ i → i < j + n → K = Sha1.K i ∧ ∀ x y z, F x y z = Sha1.f i x y z) →
    Holds M (((List.range' j n).map args).foldl (P F K) s).2 (j + n) ∧
    view (j + n) (((List.range' j n).map args).foldl (P F K) s).1 = (List.range' j n).foldl (Sha1.step M) (view j s.1) := by
  induction n with
  | zero => intro j s h _; exact ⟨h, rfl⟩
  | succ n ih =>
    intro j s h hF
    rw [List.range'_succ, List.map_cons, List.foldl_cons, List.foldl_cons]
    obtain ⟨e1, e2⟩ := eval_spec h
    have hstep : view (j + 1) (P F K s (args j)).1 = Sha1.step M (view j s.1) j := by
      rw [view_P F K s.1 s.2 j, Sha1.step, ← (hF j (Nat.le_refl _) (by omega)).2, ← (hF j (Nat.le_refl _) (by omega)).1, e1]
    have := ih (j + 1) (P F K s (args j)) e2 (fun i h1 h2 => hF i (by omega) (by omega))
    rw [hstep] at this
    have hj : j + (n + 1) = j + 1 + n := by omega
    rw [hj]
    exact this

theorem process_eq (h : Host) (s : Regs) (data : List Byte) (hd : data.length = 64) :
    view 0 (process h s data) = Sha1.compress (view 0 s) data := by
  have hX : Holds (beWord data) (readWords h false (ByteReader.ofView data) (h.words 16).val) 0 := by
    rw [readWords_block h false data hd _ (h.words 16).property, if_neg (by decide)]
    refine ⟨by simp, fun t _ ht => ?_⟩
    have ht : t < 16 := by omega
    rw [Nat.mod_eq_of_lt ht, Sha1.W, if_pos ht]
    simp [ht]
  obtain ⟨t1, t2, t3, t4⟩ := tables
  rw [process]
  simp only [t1, t2, t3, t4]
  generalize readWords h false (ByteReader.ofView data) (h.words 16).val = X at hX
  have f1 : ∀ i, 0 ≤ i → i < 0 + 20 → K1 = Sha1.K i ∧ ∀ x y z, F1 x y z = Sha1.f i x y z := by
    intro i _ hi
    have c1 : i < 20 := by omega
    rw [Sha1.K, Sha1.f, if_pos c1, if_pos c1]
    exact ⟨rfl, fun x y z => Ch_eq x y z⟩
  have f2 : ∀ i, 20 ≤ i → i < 20 + 20 → K2 = Sha1.K i ∧ ∀ x y z, F2 x y z = Sha1.f i x y z := by
    intro i _ hi
    have c1 : ¬ i < 20 := by omega
    have c2 : i < 40 := by omega
    rw [Sha1.K, Sha1.f, if_neg c1, if_neg c1, if_pos c2, if_pos c2]
    exact ⟨rfl, fun x y z => rfl⟩
  have f3 : ∀ i, 40 ≤ i → i < 40 + 20 → K3 = Sha1.K i ∧ ∀ x y z, F3 x y z = Sha1.f i x y z := by
    intro i _ hi
    have c1 : ¬ i < 20 := by omega
    have c2 : ¬ i < 40 := by omega
    have c3 : i < 60 := by omega
    rw [Sha1.K, Sha1.f, if_neg c1, if_neg c1, if_neg c2, if_neg c2, if_pos c3, if_pos c3]
    exact ⟨rfl, fun x y z => Maj_eq x y z⟩
  have f4 : ∀ i, 60 ≤ i → i < 60 + 20 → K4 = Sha1.K i ∧ ∀ x y z, F4 x y z = Sha1.f i x y z := by
    intro i _ hi
    have c1 : ¬ i < 20 := by omega
    have c2 : ¬ i < 40 := by omega
    have c3 : ¬ i < 60 := by omega
    rw [Sha1.K, Sha1.f, if_neg c1, if_neg c1, if_neg c2, if_neg c2, if_neg c3, if_neg c3]
    exact ⟨rfl, fun x y z => rfl⟩
  obtain ⟨h1, e1⟩ := round_eq F1 K1 (beWord data) 20 0 (s, X) hX f1
  rw [show 0 + 20 = 20 from rfl] at h1 e1
  generalize ((List.range' 0 20).map args).foldl (P F1 K1) (s, X) = r1 at h1 e1 ⊢
  obtain ⟨h2, e2⟩ := round_eq F2 K2 (beWord data) 20 20 r1 h1 f2
  rw [show 20 + 20 = 40 from rfl] at h2 e2
  rw [e1] at e2
  generalize ((List.range' 20 20).map args).foldl (P F2 K2) r1 = r2 at h2 e2 ⊢
  obtain ⟨h3, e3⟩ := round_eq F3 K3 (beWord data) 20 40 r2 h2 f3
  rw [show 40 + 20 = 60 from rfl] at h3 e3
  rw [e2] at e3
  generalize ((List.range' 40 20).map args).foldl (P F3 K3) r2 = r3 at h3 e3 ⊢
  obtain ⟨-, e4⟩ := round_eq F4 K4 (beWord data) 20 60 r3 h3 f4
  rw [show 60 + 20 = 80 from rfl] at e4
  rw [e3] at e4
  generalize ((List.range' 60 20).map args).foldl (P F4 K4) r3 = r4 at e4 ⊢
  simp only at e4
  rw [← List.foldl_append, ← List.foldl_append, ← List.foldl_append] at e4
  have hrange : List.range' 0 20 ++ List.range' 20 20 ++ List.range' 40 20 ++ List.range' 60 20 = List.range 80 := by decide
  rw [← List.append_assoc, ← List.append_assoc, hrange] at e4
  have hv : view 80 r4.1 = view 0 r4.1 := rfl
  rw [Sha1.compress, ← e4, hv]
  rfl

theorem chain_view (h : Host) (m : List Byte) (le : Bool) (n : Nat) (s : Regs) :
    view 0 (chain (process h) s (lengthField le n) m) = chain Sha1.compress (view 0 s) (lengthField le n) m := by
  rw [chain, chain]
  have hall : ∀ b ∈ blocksOf (padded (lengthField le n) m), b.length = 64 := blocksOf_length le n m
  generalize blocksOf (padded (lengthField le n) m) = bs at hall
  induction bs generalizing s with
  | nil => rfl
  | cons b bs ih =>
    rw [List.foldl_cons, List.foldl_cons, ← process_eq h s b (hall b (List.mem_cons_self ..))]
    exact ih _ fun b hb => hall b (List.mem_cons_of_mem _ hb)

theorem hash_eq (h : Host) (pieces : List (List Byte)) :
    hash h pieces = .ok (Sha1.sha1WithLength (counted pieces) pieces.flatten) := by
  rw [hash]
  obtain ⟨c, e, i, t⟩ := updates_inv (process h) pieces (inv_init (process h) (init h).state (h.bytes 64).val (h.bytes 64).property)
  have e' : updates (process h) (init h) pieces = .ok c := e
  rw [e', Outcome.bind_ok, digest]
  obtain ⟨c', e2, hs, -⟩ := pad_chain (process h) h false i
  rw [e2, Outcome.bind_ok, Outcome.pure_def, Outcome.bind_ok, Outcome.pure_def]
  refine congrArg Outcome.ok ?_
  have ht : c.total0.toNat + 2 ^ 32 * c.total1.toNat = counted pieces := by
    rw [counted, i.total0, t, List.nil_append]
    rfl
  rw [ht, List.nil_append] at hs
  simp only
  rw [output_eq h false 20 _ rfl (by decide), hs, Sha1.sha1WithLength]
  have hl : beBytes 8 (8 * counted pieces) = lengthField false (counted pieces) := rfl
  have hi : Spec.Sha1.init = view 0 (init h).state := rfl
  rw [hl, hi, ← chain_view, Sha1.out]
  rfl

/-- **C59** (partial: pieces below 4 GiB): whatever the pieces, the digest is the SHA-1 digest of their concatenation.
Missing: single pieces of 4 GiB and more, where the length recorded can be wrong (`C59_any_pieces`, `C59_long_piece`). -/
theorem C59_sha1_partial (h : Host) (pieces : List (List Byte)) (hp : ∀ p ∈ pieces, p.length < 2 ^ 32) :
    hash h pieces = .ok (Sha1.sha1 pieces.flatten) := by
  rw [hash_eq, counted_small pieces hp, Sha1.sha1, Sha1.sha1WithLength, Sha1.sha1WithLength]
  have := lengthField_mod false pieces.flatten.length
  rw [lengthField, lengthField, if_neg (by decide), if_neg (by decide)] at this
  rw [this]

/-- **C59**, what is computed for all pieces: SHA-1 except that the length at the end is what the counters say. -/
theorem C59_any_pieces (h : Host) (pieces : List (List Byte)) :
    hash h pieces = .ok (Sha1.sha1WithLength (counted pieces) pieces.flatten) := hash_eq h pieces

/-- **C59, negation**: one update with a message of 8 GiB is finished with the length field of a message of 4 GiB. -/
theorem C59_long_piece (h : Host) (m : List Byte) (hm : m.length = 2 ^ 33) :
    hash h [m] = .ok (Sha1.sha1WithLength (2 ^ 32) m) ∧ beBytes 8 (8 * 2 ^ 32) ≠ beBytes 8 (8 * m.length) := by
  constructor
  · rw [hash_eq]
    have : counted [m] = 2 ^ 32 := by
      simp only [counted, List.flatten_cons, List.flatten_nil, List.append_nil, List.map_cons, List.map_nil, carries, carry, hm]
      decide +kernel
    rw [this]
    simp
  · rw [hm]; decide +kernel

/-- The example of the standard: "abc", here in two pieces. -/
example : hash Md5.someHost [Md5.bytesOf [97], Md5.bytesOf [98, 99]] = .ok (Md5.bytesOf [0xa9, 0x99, 0x3e, 0x36, 0x47, 0x06, 0x81, 0x6a,
    0xba, 0x3e, 0x25, 0x71, 0x78, 0x50, 0xc2, 0x6c, 0x9c, 0xd0, 0xd8, 0x9d]) := by decide +kernel

end Solace.Hash.Sha1
