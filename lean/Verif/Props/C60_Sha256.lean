import Verif.Model.Sha2
import Verif.Spec.Sha256
import Verif.Props.C59_Sha1
/-
C60: SHA-256 conforms to FIPS 180-4.
-/
namespace Solace.Hash.Sha2
open Spec

theorem rotr_eq (x : Word) (n : Nat) (h : n < 32) : ROTR x n = x.rotateRight n := by
  rw [ROTR, SHR, and_ones, BitVec.rotateRight_def, Nat.mod_eq_of_lt h]

theorem S0_eq (x : Word) : S0 x = Sha256.sigma0 x := by
  rw [S0, Sha256.sigma0, rotr_eq _ _ (by decide), rotr_eq _ _ (by decide), SHR, and_ones]
theorem S1_eq (x : Word) : S1 x = Sha256.sigma1 x := by
  rw [S1, Sha256.sigma1, rotr_eq _ _ (by decide), rotr_eq _ _ (by decide), SHR, and_ones]
theorem S2_eq (x : Word) : S2 x = Sha256.Sum0 x := by
  rw [S2, Sha256.Sum0, rotr_eq _ _ (by decide), rotr_eq _ _ (by decide), rotr_eq _ _ (by decide)]
theorem S3_eq (x : Word) : S3 x = Sha256.Sum1 x := by
  rw [S3, Sha256.Sum1, rotr_eq _ _ (by decide), rotr_eq _ _ (by decide), rotr_eq _ _ (by decide)]
theorem F0_eq (x y z : Word) : F0 x y z = Sha256.Maj x y z := Maj_eq x y z
theorem F1_eq (x y z : Word) : F1 x y z = Sha256.Ch x y z := Ch_eq x y z

/-- The constants are those of the standard: cube roots and square roots of primes. -/
theorem K_eq : K = (List.range 64).map Sha256.K := by decide +kernel

theorem K_at (t : Nat) (h : t < 64) : at' K t = Sha256.K t := by
  rw [at', K_eq]
  simp [h]

theorem init_eq : init.state = (List.range 8).map Sha256.H0 := by decide +kernel

/-- `root` is the root, for the numbers it is used for. -/
theorem root_spec : ∀ p ∈ Sha256.primesBelow 312, ∀ k ∈ [2, 3],
    (Sha256.root k (p * 2 ^ (32 * k))) ^ k ≤ p * 2 ^ (32 * k) ∧ p * 2 ^ (32 * k) < (Sha256.root k (p * 2 ^ (32 * k)) + 1) ^ k := by
  decide +kernel

/-- Index of role `k` in step `j`. -/
def role (j k : Nat) : Nat := (k + 7 * j) % 8

/-- The array, seen in the roles of step `j`. -/
def view (j : Nat) (A : List Word) : Sha256.Buf :=
  ⟨at' A (role j 0), at' A (role j 1), at' A (role j 2), at' A (role j 3), at' A (role j 4), at' A (role j 5),
    at' A (role j 6), at' A (role j 7)⟩

def indices (j : Nat) : List Nat := (List.range 8).map (role j)

theorem lines_eq : lines.zipIdx = (List.range 8).map fun n => (indices n, n) := by decide +kernel

theorem role_add8 (i n k : Nat) (h : i % 8 = 0) : role (i + n) k = role n k := by
  rw [role, role]; omega

theorem indices_add8 (i n : Nat) (h : i % 8 = 0) : indices (i + n) = indices n := by
  rw [indices, indices]
  exact List.map_congr_left fun k _ => role_add8 i n k h

theorem at_set (A : List Word) (i j : Nat) (w : Word) (hi : i < A.length) :
    at' (A.set i w) j = if j = i then w else at' A j := by
  rw [at', at']
  by_cases h : j = i
  · rw [if_pos h, h, List.getElem?_set_self hi]; rfl
  · rw [if_neg h, List.getElem?_set_ne (fun e => h e.symm)]

theorem P_length (A : List Word) (is : List Nat) (x k : Word) : (P A is x k).length = A.length := by
  simp [P]

theorem role_ne {j a b : Nat} (ha : a < 8) (hb : b < 8) (hab : a ≠ b) : role j a ≠ role j b := by
  rw [role, role]; omega

theorem role_succ (j k : Nat) : role (j + 1) (k + 1) = role j k := by rw [role, role]; omega
theorem role_succ_zero (j : Nat) : role (j + 1) 0 = role j 7 := by rw [role, role]; omega

theorem view_P (A : List Word) (hA : A.length = 8) (j : Nat) (x k : Word) :
    view (j + 1) (P A (indices j) x k) =
      ⟨((view j A).h + Sha256.Sum1 (view j A).e + Sha256.Ch (view j A).e (view j A).f (view j A).g + k + x) +
        (Sha256.Sum0 (view j A).a + Sha256.Maj (view j A).a (view j A).b (view j A).c), (view j A).a, (view j A).b,
        (view j A).c, (view j A).d + ((view j A).h + Sha256.Sum1 (view j A).e +
          Sha256.Ch (view j A).e (view j A).f (view j A).g + k + x), (view j A).e, (view j A).f, (view j A).g⟩ := by
  have hr : ∀ k, role j k < A.length := fun k => by rw [hA, role]; exact Nat.mod_lt _ (by decide)
  have hix : ∀ n, n < 8 → (indices j)[n]?.getD 0 = role j n := by
    intro n hn
    rw [indices]
    simp [hn]
  have hget : ∀ m, m < 8 → at' (P A (indices j) x k) (role j m) =
      if m = 7 then ((view j A).h + Sha256.Sum1 (view j A).e + Sha256.Ch (view j A).e (view j A).f (view j A).g + k + x) +
        (Sha256.Sum0 (view j A).a + Sha256.Maj (view j A).a (view j A).b (view j A).c)
      else if m = 3 then (view j A).d + ((view j A).h + Sha256.Sum1 (view j A).e +
          Sha256.Ch (view j A).e (view j A).f (view j A).g + k + x)
      else at' A (role j m) := by
    intro m hm
    simp only [P, hix 0 (by decide), hix 1 (by decide), hix 2 (by decide), hix 3 (by decide), hix 4 (by decide),
      hix 5 (by decide), hix 6 (by decide), hix 7 (by decide), S2_eq, S3_eq, F0_eq, F1_eq]
    rw [at_set _ _ _ _ (by rw [List.length_set]; exact hr 7), at_set _ _ _ _ (hr 3)]
    by_cases h7 : m = 7
    · rw [h7, if_pos rfl, if_pos rfl]; rfl
    · rw [if_neg (role_ne hm (by decide) h7), if_neg h7]
      by_cases h3 : m = 3
      · rw [h3, if_pos rfl, if_pos rfl]; rfl
      · rw [if_neg (role_ne hm (by decide) h3), if_neg h3]
  have e0 := hget 7 (by decide)
  have e1 := hget 0 (by decide)
  have e2 := hget 1 (by decide)
  have e3 := hget 2 (by decide)
  have e4 := hget 3 (by decide)
  have e5 := hget 4 (by decide)
  have e6 := hget 5 (by decide)
  have e7 := hget 6 (by decide)
  rw [view, role_succ_zero, role_succ, role_succ, role_succ, role_succ, role_succ, role_succ, role_succ, e0, e1, e2, e3, e4,
    e5, e6, e7]
  simp only [if_true, if_neg (show ¬ (0 = 7) by decide), if_neg (show ¬ (1 = 7) by decide), if_neg (show ¬ (2 = 7) by decide),
    if_neg (show ¬ (3 = 7) by decide), if_neg (show ¬ (4 = 7) by decide), if_neg (show ¬ (5 = 7) by decide),
    if_neg (show ¬ (6 = 7) by decide), if_neg (show ¬ (0 = 3) by decide), if_neg (show ¬ (1 = 3) by decide),
    if_neg (show ¬ (2 = 3) by decide), if_neg (show ¬ (4 = 3) by decide), if_neg (show ¬ (5 = 3) by decide),
    if_neg (show ¬ (6 = 3) by decide)]
  rfl

/-- What the schedule array holds before step `j`. -/
def Holds (M : Nat → Word) (W : List Word) (j : Nat) : Prop :=
  W.length = 64 ∧ ∀ t, t < max j 16 → at' W t = Sha256.W M t

theorem R_spec {M : Nat → Word} {W : List Word} {j : Nat} (h : Holds M W j) (h1 : 16 ≤ j) (h2 : j < 64) :
    at' (R W j) j = Sha256.W M j ∧ Holds M (R W j) (j + 1) := by
  obtain ⟨hl, hw⟩ := h
  have hval : S1 (at' W (j - 2)) + at' W (j - 7) + S0 (at' W (j - 15)) + at' W (j - 16) = Sha256.W M j := by
    rw [hw (j - 2) (by omega), hw (j - 7) (by omega), hw (j - 15) (by omega), hw (j - 16) (by omega), S1_eq, S0_eq,
      Sha256.W.eq_def M j, if_neg (by omega)]
  have hset : ∀ t, at' (R W j) t = if t = j then Sha256.W M j else at' W t := by
    intro t
    rw [R, at_set _ _ _ _ (by rw [hl]; exact h2), hval]
  refine ⟨by rw [hset, if_pos rfl], by rw [R, List.length_set, hl], ?_⟩
  intro t ht
  rw [hset]
  by_cases h : t = j
  · rw [if_pos h, h]
  · rw [if_neg h, hw t (by omega)]

/-- The state before step `j` stands for the spec's state. -/
structure Rel (M : Nat → Word) (j : Nat) (s : List Word × List Word) (b : Sha256.Buf) : Prop where
  len : s.1.length = 8
  regs : view j s.1 = b
  sched : Holds M s.2 j

theorem line1_rel {M : Nat → Word} {i n : Nat} {s : List Word × List Word} {b : Sha256.Buf} (hi : i % 8 = 0)
    (hlt : i + n < 16) (h : Rel M (i + n) s b) : Rel M (i + n + 1) (line1 i s (indices n, n)) (Sha256.step M b (i + n)) := by
  have hx : at' s.2 (i + n) = Sha256.W M (i + n) := h.sched.2 _ (by omega)
  refine ⟨by rw [line1, P_length]; exact h.len, ?_, h.sched.1, fun t ht => h.sched.2 t (by omega)⟩
  rw [line1]
  simp only
  rw [← indices_add8 i n hi, view_P _ h.len, h.regs, hx, K_at _ (by omega), Sha256.step]

theorem line2_rel {M : Nat → Word} {i n : Nat} {s : List Word × List Word} {b : Sha256.Buf} (hi : i % 8 = 0)
    (h16 : 16 ≤ i + n) (hlt : i + n < 64) (h : Rel M (i + n) s b) :
    Rel M (i + n + 1) (line2 i s (indices n, n)) (Sha256.step M b (i + n)) := by
  obtain ⟨hx, hR⟩ := R_spec h.sched h16 hlt
  refine ⟨by rw [line2, P_length]; exact h.len, ?_, hR⟩
  rw [line2]
  simp only
  rw [← indices_add8 i n hi, view_P _ h.len, h.regs, hx, K_at _ hlt, Sha256.step]

/-- One pass through a loop body. -/
theorem body_rel {M : Nat → Word} {i : Nat} (line : Nat → List Word × List Word → List Nat × Nat → List Word × List Word)
    (hline : ∀ n < 8, ∀ s b, Rel M (i + n) s b → Rel M (i + n + 1) (line i s (indices n, n)) (Sha256.step M b (i + n)))
    {s : List Word × List Word} {b : Sha256.Buf} (h : Rel M i s b) :
    Rel M (i + 8) (lines.zipIdx.foldl (line i) s) ((List.range' i 8).foldl (Sha256.step M) b) := by
  rw [lines_eq]
  have : List.range' i 8 = (List.range 8).map (i + ·) := by
    rw [List.range_eq_range', List.map_add_range']
    rfl
  rw [this, List.foldl_map, List.foldl_map]
  have key : ∀ n, n ≤ 8 → Rel M (i + n) ((List.range n).foldl (fun x y => line i x (indices y, y)) s)
      ((List.range n).foldl (fun x y => Sha256.step M x (i + y)) b) := by
    intro n
    induction n with
    | zero => intro _; exact h
    | succ n ih =>
      intro hn
      rw [List.range_succ, List.foldl_append, List.foldl_append]
      exact hline n (by omega) _ _ (ih (by omega))
  exact key 8 (Nat.le_refl _)

def bufOf (A : List Word) : Sha256.Buf := view 0 A

theorem process_length (h : Host) (s : List Word) (data : List Byte) : (process h s data).length = 8 := by
  simp [process]

theorem process_eq (h : Host) (s : List Word) (hs : s.length = 8) (data : List Byte) (hd : data.length = 64) :
    bufOf (process h s data) = Sha256.compress (bufOf s) data := by
  have hw64 := (h.words 64).property
  have hX : Holds (beWord data) (readWords h false (ByteReader.ofView data) ((h.words 64).val.take 16) ++ (h.words 64).val.drop 16) 0 := by
    have hl16 : ((h.words 64).val.take 16).length = 16 := by simp [hw64]
    rw [readWords_block h false data hd _ hl16, if_neg (by decide)]
    refine ⟨by simp [hw64], fun t ht => ?_⟩
    have ht : t < 16 := by omega
    rw [at', List.getElem?_append_left (by simpa using ht), Sha256.W, if_pos ht]
    simp [ht]
  rw [process]
  generalize readWords h false (ByteReader.ofView data) ((h.words 64).val.take 16) ++ (h.words 64).val.drop 16 = W at hX
  have r0 : Rel (beWord data) 0 (s, W) (bufOf s) := ⟨hs, rfl, hX⟩
  have first : ∀ i, i % 8 = 0 → i + 8 ≤ 16 → ∀ s b, Rel (beWord data) i s b →
      Rel (beWord data) (i + 8) (lines.zipIdx.foldl (line1 i) s) ((List.range' i 8).foldl (Sha256.step (beWord data)) b) :=
    fun i hi hlt s b hr => body_rel line1 (fun n hn s b hr => line1_rel hi (by omega) hr) hr
  have second : ∀ i, i % 8 = 0 → 16 ≤ i → i + 8 ≤ 64 → ∀ s b, Rel (beWord data) i s b →
      Rel (beWord data) (i + 8) (lines.zipIdx.foldl (line2 i) s) ((List.range' i 8).foldl (Sha256.step (beWord data)) b) :=
    fun i hi h16 hlt s b hr => body_rel line2 (fun n hn s b hr => line2_rel hi (by omega) (by omega) hr) hr
  have r1 := first 0 (by decide) (by decide) _ _ r0
  have r2 := first 8 (by decide) (by decide) _ _ r1
  have r3 := second 16 (by decide) (by decide) (by decide) _ _ r2
  have r4 := second 24 (by decide) (by decide) (by decide) _ _ r3
  have r5 := second 32 (by decide) (by decide) (by decide) _ _ r4
  have r6 := second 40 (by decide) (by decide) (by decide) _ _ r5
  have r7 := second 48 (by decide) (by decide) (by decide) _ _ r6
  have r8 := second 56 (by decide) (by decide) (by decide) _ _ r7
  clear r0 r1 r2 r3 r4 r5 r6 r7 first second
  rw [← List.foldl_append, ← List.foldl_append, ← List.foldl_append, ← List.foldl_append, ← List.foldl_append,
    ← List.foldl_append, ← List.foldl_append] at r8
  have hrange : List.range' 0 8 ++ (List.range' 8 8 ++ (List.range' 16 8 ++ (List.range' 24 8 ++ (List.range' 32 8 ++
    (List.range' 40 8 ++ (List.range' 48 8 ++ List.range' 56 8)))))) = List.range 64 := by decide
  rw [hrange] at r8
  simp only [List.foldl_cons, List.foldl_nil]
  have hreg := r8.regs
  generalize (lines.zipIdx.foldl (line2 56) _) = F at hreg ⊢
  rw [Sha256.compress, ← hreg]
  have h64 : view (56 + 8) F.1 = view 0 F.1 := rfl
  rw [h64]
  rfl

theorem chain_view (h : Host) (m : List Byte) (le : Bool) (n : Nat) (s : List Word) (hs : s.length = 8) :
    bufOf (chain (process h) s (lengthField le n) m) = chain Sha256.compress (bufOf s) (lengthField le n) m ∧
    (chain (process h) s (lengthField le n) m).length = 8 := by
  rw [chain, chain]
  have hall : ∀ b ∈ blocksOf (padded (lengthField le n) m), b.length = 64 := blocksOf_length le n m
  generalize blocksOf (padded (lengthField le n) m) = bs at hall
  induction bs generalizing s with
  | nil => exact ⟨rfl, hs⟩
  | cons b bs ih =>
    rw [List.foldl_cons, List.foldl_cons, ← process_eq h s hs b (hall b (List.mem_cons_self ..))]
    exact ih _ (process_length h s b) fun b hb => hall b (List.mem_cons_of_mem _ hb)

theorem list8 (A : List Word) (hA : A.length = 8) :
    A = [(bufOf A).a, (bufOf A).b, (bufOf A).c, (bufOf A).d, (bufOf A).e, (bufOf A).f, (bufOf A).g, (bufOf A).h] := by
  match A, hA with
  | [_, _, _, _, _, _, _, _], _ => rfl

theorem hash_eq (h : Host) (pieces : List (List Byte)) :
    hash h pieces = .ok (Sha256.sha256WithLength (counted pieces) pieces.flatten) := by
  rw [hash]
  obtain ⟨c, e, i, t⟩ := updates_inv (process h) pieces (inv_init (process h) init.state (List.replicate 64 0#8) (by simp))
  have e' : updates (process h) init pieces = .ok c := e
  rw [e', Outcome.bind_ok, digest]
  obtain ⟨c', e2, hs, -⟩ := pad_chain (process h) h false i
  rw [e2, Outcome.bind_ok, Outcome.pure_def, Outcome.bind_ok, Outcome.pure_def]
  refine congrArg Outcome.ok ?_
  have ht : c.total0.toNat + 2 ^ 32 * c.total1.toNat = counted pieces := by
    rw [counted, i.total0, t, List.nil_append]
    rfl
  rw [ht, List.nil_append] at hs
  simp only
  obtain ⟨hv, hlen⟩ := chain_view h pieces.flatten false (counted pieces) init.state rfl
  rw [← hs] at hv hlen
  rw [output_eq h false 32 _ (by rw [hlen]) (by decide), Sha256.sha256WithLength]
  have hl : beBytes 8 (8 * counted pieces) = lengthField false (counted pieces) := rfl
  have hi : Spec.Sha256.init = bufOf init.state := by decide +kernel
  rw [hl, hi, ← hv, Sha256.out, ← list8 _ hlen]
  rfl

/-- **C60** (partial: pieces below 4 GiB): whatever the pieces, the digest is the SHA-256 digest of their concatenation.
Missing: single pieces of 4 GiB and more, where the length recorded can be wrong (`C60_any_pieces`, `C60_long_piece`). -/
theorem C60_sha256_partial (h : Host) (pieces : List (List Byte)) (hp : ∀ p ∈ pieces, p.length < 2 ^ 32) :
    hash h pieces = .ok (Sha256.sha256 pieces.flatten) := by
  rw [hash_eq, counted_small pieces hp, Sha256.sha256, Sha256.sha256WithLength, Sha256.sha256WithLength]
  have := lengthField_mod false pieces.flatten.length
  rw [lengthField, lengthField, if_neg (by decide), if_neg (by decide)] at this
  rw [this]

/-- **C60**, what is computed for all pieces: SHA-256 except that the length at the end is what the counters say. -/
theorem C60_any_pieces (h : Host) (pieces : List (List Byte)) :
    hash h pieces = .ok (Sha256.sha256WithLength (counted pieces) pieces.flatten) := hash_eq h pieces

/-- **C60, negation**: one update with a message of 8 GiB is finished with the length field of a message of 4 GiB. -/
theorem C60_long_piece (h : Host) (m : List Byte) (hm : m.length = 2 ^ 33) :
    hash h [m] = .ok (Sha256.sha256WithLength (2 ^ 32) m) ∧ beBytes 8 (8 * 2 ^ 32) ≠ beBytes 8 (8 * m.length) := by
  constructor
  · rw [hash_eq]
    have : counted [m] = 2 ^ 32 := by
      simp only [counted, List.flatten_cons, List.flatten_nil, List.append_nil, List.map_cons, List.map_nil, carries, carry, hm]
      decide +kernel
    rw [this]
    simp
  · rw [hm]; decide +kernel

/-- The example of the standard: "abc", here in two pieces. -/
example : hash Md5.someHost [Md5.bytesOf [97], Md5.bytesOf [98, 99]] = .ok (Md5.bytesOf [0xba, 0x78, 0x16, 0xbf, 0x8f, 0x01,
    0xcf, 0xea, 0x41, 0x41, 0x40, 0xde, 0x5d, 0xae, 0x22, 0x23, 0xb0, 0x03, 0x61, 0xa3, 0x96, 0x17, 0x7a, 0x9c, 0xb4, 0x10,
    0xff, 0x61, 0xf2, 0x00, 0x15, 0xad]) := by decide +kernel

end Solace.Hash.Sha2
