import Verif.Props.C63_Murmur3
/-
C84: `Murmur3_128` on 32-bit targets conforms to the published MurmurHash3_x86_128.
-/
namespace Solace.Hash.Murmur
open Spec

def Quad.words (q : Quad) : Murmur3.Words := ⟨q.a, q.b, q.c, q.d⟩
def quad (w : Murmur3.Words) : Quad := ⟨w.w0, w.w1, w.w2, w.w3⟩

theorem body128_eq (addr : Nat) (data : List Byte) (N : Nat) (ha : addr % 4 = 0) (hN : 16 * N ≤ data.length) :
    ∀ n, n ≤ N → ∀ h, body128 false addr data (16 * N) n (quad h) =
      .ok (quad ((List.range' (N - n) n).foldl (Murmur3.roundX86 data) h)) := by
  intro n
  induction n with
  | zero => intro _ h; rfl
  | succ n ih =>
    intro hn h
    have o1 : 16 * N - 16 * (n + 1) = 32 / 8 * (4 * (N - (n + 1))) := by omega
    have o2 : 32 / 8 * (4 * (N - (n + 1))) + 4 = 32 / 8 * (4 * (N - (n + 1)) + 1) := by omega
    have o3 : 32 / 8 * (4 * (N - (n + 1))) + 8 = 32 / 8 * (4 * (N - (n + 1)) + 2) := by omega
    have o4 : 32 / 8 * (4 * (N - (n + 1))) + 12 = 32 / 8 * (4 * (N - (n + 1)) + 3) := by omega
    have ha' : addr % (32 / 8) = 0 := ha
    rw [quad, body128, o1, o2, o3, o4, getblock_eq 32 addr data _ ha' (by omega), Outcome.bind_ok,
      getblock_eq 32 addr data _ ha' (by omega), Outcome.bind_ok, getblock_eq 32 addr data _ ha' (by omega), Outcome.bind_ok,
      getblock_eq 32 addr data _ ha' (by omega), Outcome.bind_ok]
    simp only [rotl32_eq _ 15 (by decide), rotl32_eq _ 13 (by decide), rotl32_eq _ 16 (by decide), rotl32_eq _ 17 (by decide),
      rotl32_eq _ 18 (by decide), rotl32_eq _ 19 (by decide)]
    have hN : N - (n + 1) + 1 = N - n := by omega
    rw [List.range'_succ, List.foldl_cons, hN, ← ih (by omega)]
    rfl

theorem scrambleX86_zero (j : Fin 4) : Murmur3.scrambleX86 j 0#32 = 0#32 := by revert j; decide

theorem blockRotation_lt (j : Fin 4) : Murmur3.blockRotation j < 32 := by revert j; decide

theorem tailPart_eq (data : List Byte) (N r : Nat) (hr : 16 * N + r = data.length) (j : Fin 4) (n : Nat)
    (hn : (((data.drop (16 * N)).drop (4 * j.val)).take n) = (((data.drop (16 * N)).drop (4 * j.val)).take 4)) (cs : List (Nat × Nat × Nat))
    (hc : cs = cases (4 * j.val) n) (h : Word) :
    tailPart data (16 * N) r cs (4 * j.val + 1) (Murmur3.factor j) (Murmur3.blockRotation j) (Murmur3.factor (j + 1)) h =
      .ok (h ^^^ Murmur3.scrambleX86 j (BitVec.ofNat 32 (Murmur3.number (((data.drop (16 * N)).drop (4 * j.val)).take 4)))) := by
  rw [tailPart, tailWord_eq 32 data (16 * N) r (4 * j.val) n hr cs hc, Outcome.bind_ok, Outcome.pure_def, hn]
  by_cases hle : 4 * j.val + 1 ≤ r
  · have hrot := blockRotation_lt j
    rw [if_pos hle]
    simp only [rotl32_eq _ _ hrot]
    rfl
  · have hnil : (data.drop (16 * N)).drop (4 * j.val) = [] := by
      rw [List.drop_drop]; exact List.drop_eq_nil_of_le (by omega)
    have hz : BitVec.ofNat 32 (Murmur3.number []) = 0#32 := rfl
    rw [if_neg hle, hnil, List.take_nil, hz, scrambleX86_zero, BitVec.xor_zero]

theorem x86_128_eq (addr : Nat) (data : List Byte) (seed : Word) (ha : addr % 4 = 0) (hd : data.length < 2 ^ 31) :
    x86_128 false addr data seed = .ok (quad (Murmur3.x86_128 seed data)) := by
  have hdiv := Nat.div_add_mod data.length 16
  have hstart : (⟨seed, seed, seed, seed⟩ : Quad) = quad ⟨seed, seed, seed, seed⟩ := rfl
  have hlast : ((data.drop (16 * (data.length / 16))).drop (4 * 3)).take 3 = ((data.drop (16 * (data.length / 16))).drop (4 * 3)).take 4 := by
    rw [List.take_of_length_le, List.take_of_length_le] <;> (rw [List.length_drop, List.length_drop]; omega)
  have t4 := fun h => tailPart_eq data (data.length / 16) (data.length % 16) hdiv 3 3 hlast _ rfl h
  have t3 := fun h => tailPart_eq data (data.length / 16) (data.length % 16) hdiv 2 4 rfl _ rfl h
  have t2 := fun h => tailPart_eq data (data.length / 16) (data.length % 16) hdiv 1 4 rfl _ rfl h
  have t1 := fun h => tailPart_eq data (data.length / 16) (data.length % 16) hdiv 0 4 rfl _ rfl h
  rw [x86_128, tailOffset_eq 16 _ (by decide) hd, Outcome.bind_ok, nblocks_eq 16 _ (by decide) hd, Int.toNat_natCast, hstart,
    body128_eq addr data (data.length / 16) ha (by omega) _ (Nat.le_refl _), Outcome.bind_ok, Nat.sub_self, ← List.range_eq_range']
  generalize hH : (List.range (data.length / 16)).foldl (Murmur3.roundX86 data) _ = H
  simp only
  refine (congrArg (· >>= _) (t4 _)).trans ?_
  rw [Outcome.bind_ok]
  refine (congrArg (· >>= _) (t3 _)).trans ?_
  rw [Outcome.bind_ok]
  refine (congrArg (· >>= _) (t2 _)).trans ?_
  rw [Outcome.bind_ok]
  refine (congrArg (· >>= _) (t1 _)).trans ?_
  rw [Outcome.bind_ok, Outcome.pure_def]
  refine congrArg Outcome.ok ?_
  rw [Murmur3.x86_128]
  simp only [hH]
  rfl

/-- **C84** (partial: little endian machine, input of less than 2 GiB at an aligned address): on a 32-bit target the digest is the
published MurmurHash3_x86_128 of the last input, as four words in little endian order. -/
theorem C84_murmur128_x86_partial (h : Host) (hh : h.big = false) (c : M128x86) (addr : Nat) (data : List Byte) (ha : addr % 4 = 0)
    (hd : data.length < 2 ^ 31) :
    ∃ c', c.update h addr data = .ok c' ∧ c'.seed = c.seed ∧
      (c'.digest h).1 = leBytes 4 (Murmur3.x86_128 c.seed data).w0.toNat ++ leBytes 4 (Murmur3.x86_128 c.seed data).w1.toNat ++
        leBytes 4 (Murmur3.x86_128 c.seed data).w2.toNat ++ leBytes 4 (Murmur3.x86_128 c.seed data).w3.toNat := by
  refine ⟨⟨quad (Murmur3.x86_128 c.seed data), c.seed⟩, ?_, rfl, ?_⟩
  · rw [M128x86.update, hh, x86_128_eq addr data _ ha hd, Outcome.bind_ok, Outcome.pure_def]
  · simp only [M128x86.digest, hh, hostRepr, if_neg Bool.false_ne_true, leRepr_eq, quad]

/-- **C84, exactly**: before any input the digest is zero, whatever the seed. -/
theorem C84_new (h : Host) (hh : h.big = false) (seed : Word) :
    ((M128x86.new seed).digest h).1 = List.replicate 16 0#8 ∧ (M128x86.new seed).seed = seed := by
  refine ⟨?_, rfl⟩
  simp only [M128x86.digest, M128x86.new, hh, hostRepr, if_neg Bool.false_ne_true]
  decide +kernel

/-- **C84, negation**: on a misaligned address a whole block is read through a misaligned pointer, which is undefined. -/
theorem C84_misaligned (h : Host) (c : M128x86) (addr : Nat) (data : List Byte) (ha : addr % 4 ≠ 0) (h16 : 16 ≤ data.length)
    (hd : data.length < 2 ^ 31) : c.update h addr data = .ub := by
  obtain ⟨n, hn⟩ : ∃ n, data.length / 16 = n + 1 := ⟨data.length / 16 - 1, by omega⟩
  rw [M128x86.update, x86_128, tailOffset_eq 16 _ (by decide) hd, Outcome.bind_ok, nblocks_eq 16 _ (by decide) hd, Int.toNat_natCast,
    hn, body128, getblock, if_pos (by rw [Nat.sub_self, Nat.add_zero]; exact ha)]
  rfl

/-- **C84, negation**: the 32-bit and the 64-bit targets disagree about the digest of the same input. -/
theorem C84_targets_differ : ∃ d d', ((M128x86.new 0).update little 8 [0x61#8] >>= fun c => .ok (c.digest little).1) = .ok d ∧
    ((M128.new 0).update little 8 [0x61#8] >>= fun c => .ok (c.digest little).1) = .ok d' ∧ d ≠ d' := by
  refine ⟨_, _, rfl, rfl, ?_⟩
  decide +kernel

/-- The verification value of the test suite the algorithm was published with: the hashes of the inputs `0, 1, ..., n - 1` for
`n < 256`, with seed `256 - n`, are put together and hashed; the value is the first four bytes. -/
def verification (hash : BitVec 32 → List Byte → List Byte) : Nat :=
  Murmur3.number ((hash 0 ((List.range 256).flatMap fun n =>
    hash (BitVec.ofNat 32 (256 - n)) ((List.range n).map (BitVec.ofNat 8)))).take 4)

/-! The specification gives the published values (evaluated, not proved). -/
#guard verification (fun s m => leBytes 4 (Murmur3.x86_32 s m).toNat) = 0xB0F57EE3
#guard verification (fun s m => let h := Murmur3.x64_128 s m; leBytes 8 h.1.toNat ++ leBytes 8 h.2.toNat) = 0x6384BA69
#guard verification (fun s m => let h := Murmur3.x86_128 s m
  leBytes 4 h.w0.toNat ++ leBytes 4 h.w1.toNat ++ leBytes 4 h.w2.toNat ++ leBytes 4 h.w3.toNat) = 0xB3ECE62A

/-- 17 bytes, one block and a tail: the hypotheses hold. -/
example : ((M128x86.new 0).update little 8 (Md5.bytesOf (List.range 17)) ≠ .ub) ∧ 8 % 4 = 0 ∧
    (Md5.bytesOf (List.range 17)).length < 2 ^ 31 := by decide +kernel

end Solace.Hash.Murmur
