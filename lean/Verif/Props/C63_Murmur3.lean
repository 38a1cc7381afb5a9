import Verif.Model.Murmur3
import Verif.Spec.Murmur3
import Verif.Props.C58_Md5
/-
C63: Murmur3 conforms to the published definition.
-/
namespace Solace.Hash.Murmur
open Spec

theorem hostValue_number (bs : List Byte) : hostValue false bs = Murmur3.number bs := by
  rw [hostValue, if_neg (by decide)]
  induction bs with
  | nil => rfl
  | cons b bs ih => rw [leValue, ih]; rfl

theorem number_lt (bs : List Byte) : Murmur3.number bs < 256 ^ bs.length := by
  induction bs with
  | nil => decide
  | cons b bs ih =>
    have : Murmur3.number (b :: bs) = b.toNat + 256 * Murmur3.number bs := rfl
    have hb := b.isLt
    rw [this, List.length_cons, Nat.pow_succ]
    omega

theorem number_append (a : List Byte) (b : Byte) : Murmur3.number (a ++ [b]) = Murmur3.number a + 256 ^ a.length * b.toNat := by
  induction a with
  | nil => simp [Murmur3.number]
  | cons x xs ih =>
    have h1 : Murmur3.number (x :: xs ++ [b]) = x.toNat + 256 * Murmur3.number (xs ++ [b]) := rfl
    have h2 : Murmur3.number (x :: xs) = x.toNat + 256 * Murmur3.number xs := rfl
    rw [h1, h2, ih, List.length_cons, Nat.pow_succ, Nat.mul_add, Nat.add_assoc, ← Nat.mul_assoc, Nat.mul_comm 256 (256 ^ _)]

theorem add_eq_xor (a b k : Nat) (h : a < 2 ^ k) : a + 2 ^ k * b = (2 ^ k * b) ^^^ a := by
  apply Nat.eq_of_testBit_eq
  intro i
  rw [Nat.add_comm, Nat.testBit_two_pow_mul_add b h, Nat.testBit_xor, Nat.testBit_two_pow_mul]
  by_cases hi : i < k
  · rw [if_pos hi]
    simp [Nat.not_le.mpr hi]
  · have hk : k ≤ i := Nat.le_of_not_lt hi
    rw [if_neg hi, Nat.testBit_lt_two_pow (Nat.lt_of_lt_of_le h (Nat.pow_le_pow_right (by decide) hk))]
    simp [hk]

theorem ofNat_add_xor (w a b k : Nat) (h : a < 2 ^ k) :
    BitVec.ofNat w (a + 2 ^ k * b) = (BitVec.ofNat w b <<< k) ^^^ BitVec.ofNat w a := by
  rw [add_eq_xor a b k h]
  apply BitVec.eq_of_toNat_eq
  rw [BitVec.toNat_xor, BitVec.toNat_shiftLeft, BitVec.toNat_ofNat, BitVec.toNat_ofNat, BitVec.toNat_ofNat, Nat.xor_mod_two_pow,
    Nat.shiftLeft_eq, Nat.mod_mul_mod, Nat.mul_comm b]

/-- The cases of a switch over `n` bytes, from `tail[lo]` on. -/
def cases : (lo n : Nat) → List (Nat × Nat × Nat)
  | _, 0 => []
  | lo, n + 1 => (lo + n + 1, lo + n, 8 * n) :: cases lo n

def tailStep (w : Nat) (data : List Byte) (offset r : Nat) (k : BitVec w) (c : Nat × Nat × Nat) : Outcome (BitVec w) :=
  if c.1 ≤ r then
    match data[offset + c.2.1]? with
    | none => .ub
    | some b => .ok (k ^^^ (BitVec.ofNat w b.toNat <<< c.2.2))
  else .ok k

theorem tail_fold (w : Nat) (data : List Byte) (off r lo n : Nat) (hr : off + r = data.length) (k : BitVec w) :
    (cases lo n).foldlM (tailStep w data off r) k =
      .ok (k ^^^ BitVec.ofNat w (Murmur3.number (((data.drop off).drop lo).take n))) := by
  induction n generalizing k with
  | zero =>
    rw [List.take_zero]
    show Outcome.ok k = .ok (k ^^^ BitVec.ofNat w 0)
    simp
  | succ n ih =>
    rw [cases, List.foldlM_cons, tailStep]
    by_cases h : lo + n + 1 ≤ r
    · have hlt : off + (lo + n) < data.length := by omega
      rw [if_pos h]
      simp only [List.getElem?_eq_getElem hlt]
      rw [Outcome.bind_ok, ih]
      have ht : ((data.drop off).drop lo).take (n + 1) = ((data.drop off).drop lo).take n ++ [data[off + (lo + n)]] := by
        rw [List.take_add_one, List.drop_drop, List.getElem?_drop, Nat.add_assoc, List.getElem?_eq_getElem hlt]
        rfl
      have hl : (((data.drop off).drop lo).take n).length = n := by
        rw [List.length_take, List.length_drop, List.length_drop]; omega
      have hb : Murmur3.number (((data.drop off).drop lo).take n) < 2 ^ (8 * n) := by
        have := number_lt (((data.drop off).drop lo).take n)
        rw [hl] at this
        rwa [Nat.pow_mul]
      have hp : (256 : Nat) ^ n = 2 ^ (8 * n) := by rw [Nat.pow_mul]
      rw [ht, number_append, hl, hp, ofNat_add_xor w _ _ _ hb]
      refine congrArg Outcome.ok ?_
      rw [BitVec.xor_assoc]
    · rw [if_neg h, Outcome.bind_ok, ih]
      have hl : ((data.drop off).drop lo).length ≤ n := by
        rw [List.length_drop, List.length_drop]; omega
      rw [List.take_of_length_le hl, List.take_of_length_le (by omega)]

theorem tailWord_eq (w : Nat) (data : List Byte) (off r lo n : Nat) (hr : off + r = data.length) (cs : List (Nat × Nat × Nat))
    (hc : cs = cases lo n) :
    tailWord w data off r cs = .ok (BitVec.ofNat w (Murmur3.number (((data.drop off).drop lo).take n))) := by
  have := tail_fold w data off r lo n hr 0#w
  rw [BitVec.zero_xor] at this
  rw [hc, tailWord]
  exact this

theorem nblocks_eq (bs len : Nat) (_ : 0 < bs) (h : len < 2 ^ 31) : nblocks bs len = (len / bs : Nat) := by
  have := Nat.div_le_self len bs
  have hm : len / bs % 2 ^ 32 = len / bs := Nat.mod_eq_of_lt (by omega)
  rw [nblocks, BitVec.toInt_eq_toNat_of_lt (by rw [BitVec.toNat_ofNat, hm]; omega), BitVec.toNat_ofNat, hm]

theorem tailOffset_eq (bs len : Nat) (hb : 0 < bs) (h : len < 2 ^ 31) : tailOffset bs len = .ok (bs * (len / bs)) := by
  have := Nat.mul_div_le len bs
  have e : nblocks bs len * bs = ((bs * (len / bs) : Nat) : Int) := by
    rw [nblocks_eq bs len hb h, Nat.mul_comm]; rfl
  rw [tailOffset]
  simp only [e]
  rw [if_neg (by omega), if_neg (by omega), Int.toNat_natCast]

theorem getblock_eq (w : Nat) (addr : Nat) (data : List Byte) (i : Nat) (ha : addr % (w / 8) = 0)
    (hi : w / 8 * i + w / 8 ≤ data.length) : getblock w false addr data (w / 8 * i) = .ok (Murmur3.block w data i) := by
  rw [getblock, if_neg (by rw [Nat.add_mul_mod_self_left, ha]; exact fun h => h rfl), if_neg (by omega), hostValue_number]
  rfl

theorem fmix32_eq (h : Word) : fmix32 h = Murmur3.fmix32 h := rfl
theorem fmix64_eq (h : Word64) : fmix64 h = Murmur3.fmix64 h := rfl

theorem rotl32_eq (x : Word) (n : Nat) (h : n < 32) : rotl32 x n = x.rotateLeft n := rotl_eq x n h
theorem rotl64_eq (x : Word64) (n : Nat) (h : n < 64) : rotl64 x n = x.rotateLeft n := by
  rw [rotl64, BitVec.rotateLeft_def, Nat.mod_eq_of_lt h]

theorem body32_eq (addr : Nat) (data : List Byte) (N : Nat) (ha : addr % 4 = 0) (hN : 4 * N ≤ data.length) :
    ∀ n, n ≤ N → ∀ h, body32 false addr data (4 * N) n h =
      .ok ((List.range' (N - n) n).foldl
        (fun h i => (h ^^^ Murmur3.scramble (Murmur3.block 32 data i)).rotateLeft 13 * 5#32 + 0xe6546b64#32) h) := by
  intro n
  induction n with
  | zero => intro _ h; rfl
  | succ n ih =>
    intro hn h
    have hoff : 4 * N - 4 * (n + 1) = 32 / 8 * (N - (n + 1)) := by omega
    rw [body32, hoff, getblock_eq 32 addr data _ (by simpa using ha) (by omega), Outcome.bind_ok]
    simp only [rotl32_eq _ 15 (by decide), rotl32_eq _ 13 (by decide)]
    rw [ih (by omega), List.range'_succ, List.foldl_cons]
    have : N - (n + 1) + 1 = N - n := by omega
    rw [this]
    rfl

theorem scramble_zero : Murmur3.scramble 0#32 = 0#32 := by decide
theorem scramble1_zero : Murmur3.scramble1 0#64 = 0#64 := by decide
theorem scramble2_zero : Murmur3.scramble2 0#64 = 0#64 := by decide

theorem x86_32_eq (addr : Nat) (data : List Byte) (seed : Word) (ha : addr % 4 = 0) (hd : data.length < 2 ^ 31) :
    x86_32 false addr data seed = .ok (Murmur3.x86_32 seed data) := by
  have hdiv := Nat.div_add_mod data.length 4
  rw [x86_32, tailOffset_eq 4 _ (by decide) hd, Outcome.bind_ok, nblocks_eq 4 _ (by decide) hd, Int.toNat_natCast,
    body32_eq addr data (data.length / 4) ha (by omega) _ (Nat.le_refl _), Outcome.bind_ok]
  simp only
  have c3 : [(3, 2, 16), (2, 1, 8), (1, 0, 0)] = cases 0 3 := rfl
  rw [c3, tailWord_eq 32 data _ (data.length % 4) 0 3 (by omega) _ rfl, Outcome.bind_ok, Outcome.pure_def]
  refine congrArg Outcome.ok ?_
  have ht : ((data.drop (4 * (data.length / 4))).drop 0).take 3 = data.drop (4 * (data.length / 4)) := by
    rw [List.drop_zero, List.take_of_length_le (by rw [List.length_drop]; omega)]
  rw [ht, Nat.sub_self, ← List.range_eq_range', Murmur3.x86_32, fmix32_eq]
  refine congrArg (fun x => Murmur3.fmix32 (x ^^^ _)) ?_
  by_cases h : 1 ≤ data.length % 4
  · rw [if_pos h]
    simp only [rotl32_eq _ 15 (by decide)]
    rfl
  · have : data.drop (4 * (data.length / 4)) = [] := List.drop_eq_nil_of_le (by omega)
    have hz : BitVec.ofNat 32 (Murmur3.number []) = 0#_ := rfl
    rw [if_neg h, this, hz, scramble_zero, BitVec.xor_zero]

theorem body64_eq (addr : Nat) (data : List Byte) (ha : addr % 8 = 0) :
    ∀ n i, 16 * (i + n) ≤ data.length → ∀ h, body64 false addr data i n h =
      .ok ((List.range' i n).foldl (Murmur3.round data) h) := by
  intro n
  induction n with
  | zero => intro i _ h; rfl
  | succ n ih =>
    intro i hn h
    obtain ⟨h1, h2⟩ := h
    have o1 : 8 * (i * 2) = 64 / 8 * (2 * i) := by omega
    have o2 : 8 * (i * 2 + 1) = 64 / 8 * (2 * i + 1) := by omega
    rw [body64, o1, o2, getblock_eq 64 addr data _ (by simpa using ha) (by omega), Outcome.bind_ok,
      getblock_eq 64 addr data _ (by simpa using ha) (by omega), Outcome.bind_ok]
    simp only [rotl64_eq _ 31 (by decide), rotl64_eq _ 27 (by decide), rotl64_eq _ 33 (by decide)]
    rw [ih (i + 1) (by omega), List.range'_succ, List.foldl_cons]
    rfl

theorem x64_128_eq (addr : Nat) (data : List Byte) (seed : Word) (ha : addr % 8 = 0) (hd : data.length < 2 ^ 31) :
    x64_128 false addr data seed = .ok (Murmur3.x64_128 seed data) := by
  have hdiv := Nat.div_add_mod data.length 16
  rw [x64_128, tailOffset_eq 16 _ (by decide) hd, Outcome.bind_ok, nblocks_eq 16 _ (by decide) hd, Int.toNat_natCast,
    body64_eq addr data ha _ 0 (by omega), Outcome.bind_ok]
  simp only
  have c7 : [(15, 14, 48), (14, 13, 40), (13, 12, 32), (12, 11, 24), (11, 10, 16), (10, 9, 8), (9, 8, 0)] = cases 8 7 := rfl
  have c8 : [(8, 7, 56), (7, 6, 48), (6, 5, 40), (5, 4, 32), (4, 3, 24), (3, 2, 16), (2, 1, 8), (1, 0, 0)] = cases 0 8 := rfl
  rw [c7, c8, tailWord_eq 64 data _ (data.length % 16) 8 7 (by omega) _ rfl, Outcome.bind_ok,
    tailWord_eq 64 data _ (data.length % 16) 0 8 (by omega) _ rfl, Outcome.bind_ok, Outcome.pure_def]
  refine congrArg Outcome.ok ?_
  have ht2 : ((data.drop (16 * (data.length / 16))).drop 8).take 7 = (data.drop (16 * (data.length / 16))).drop 8 := by
    rw [List.take_of_length_le (by rw [List.length_drop, List.length_drop]; omega)]
  rw [ht2, List.drop_zero, ← List.range_eq_range', Murmur3.x64_128, Murmur3.x64_128WithLength]
  simp only [fmix64_eq]
  generalize (List.range (data.length / 16)).foldl (Murmur3.round data) _ = H
  generalize hR : data.drop (16 * (data.length / 16)) = R
  have hRl : R.length = data.length % 16 := by rw [← hR, List.length_drop]; omega
  have e1 : (if 1 ≤ data.length % 16 then
      H.1 ^^^ rotl64 (BitVec.ofNat 64 (Murmur3.number (R.take 8)) * 0x87c37b91114253d5#64) 31 * 0x4cf5ad432745937f#64 else H.1) =
      H.1 ^^^ Murmur3.scramble1 (BitVec.ofNat 64 (Murmur3.number (R.take 8))) := by
    by_cases h : 1 ≤ data.length % 16
    · rw [if_pos h, rotl64_eq _ _ (by decide)]
      rfl
    · have : R.take 8 = [] := by rw [List.take_eq_nil_iff]; right; exact List.length_eq_zero_iff.mp (by omega)
      have hz : BitVec.ofNat 64 (Murmur3.number []) = 0#_ := rfl
      rw [if_neg h, this, hz, scramble1_zero, BitVec.xor_zero]
  have e2 : (if 9 ≤ data.length % 16 then
      H.2 ^^^ rotl64 (BitVec.ofNat 64 (Murmur3.number (R.drop 8)) * 0x4cf5ad432745937f#64) 33 * 0x87c37b91114253d5#64 else H.2) =
      H.2 ^^^ Murmur3.scramble2 (BitVec.ofNat 64 (Murmur3.number (R.drop 8))) := by
    by_cases h : 9 ≤ data.length % 16
    · rw [if_pos h, rotl64_eq _ _ (by decide)]
      rfl
    · have : R.drop 8 = [] := List.drop_eq_nil_of_le (by omega)
      have hz : BitVec.ofNat 64 (Murmur3.number []) = 0#_ := rfl
      rw [if_neg h, this, hz, scramble2_zero, BitVec.xor_zero]
  rw [e1, e2]

/-- **C63** (partial: little endian machine, input of less than 2 GiB at an aligned address): the 32-bit digest is the
published hash of the last input, most significant byte first. Missing: see `C63_misaligned`, `C63_long`, `C63_big_endian`. -/
theorem C63_murmur32_partial (h : Host) (hh : h.big = false) (c : M32) (addr : Nat) (data : List Byte) (ha : addr % 4 = 0)
    (hd : data.length < 2 ^ 31) :
    ∃ c', c.update h addr data = .ok c' ∧ c'.seed = c.seed ∧
      (c'.digest h).1 = beBytes 4 (Murmur3.x86_32 c.seed data).toNat := by
  refine ⟨⟨Murmur3.x86_32 c.seed data, c.seed⟩, ?_, rfl, ?_⟩
  · rw [M32.update, hh, x86_32_eq addr data _ ha hd, Outcome.bind_ok, Outcome.pure_def]
  · rw [M32.digest, output_eq h false 4 _ rfl (by decide)]
    simp

/-- **C63** (partial, as above with the address a multiple of 8): the 128-bit digest is the published hash, as the two words
in little endian order. -/
theorem C63_murmur128_partial (h : Host) (hh : h.big = false) (c : M128) (addr : Nat) (data : List Byte) (ha : addr % 8 = 0)
    (hd : data.length < 2 ^ 31) :
    ∃ c', c.update h addr data = .ok c' ∧ c'.seed = c.seed ∧
      (c'.digest h).1 = leBytes 8 (Murmur3.x64_128 c.seed data).1.toNat ++ leBytes 8 (Murmur3.x64_128 c.seed data).2.toNat := by
  refine ⟨⟨Murmur3.x64_128 c.seed data, c.seed⟩, ?_, rfl, ?_⟩
  · rw [M128.update, hh, x64_128_eq addr data _ ha hd, Outcome.bind_ok, Outcome.pure_def]
  · rw [M128.digest, hh, hostRepr, hostRepr, if_neg (by decide), if_neg (by decide), leRepr_eq, leRepr_eq]

/-- The blocks and the rest of the published definition make up the input: every byte is used once. -/
theorem C63_decomposition (w : Nat) (hw : 0 < w / 8) (m : List Byte) :
    ((List.range (m.length / (w / 8))).flatMap fun i => (m.drop (w / 8 * i)).take (w / 8)) ++ m.drop (w / 8 * (m.length / (w / 8))) =
      m := by
  generalize hs : w / 8 = s at hw
  have key : ∀ n, s * n ≤ m.length → ((List.range n).flatMap fun i => (m.drop (s * i)).take s) = m.take (s * n) := by
    intro n
    induction n with
    | zero => intro _; simp
    | succ n ih =>
      intro hn
      rw [Nat.mul_succ] at hn
      rw [List.range_succ, List.flatMap_append, ih (by omega), List.flatMap_singleton, Nat.mul_succ, List.take_add]
  rw [key _ (Nat.mul_div_le _ _), List.take_append_drop]

/-- **C63, negation**: a block read at an address that is not aligned is undefined; on a whole block of input this
happens at once. -/
theorem C63_misaligned (h : Host) (c : M32) (addr : Nat) (data : List Byte) (ha : addr % 4 ≠ 0) (h4 : 4 ≤ data.length)
    (hd : data.length < 2 ^ 31) : c.update h addr data = .ub := by
  obtain ⟨n, hn⟩ : ∃ n, data.length / 4 = n + 1 := ⟨data.length / 4 - 1, by omega⟩
  rw [M32.update, x86_32, tailOffset_eq 4 _ (by decide) hd, Outcome.bind_ok, nblocks_eq 4 _ (by decide) hd, Int.toNat_natCast,
    hn, body32, getblock, if_pos (by rw [Nat.sub_self, Nat.add_zero]; exact ha)]
  rfl

theorem C63_misaligned128 (h : Host) (c : M128) (addr : Nat) (data : List Byte) (ha : addr % 8 ≠ 0) (h4 : 16 ≤ data.length)
    (hd : data.length < 2 ^ 31) : c.update h addr data = .ub := by
  obtain ⟨n, hn⟩ : ∃ n, data.length / 16 = n + 1 := ⟨data.length / 16 - 1, by omega⟩
  rw [M128.update, x64_128, tailOffset_eq 16 _ (by decide) hd, Outcome.bind_ok, nblocks_eq 16 _ (by decide) hd, Int.toNat_natCast,
    hn, body64, getblock, if_pos (by rw [Nat.zero_mul, Nat.mul_zero, Nat.add_zero]; exact ha)]
  rfl

/-- **C63, negation**: for inputs from 2 GiB to 8 GiB the number of bytes in blocks overflows an `int`. -/
theorem C63_long (h : Host) (c : M32) (addr : Nat) (data : List Byte) (h1 : 2 ^ 31 ≤ data.length) (h2 : data.length < 2 ^ 33) :
    c.update h addr data = .ub := by
  have e : nblocks 4 data.length = (data.length / 4 : Nat) := by
    rw [nblocks, BitVec.toInt_eq_toNat_of_lt (by rw [BitVec.toNat_ofNat]; omega), BitVec.toNat_ofNat,
      Nat.mod_eq_of_lt (by omega)]
  rw [M32.update, x86_32, tailOffset]
  simp only [e]
  rw [if_pos (by right; omega)]
  rfl

/-- A little endian and a big endian machine. -/
def little : Host := ⟨false, fun n => ⟨List.replicate n 0#8, by simp⟩, fun n => ⟨List.replicate n 0#32, by simp⟩⟩
def bigEndian : Host := { little with big := true }

def hash32 (h : Host) (seed : Word) (addr : Nat) (data : List Byte) : Outcome (List Byte) := do
  let c ← (M32.new seed).update h addr data
  pure (c.digest h).1

def hash128 (h : Host) (seed : Word) (addr : Nat) (data : List Byte) : Outcome (List Byte) := do
  let c ← (M128.new seed).update h addr data
  pure (c.digest h).1

/-- **C63, negation**: on a big endian machine the digest is another. -/
theorem C63_big_endian : hash32 bigEndian 0 8 (Md5.bytesOf [104, 101, 108, 108, 111]) ≠
    hash32 little 0 8 (Md5.bytesOf [104, 101, 108, 108, 111]) := by decide +kernel

/-- Published values, for "" and "hello". -/
example : hash32 little 1 8 [] = .ok (Md5.bytesOf [0x51, 0x4e, 0x28, 0xb7]) := by decide +kernel
example : hash32 little 0 8 (Md5.bytesOf [104, 101, 108, 108, 111]) = .ok (Md5.bytesOf [0x24, 0x8b, 0xfa, 0x47]) := by
  decide +kernel
example : hash128 little 0 8 (Md5.bytesOf [104, 101, 108, 108, 111]) = .ok (Md5.bytesOf
    [0x02, 0x9b, 0xbd, 0x41, 0xb3, 0xa7, 0xd8, 0xcb, 0x19, 0x1d, 0xae, 0x48, 0x6a, 0x90, 0x1e, 0x5b]) := by decide +kernel
/-- 17 bytes: one block and a tail; the hypotheses of the theorems hold. -/
example : (hash128 little 0 8 (Md5.bytesOf (List.range 17)) ≠ .ub) ∧ 8 % 8 = 0 ∧ (Md5.bytesOf (List.range 17)).length < 2 ^ 31 := by
  decide +kernel

end Solace.Hash.Murmur
