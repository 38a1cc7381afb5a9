import Verif.Props.C84_Murmur3X86
/-! C63, C84: what the Murmur3 functions compute for every input, address and byte order. -/
namespace Solace.Hash.Murmur
open Spec

/-- The first `b` words of `k` bytes with their bytes in the opposite order, the rest as it is. -/
def wordsReversed (k b : Nat) (m : List Byte) : List Byte :=
  (List.range m.length).map fun j => m.getD (if j < k * b then k * (j / k) + (k - 1 - j % k) else j) 0#8

theorem wordsReversed_length (k b : Nat) (m : List Byte) : (wordsReversed k b m).length = m.length := by simp [wordsReversed]

theorem wordsReversed_get (k b : Nat) (m : List Byte) (j : Nat) (hj : j < m.length) :
    (wordsReversed k b m)[j]? = some (m.getD (if j < k * b then k * (j / k) + (k - 1 - j % k) else j) 0#8) := by
  rw [wordsReversed, List.getElem?_map, List.getElem?_range hj]
  rfl

theorem wordsReversed_word (k b : Nat) (m : List Byte) (hb : k * b ≤ m.length) (i : Nat) (hi : i < b) :
    ((wordsReversed k b m).drop (k * i)).take k = ((m.drop (k * i)).take k).reverse := by
  have hik : k * i + k ≤ k * b := by rw [← Nat.mul_succ]; exact Nat.mul_le_mul_left _ hi
  have hl1 : (((m.drop (k * i)).take k)).length = k := by rw [List.length_take, List.length_drop]; omega
  have hl2 : (((wordsReversed k b m).drop (k * i)).take k).length = k := by
    rw [List.length_take, List.length_drop, wordsReversed_length]; omega
  refine List.ext_getElem? fun j => ?_
  by_cases hj : j < k
  · have hk : 0 < k := by omega
    rw [List.getElem?_reverse (by omega), hl1, List.getElem?_take_of_lt hj, List.getElem?_drop,
      wordsReversed_get k b m _ (by omega), List.getElem?_take_of_lt (by omega), List.getElem?_drop, if_pos (by omega),
      Nat.mul_add_div hk, Nat.div_eq_of_lt hj, Nat.mul_add_mod, Nat.mod_eq_of_lt hj, Nat.add_zero, List.getD_eq_getElem?_getD,
      List.getElem?_eq_getElem (by omega)]
    rfl
  · rw [List.getElem?_eq_none (by omega), List.getElem?_eq_none (by rw [List.length_reverse]; omega)]

theorem wordsReversed_rest (k b : Nat) (m : List Byte) (j : Nat) (hj : k * b ≤ j) : (wordsReversed k b m)[j]? = m[j]? := by
  by_cases h : j < m.length
  · rw [wordsReversed_get k b m j h, if_neg (by omega), List.getD_eq_getElem?_getD, List.getElem?_eq_getElem h]
    rfl
  · rw [List.getElem?_eq_none (by rw [wordsReversed_length]; omega), List.getElem?_eq_none (by omega)]

/-- **C63, C84** (full): a block is read exactly when its address is a multiple of its size and all its bytes are there; anything else is
undefined. -/
theorem C63_block (w : Nat) (big : Bool) (addr : Nat) (data : List Byte) (offset : Nat) :
    (getblock w big addr data offset = .ub ↔ ¬ (w / 8 ∣ addr + offset ∧ offset + w / 8 ≤ data.length)) ∧
    (getblock w big addr data offset = .ub ∨
      getblock w big addr data offset = .ok (BitVec.ofNat w (hostValue big ((data.drop offset).take (w / 8))))) := by
  rw [getblock]
  by_cases h1 : (addr + offset) % (w / 8) = 0
  · by_cases h2 : data.length < offset + w / 8
    · simp [h1, h2]
    · simp [h1, h2, Nat.dvd_of_mod_eq_zero h1, Nat.le_of_not_lt h2]
  · simp [h1, Nat.dvd_iff_mod_eq_zero]

example : getblock 32 false 4 [1#8, 2#8, 3#8, 4#8] 0 = .ok 0x04030201#32 ∧ getblock 32 false 4 [1#8, 2#8, 3#8] 0 = .ub ∧
    getblock 32 false 5 [1#8, 2#8, 3#8, 4#8] 0 = .ub := by decide

/-- A block read by a big endian machine is the reversed one read by a little endian one. -/
theorem getblock_big (w addr : Nat) (m : List Byte) (b i : Nat) (hb : w / 8 * b ≤ m.length) (hi : i < b) :
    getblock w true addr m (w / 8 * i) = getblock w false addr (wordsReversed (w / 8) b m) (w / 8 * i) := by
  rw [getblock, getblock, wordsReversed_length, wordsReversed_word (w / 8) b m hb i hi]
  rfl

/-- The tail read by the switch depends on these bytes only. -/
theorem tailWord_congr (w : Nat) (m m' : List Byte) (off r : Nat) (cs : List (Nat × Nat × Nat)) (hcs : ∀ c ∈ cs, c.2.1 < c.1)
    (h : ∀ j, j < r → m[off + j]? = m'[off + j]?) : tailWord w m off r cs = tailWord w m' off r cs := by
  have key : ∀ (cs : List (Nat × Nat × Nat)) (k : BitVec w), (∀ c ∈ cs, c.2.1 < c.1) →
      cs.foldlM (tailStep w m off r) k = cs.foldlM (tailStep w m' off r) k := by
    intro cs
    induction cs with
    | nil => intro k _; rfl
    | cons c cs ih =>
      intro k hc
      have hstep : tailStep w m off r k c = tailStep w m' off r k c := by
        rw [tailStep, tailStep]
        by_cases h1 : c.1 ≤ r
        · rw [if_pos h1, if_pos h1, h c.2.1 (by have := hc c (List.mem_cons_self ..); omega)]
        · rw [if_neg h1, if_neg h1]
      rw [List.foldlM_cons, List.foldlM_cons, hstep]
      cases tailStep w m' off r k c with
      | ok k' => exact ih k' fun c h => hc c (List.mem_cons_of_mem _ h)
      | throws => rfl
      | terminate => rfl
      | ub => rfl
  exact key cs 0 hcs

/-! ### The 32-bit hash -/

theorem body32_big (addr : Nat) (m : List Byte) (N : Nat) (hN : 4 * N ≤ m.length) : ∀ n, n ≤ N → ∀ h,
    body32 true addr m (4 * N) n h = body32 false addr (wordsReversed 4 N m) (4 * N) n h := by
  intro n
  induction n with
  | zero => intro _ h; rfl
  | succ n ih =>
    intro hn h
    have hoff : 4 * N - 4 * (n + 1) = 32 / 8 * (N - (n + 1)) := by omega
    have hb := getblock_big 32 addr m N (N - (n + 1)) hN (by omega)
    rw [body32, body32, hoff, hb]
    generalize getblock 32 false addr (wordsReversed (32 / 8) N m) (32 / 8 * (N - (n + 1))) = x
    cases x with
    | ok k => exact ih (by omega) _
    | throws => rfl
    | terminate => rfl
    | ub => rfl

theorem x86_32_big (addr : Nat) (m : List Byte) (seed : Word) (hd : m.length < 2 ^ 31) :
    x86_32 true addr m seed = x86_32 false addr (wordsReversed 4 (m.length / 4) m) seed := by
  rw [x86_32, x86_32, wordsReversed_length, tailOffset_eq 4 _ (by decide) hd, Outcome.bind_ok, Outcome.bind_ok,
    nblocks_eq 4 _ (by decide) hd, Int.toNat_natCast, body32_big addr m _ (Nat.mul_div_le _ _) _ (Nat.le_refl _)]
  have ht := tailWord_congr 32 m (wordsReversed 4 (m.length / 4) m) (4 * (m.length / 4)) (m.length % 4)
    [(3, 2, 16), (2, 1, 8), (1, 0, 0)] (by decide) fun j _ => (wordsReversed_rest _ _ _ _ (by omega)).symm
  simp only [ht]

theorem getblock_take (w : Nat) (big : Bool) (addr : Nat) (m : List Byte) (n off : Nat) (hn : n ≤ m.length) (h : off + w / 8 ≤ n) :
    getblock w big addr m off = getblock w big addr (m.take n) off := by
  have hl : (m.take n).length = n := by rw [List.length_take]; omega
  rw [getblock, getblock, hl]
  by_cases ha : (addr + off) % (w / 8) ≠ 0
  · rw [if_pos ha, if_pos ha]
  · rw [if_neg ha, if_neg ha, if_neg (by omega), if_neg (by omega), List.drop_take, List.take_take, Nat.min_eq_left (by omega)]

theorem body32_take (big : Bool) (addr : Nat) (m : List Byte) (l N : Nat) (hl : l ≤ m.length) (hN : 4 * N ≤ l) : ∀ n, n ≤ N → ∀ h,
    body32 big addr m (4 * N) n h = body32 big addr (m.take l) (4 * N) n h := by
  intro n
  induction n with
  | zero => intro _ h; rfl
  | succ n ih =>
    intro hn h
    rw [body32, body32, getblock_take 32 big addr m l _ hl (by omega)]
    generalize getblock 32 big addr (m.take l) (4 * N - 4 * (n + 1)) = x
    cases x with
    | ok k => exact ih (by omega) _
    | throws => rfl
    | terminate => rfl
    | ub => rfl

theorem nblocks_mod (bs len : Nat) : nblocks bs (len % (bs * 2 ^ 32)) = nblocks bs len := by
  rw [nblocks, nblocks]
  have h1 : len / bs % 2 ^ 32 = len % (bs * 2 ^ 32) / bs := by
    rw [Nat.mod_mul_right_div_self]
  refine congrArg BitVec.toInt (BitVec.eq_of_toNat_eq ?_)
  rw [BitVec.toNat_ofNat, BitVec.toNat_ofNat, ← h1, Nat.mod_mod]

theorem tailOffset_mod (bs len : Nat) (hb : 0 < bs) (h : len % (bs * 2 ^ 32) < 2 ^ 31) :
    tailOffset bs len = .ok (bs * (len % (bs * 2 ^ 32) / bs)) := by
  have e := nblocks_eq bs _ hb h
  rw [nblocks_mod bs len] at e
  have h2 := Nat.mod_le len (bs * 2 ^ 32)
  generalize len % (bs * 2 ^ 32) = n at *
  have h1 := Nat.mul_div_le n bs
  have e' : nblocks bs len * bs = ((bs * (n / bs) : Nat) : Int) := by rw [e, Nat.mul_comm]; rfl
  rw [tailOffset]
  simp only [e']
  rw [if_neg (by omega), if_neg (by omega), Int.toNat_natCast]

/-- Only the input length modulo 16 GiB counts. -/
theorem x86_32_long (big : Bool) (addr : Nat) (m : List Byte) (seed : Word) (hd : m.length % 2 ^ 34 < 2 ^ 31) :
    x86_32 big addr m seed = x86_32 big addr (m.take (m.length % 2 ^ 34)) seed := by
  have hle := Nat.mod_le m.length (2 ^ 34)
  have hl : (m.take (m.length % 2 ^ 34)).length = m.length % 2 ^ 34 := by rw [List.length_take]; omega
  have e4 : (2 : Nat) ^ 34 = 4 * 2 ^ 32 := by decide
  have e1 := tailOffset_mod 4 m.length (by decide) (by rw [← e4]; exact hd)
  have e2 := nblocks_mod 4 m.length
  rw [← e4] at e1 e2
  have e3 := nblocks_eq 4 _ (by decide) hd
  have e5 := tailOffset_eq 4 _ (by decide) hd
  have e6 : BitVec.ofNat 32 m.length = BitVec.ofNat 32 (m.length % 2 ^ 34) := by
    apply BitVec.eq_of_toNat_eq
    rw [BitVec.toNat_ofNat, BitVec.toNat_ofNat]
    omega
  have e7 : m.length % 4 = m.length % 2 ^ 34 % 4 := by omega
  rw [x86_32, x86_32, hl, e1, e5, ← e2, e3, e6, e7, Outcome.bind_ok, Outcome.bind_ok, Int.toNat_natCast,
    body32_take big addr m (m.length % 2 ^ 34) _ hle (Nat.mul_div_le _ _) _ (Nat.le_refl _)]
  have ht := tailWord_congr 32 m (m.take (m.length % 2 ^ 34)) (4 * (m.length % 2 ^ 34 / 4)) (m.length % 2 ^ 34 % 4)
    [(3, 2, 16), (2, 1, 8), (1, 0, 0)] (by decide) fun j hj => by
      rw [List.getElem?_take_of_lt]
      omega
  simp only [ht]

theorem nblocks_large (bs len : Nat) (hb : 0 < bs) (h : 2 ^ 31 ≤ len % (bs * 2 ^ 32)) (hs : bs ≤ 2 ^ 20) (hd : 2 ^ 31 % bs = 0) :
    tailOffset bs len = .ub := by
  have h3 : len % (bs * 2 ^ 32) / bs < 2 ^ 32 := Nat.div_lt_of_lt_mul (Nat.mod_lt _ (by omega))
  obtain ⟨q, hq⟩ := Nat.dvd_of_mod_eq_zero hd
  have h4 : q ≤ len % (bs * 2 ^ 32) / bs := by
    rw [Nat.le_div_iff_mul_le hb, Nat.mul_comm, ← hq]
    exact h
  have e : nblocks bs len = (BitVec.ofNat 32 (len % (bs * 2 ^ 32) / bs)).toInt := (nblocks_mod bs len).symm
  rw [BitVec.toInt_eq_toNat_bmod, BitVec.toNat_ofNat, Nat.mod_eq_of_lt h3] at e
  generalize hx : len % (bs * 2 ^ 32) / bs = x at *
  have e' : nblocks bs len = if x < 2 ^ 31 then (x : Int) else (x : Int) - 2 ^ 32 := by
    rw [e, Int.bmod_def]
    split <;> split <;> omega
  rw [tailOffset]
  by_cases hlt : x < 2 ^ 31
  · rw [if_pos hlt] at e'
    have : (2 ^ 31 : Int) ≤ nblocks bs len * bs := by
      rw [e']
      have hm : bs * q ≤ bs * x := Nat.mul_le_mul_left _ h4
      rw [← hq] at hm
      rw [Int.mul_comm]
      exact_mod_cast hm
    rw [if_pos (.inr this)]
  · rw [if_neg hlt] at e'
    have : nblocks bs len * bs < 0 := Int.mul_neg_of_neg_of_pos (by omega) (by omega)
    by_cases hc : nblocks bs len * bs < -2 ^ 31 ∨ 2 ^ 31 ≤ nblocks bs len * bs
    · rw [if_pos hc]
    · rw [if_neg hc, if_pos (.inl this)]

/-- What a machine of either byte order takes an input for: big endian ones read the first `b` words backwards. -/
def asSeen (big : Bool) (k b : Nat) (m : List Byte) : List Byte := if big then wordsReversed k b m else m

theorem asSeen_length (big : Bool) (k b : Nat) (m : List Byte) : (asSeen big k b m).length = m.length := by
  cases big
  · rfl
  · exact wordsReversed_length k b m

/-- **C63**, the 32-bit hash exactly, for every input, address and byte order: with `n` the length modulo 16 GiB, an update is
undefined from 2 GiB on and for a whole block at an address that is not a multiple of four; otherwise the digest is the
published hash of the first `n` bytes, the words of which big endian machines take backwards. -/
theorem C63_murmur32_exact (h : Host) (c : M32) (addr : Nat) (data : List Byte) (n : Nat) (hn : n = data.length % 2 ^ 34) :
    (2 ^ 31 ≤ n ∨ (4 ≤ n ∧ addr % 4 ≠ 0) → c.update h addr data = .ub) ∧
    (n < 2 ^ 31 → n < 4 ∨ addr % 4 = 0 → ∃ c', c.update h addr data = .ok c' ∧ c'.seed = c.seed ∧
      (c'.digest h).1 = beBytes 4 (Murmur3.x86_32 c.seed (asSeen h.big 4 (n / 4) (data.take n))).toNat) := by
  subst hn
  have hle := Nat.mod_le data.length (2 ^ 34)
  have hl : (data.take (data.length % 2 ^ 34)).length = data.length % 2 ^ 34 := by rw [List.length_take]; omega
  have e4 : (2 : Nat) ^ 34 = 4 * 2 ^ 32 := by decide
  constructor
  · intro hub
    by_cases hlong : 2 ^ 31 ≤ data.length % 2 ^ 34
    · rw [M32.update, x86_32, nblocks_large 4 _ (by decide) (by rw [← e4]; exact hlong) (by decide) (by decide)]
      rfl
    · obtain ⟨h4, ha⟩ := hub.resolve_left hlong
      rw [M32.update, x86_32_long _ _ _ _ (by omega)]
      exact C63_misaligned h c addr _ ha (by omega) (by omega)
  · intro hs ha
    have key : x86_32 h.big addr data c.seed =
        .ok (Murmur3.x86_32 c.seed (asSeen h.big 4 (data.length % 2 ^ 34 / 4) (data.take (data.length % 2 ^ 34)))) := by
      rw [x86_32_long _ _ _ _ hs]
      have hflip : x86_32 h.big addr (data.take (data.length % 2 ^ 34)) c.seed =
          x86_32 false addr (asSeen h.big 4 (data.length % 2 ^ 34 / 4) (data.take (data.length % 2 ^ 34))) c.seed := by
        cases h.big with
        | false => rfl
        | true =>
          have := x86_32_big addr (data.take (data.length % 2 ^ 34)) c.seed (by omega)
          rwa [hl] at this
      rw [hflip]
      generalize hm : asSeen h.big 4 (data.length % 2 ^ 34 / 4) (data.take (data.length % 2 ^ 34)) = m
      have hml : m.length = data.length % 2 ^ 34 := by rw [← hm, asSeen_length, hl]
      rcases ha with h4 | ha
      · have hind : x86_32 false addr m c.seed = x86_32 false 0 m c.seed := by
          have h0 : m.length / 4 = 0 := by omega
          rw [x86_32, x86_32, tailOffset_eq 4 _ (by decide) (by omega), nblocks_eq 4 _ (by decide) (by omega), h0]
          rfl
        rw [hind]
        exact x86_32_eq 0 m c.seed rfl (by omega)
      · exact x86_32_eq addr m c.seed ha (by omega)
    refine ⟨⟨Murmur3.x86_32 c.seed (asSeen h.big 4 (data.length % 2 ^ 34 / 4) (data.take (data.length % 2 ^ 34))), c.seed⟩,
      by rw [M32.update, key, Outcome.bind_ok, Outcome.pure_def], rfl, ?_⟩
    rw [M32.digest, output_eq h false 4 _ rfl (by decide)]
    simp

/-! ### The 128-bit hash of 64-bit targets -/

/-- The end of `MurmurHash3_x64_128`, murmur3.cpp:280-312. -/
def finish64 (r len : Nat) (h : Word64 × Word64) (k1 k2 : Word64) : Word64 × Word64 :=
  let h2 := if 9 ≤ r then h.2 ^^^ rotl64 (k2 * 0x4cf5ad432745937f#64) 33 * 0x87c37b91114253d5#64 else h.2
  let h1 := if 1 ≤ r then h.1 ^^^ rotl64 (k1 * 0x87c37b91114253d5#64) 31 * 0x4cf5ad432745937f#64 else h.1
  let h1 := h1 ^^^ BitVec.ofNat 64 len
  let h2 := h2 ^^^ BitVec.ofNat 64 len
  let a1 := h1 + h2
  let a2 := h2 + a1
  let b1 := fmix64 a1
  let b2 := fmix64 a2
  (b1 + b2, b2 + (b1 + b2))

/-- The model with the length that is mixed in apart from the input. -/
theorem x64_128_split (big : Bool) (addr : Nat) (m : List Byte) (seed : Word) : x64_128 big addr m seed =
    tailOffset 16 m.length >>= fun base =>
    body64 big addr m 0 (nblocks 16 m.length).toNat (seed.setWidth 64, seed.setWidth 64) >>= fun h =>
    tailWord 64 m base (m.length % 16)
      [(15, 14, 48), (14, 13, 40), (13, 12, 32), (12, 11, 24), (11, 10, 16), (10, 9, 8), (9, 8, 0)] >>= fun k2 =>
    tailWord 64 m base (m.length % 16)
      [(8, 7, 56), (7, 6, 48), (6, 5, 40), (5, 4, 32), (4, 3, 24), (3, 2, 16), (2, 1, 8), (1, 0, 0)] >>= fun k1 =>
    .ok (finish64 (m.length % 16) m.length h k1 k2) := rfl

/-- The same with the length apart. -/
def core64 (big : Bool) (addr : Nat) (m : List Byte) (len : Nat) (seed : Word) : Outcome (Word64 × Word64) :=
  tailOffset 16 m.length >>= fun base =>
  body64 big addr m 0 (nblocks 16 m.length).toNat (seed.setWidth 64, seed.setWidth 64) >>= fun h =>
  tailWord 64 m base (m.length % 16)
    [(15, 14, 48), (14, 13, 40), (13, 12, 32), (12, 11, 24), (11, 10, 16), (10, 9, 8), (9, 8, 0)] >>= fun k2 =>
  tailWord 64 m base (m.length % 16)
    [(8, 7, 56), (7, 6, 48), (6, 5, 40), (5, 4, 32), (4, 3, 24), (3, 2, 16), (2, 1, 8), (1, 0, 0)] >>= fun k1 =>
  .ok (finish64 (m.length % 16) len h k1 k2)

theorem core64_eq (addr : Nat) (m : List Byte) (len : Nat) (seed : Word) (ha : m.length < 16 ∨ addr % 8 = 0) (hd : m.length < 2 ^ 31) :
    core64 false addr m len seed = .ok (Murmur3.x64_128WithLength seed len m) := by
  have hdiv := Nat.div_add_mod m.length 16
  have hbody : body64 false addr m 0 (m.length / 16) (seed.setWidth 64, seed.setWidth 64) =
      .ok ((List.range' 0 (m.length / 16)).foldl (Murmur3.round m) (seed.setWidth 64, seed.setWidth 64)) := by
    rcases ha with h | h
    · rw [Nat.div_eq_of_lt h]
      rfl
    · exact body64_eq addr m h _ 0 (by omega) _
  have c7 : [(15, 14, 48), (14, 13, 40), (13, 12, 32), (12, 11, 24), (11, 10, 16), (10, 9, 8), (9, 8, 0)] = cases 8 7 := rfl
  have c8 : [(8, 7, 56), (7, 6, 48), (6, 5, 40), (5, 4, 32), (4, 3, 24), (3, 2, 16), (2, 1, 8), (1, 0, 0)] = cases 0 8 := rfl
  rw [core64, tailOffset_eq 16 _ (by decide) hd, Outcome.bind_ok, nblocks_eq 16 _ (by decide) hd, Int.toNat_natCast,
    hbody, Outcome.bind_ok, c7, c8, tailWord_eq 64 m _ (m.length % 16) 8 7 (by omega) _ rfl, Outcome.bind_ok,
    tailWord_eq 64 m _ (m.length % 16) 0 8 (by omega) _ rfl, Outcome.bind_ok]
  refine congrArg Outcome.ok ?_
  have ht2 : ((m.drop (16 * (m.length / 16))).drop 8).take 7 = (m.drop (16 * (m.length / 16))).drop 8 := by
    rw [List.take_of_length_le (by rw [List.length_drop, List.length_drop]; omega)]
  rw [ht2, List.drop_zero, ← List.range_eq_range', Murmur3.x64_128WithLength, finish64]
  simp only [fmix64_eq]
  generalize (List.range (m.length / 16)).foldl (Murmur3.round m) _ = H
  generalize hR : m.drop (16 * (m.length / 16)) = R
  have hRl : R.length = m.length % 16 := by rw [← hR, List.length_drop]; omega
  have e1 : (if 1 ≤ m.length % 16 then
      H.1 ^^^ rotl64 (BitVec.ofNat 64 (Murmur3.number (R.take 8)) * 0x87c37b91114253d5#64) 31 * 0x4cf5ad432745937f#64 else H.1) =
      H.1 ^^^ Murmur3.scramble1 (BitVec.ofNat 64 (Murmur3.number (R.take 8))) := by
    by_cases h : 1 ≤ m.length % 16
    · rw [if_pos h, rotl64_eq _ _ (by decide)]
      rfl
    · have : R.take 8 = [] := by rw [List.take_eq_nil_iff]; right; exact List.length_eq_zero_iff.mp (by omega)
      have hz : BitVec.ofNat 64 (Murmur3.number []) = 0#_ := rfl
      rw [if_neg h, this, hz, scramble1_zero, BitVec.xor_zero]
  have e2 : (if 9 ≤ m.length % 16 then
      H.2 ^^^ rotl64 (BitVec.ofNat 64 (Murmur3.number (R.drop 8)) * 0x4cf5ad432745937f#64) 33 * 0x87c37b91114253d5#64 else H.2) =
      H.2 ^^^ Murmur3.scramble2 (BitVec.ofNat 64 (Murmur3.number (R.drop 8))) := by
    by_cases h : 9 ≤ m.length % 16
    · rw [if_pos h, rotl64_eq _ _ (by decide)]
      rfl
    · have : R.drop 8 = [] := List.drop_eq_nil_of_le (by omega)
      have hz : BitVec.ofNat 64 (Murmur3.number []) = 0#_ := rfl
      rw [if_neg h, this, hz, scramble2_zero, BitVec.xor_zero]
  rw [e1, e2]

theorem body64_big (addr : Nat) (m : List Byte) (N : Nat) (hN : 16 * N ≤ m.length) : ∀ n i, i + n ≤ N → ∀ h,
    body64 true addr m i n h = body64 false addr (wordsReversed 8 (2 * N) m) i n h := by
  intro n
  induction n with
  | zero => intro i _ h; rfl
  | succ n ih =>
    intro i hn h
    obtain ⟨h1, h2⟩ := h
    have b1 := getblock_big 64 addr m (2 * N) (i * 2) (by omega) (by omega)
    have b2 := getblock_big 64 addr m (2 * N) (i * 2 + 1) (by omega) (by omega)
    have e8 : 64 / 8 = 8 := rfl
    rw [e8] at b1 b2
    rw [body64, body64, b1, b2]
    generalize getblock 64 false addr (wordsReversed 8 (2 * N) m) (8 * (i * 2)) = x
    generalize getblock 64 false addr (wordsReversed 8 (2 * N) m) (8 * (i * 2 + 1)) = y
    cases x with
    | ok k =>
      cases y with
      | ok k' => exact ih (i + 1) (by omega) _
      | throws => rfl
      | terminate => rfl
      | ub => rfl
    | throws => rfl
    | terminate => rfl
    | ub => rfl

theorem body64_take (big : Bool) (addr : Nat) (m : List Byte) (l : Nat) (hl : l ≤ m.length) : ∀ n i, 16 * (i + n) ≤ l → ∀ h,
    body64 big addr m i n h = body64 big addr (m.take l) i n h := by
  intro n
  induction n with
  | zero => intro i _ h; rfl
  | succ n ih =>
    intro i hn h
    obtain ⟨h1, h2⟩ := h
    rw [body64, body64, getblock_take 64 big addr m l _ hl (by omega), getblock_take 64 big addr m l (8 * (i * 2 + 1)) hl (by omega)]
    generalize getblock 64 big addr (m.take l) (8 * (i * 2)) = x
    generalize getblock 64 big addr (m.take l) (8 * (i * 2 + 1)) = y
    cases x with
    | ok k =>
      cases y with
      | ok k' => exact ih (i + 1) (by omega) _
      | throws => rfl
      | terminate => rfl
      | ub => rfl
    | throws => rfl
    | terminate => rfl
    | ub => rfl

theorem core64_big (addr : Nat) (m : List Byte) (len : Nat) (seed : Word) (hd : m.length < 2 ^ 31) :
    core64 true addr m len seed = core64 false addr (wordsReversed 8 (2 * (m.length / 16)) m) len seed := by
  have ht := fun cs hc => tailWord_congr 64 m (wordsReversed 8 (2 * (m.length / 16)) m) (16 * (m.length / 16)) (m.length % 16) cs hc
    fun j _ => (wordsReversed_rest 8 _ _ _ (by omega)).symm
  rw [core64, core64, wordsReversed_length, tailOffset_eq 16 _ (by decide) hd, Outcome.bind_ok, Outcome.bind_ok,
    nblocks_eq 16 _ (by decide) hd, Int.toNat_natCast, body64_big addr m _ (Nat.mul_div_le _ _) _ 0 (by omega),
    ht _ (by decide), ht _ (by decide)]

theorem x64_128_long (big : Bool) (addr : Nat) (m : List Byte) (seed : Word) (hd : m.length % 2 ^ 36 < 2 ^ 31) :
    x64_128 big addr m seed = core64 big addr (m.take (m.length % 2 ^ 36)) m.length seed := by
  have hle := Nat.mod_le m.length (2 ^ 36)
  have hl : (m.take (m.length % 2 ^ 36)).length = m.length % 2 ^ 36 := by rw [List.length_take]; omega
  have e4 : (2 : Nat) ^ 36 = 16 * 2 ^ 32 := by decide
  have e1 := tailOffset_mod 16 m.length (by decide) (by rw [← e4]; exact hd)
  have e2 := nblocks_mod 16 m.length
  rw [← e4] at e1 e2
  have e3 := nblocks_eq 16 _ (by decide) hd
  have e5 := tailOffset_eq 16 _ (by decide) hd
  have e7 : m.length % 16 = m.length % 2 ^ 36 % 16 := by omega
  have ht := fun cs hc => tailWord_congr 64 m (m.take (m.length % 2 ^ 36)) (16 * (m.length % 2 ^ 36 / 16)) (m.length % 2 ^ 36 % 16)
    cs hc fun j hj => by
      rw [List.getElem?_take_of_lt]
      omega
  rw [x64_128_split, core64, hl, e1, e5, ← e2, e3, e7, Outcome.bind_ok, Outcome.bind_ok, Int.toNat_natCast,
    body64_take big addr m (m.length % 2 ^ 36) hle _ 0 (by rw [Nat.zero_add]; exact Nat.mul_div_le _ _), ht _ (by decide), ht _ (by decide)]

/-- **C63**, the 128-bit hash of 64-bit targets exactly: with `n` the length modulo 64 GiB, an update is undefined from 2 GiB on and
for a whole block at an address that is not a multiple of eight; otherwise the digest is the published hash of the first `n` bytes
with the whole length mixed in; big endian machines take the words of the blocks backwards and write the two words backwards. -/
theorem C63_murmur128_exact (h : Host) (c : M128) (addr : Nat) (data : List Byte) (n : Nat) (hn : n = data.length % 2 ^ 36) :
    (2 ^ 31 ≤ n ∨ (16 ≤ n ∧ addr % 8 ≠ 0) → c.update h addr data = .ub) ∧
    (n < 2 ^ 31 → n < 16 ∨ addr % 8 = 0 → ∃ c' v, c.update h addr data = .ok c' ∧ c'.seed = c.seed ∧
      v = Murmur3.x64_128WithLength c.seed data.length (asSeen h.big 8 (2 * (n / 16)) (data.take n)) ∧
      (c'.digest h).1 = if h.big then beBytes 8 v.1.toNat ++ beBytes 8 v.2.toNat else leBytes 8 v.1.toNat ++ leBytes 8 v.2.toNat) := by
  subst hn
  have hle := Nat.mod_le data.length (2 ^ 36)
  have hl : (data.take (data.length % 2 ^ 36)).length = data.length % 2 ^ 36 := by rw [List.length_take]; omega
  have e4 : (2 : Nat) ^ 36 = 16 * 2 ^ 32 := by decide
  constructor
  · intro hub
    by_cases hlong : 2 ^ 31 ≤ data.length % 2 ^ 36
    · rw [M128.update, x64_128, nblocks_large 16 _ (by decide) (by rw [← e4]; exact hlong) (by decide) (by decide)]
      rfl
    · obtain ⟨h4, ha⟩ := hub.resolve_left hlong
      obtain ⟨n, hn⟩ : ∃ n, data.length % 2 ^ 36 / 16 = n + 1 := ⟨data.length % 2 ^ 36 / 16 - 1, by omega⟩
      rw [M128.update, x64_128_long _ _ _ _ (by omega), core64, hl, tailOffset_eq 16 _ (by decide) (by omega), Outcome.bind_ok,
        nblocks_eq 16 _ (by decide) (by omega), Int.toNat_natCast, hn, body64, getblock,
        if_pos (by rw [Nat.zero_mul, Nat.mul_zero, Nat.add_zero]; exact ha)]
      rfl
  · intro hs ha
    have key : x64_128 h.big addr data c.seed = .ok (Murmur3.x64_128WithLength c.seed data.length
        (asSeen h.big 8 (2 * (data.length % 2 ^ 36 / 16)) (data.take (data.length % 2 ^ 36)))) := by
      rw [x64_128_long _ _ _ _ hs]
      have hflip : core64 h.big addr (data.take (data.length % 2 ^ 36)) data.length c.seed = core64 false addr
          (asSeen h.big 8 (2 * (data.length % 2 ^ 36 / 16)) (data.take (data.length % 2 ^ 36))) data.length c.seed := by
        cases h.big with
        | false => rfl
        | true =>
          have := core64_big addr (data.take (data.length % 2 ^ 36)) data.length c.seed (by omega)
          rwa [hl] at this
      rw [hflip]
      refine core64_eq addr _ _ _ ?_ ?_ <;> rw [asSeen_length, hl]
      · exact ha
      · exact hs
    refine ⟨⟨Murmur3.x64_128WithLength c.seed data.length
        (asSeen h.big 8 (2 * (data.length % 2 ^ 36 / 16)) (data.take (data.length % 2 ^ 36))), c.seed⟩, _, ?_, rfl, rfl, ?_⟩
    · rw [M128.update, key, Outcome.bind_ok, Outcome.pure_def]
    · generalize Murmur3.x64_128WithLength c.seed data.length _ = v
      rw [M128.digest, hostRepr, hostRepr, leRepr_eq, leRepr_eq]
      cases h.big <;> rfl

/-! ### The 128-bit hash of 32-bit targets -/

theorem body128_big (addr : Nat) (m : List Byte) (N : Nat) (hN : 16 * N ≤ m.length) : ∀ n, n ≤ N → ∀ h,
    body128 true addr m (16 * N) n h = body128 false addr (wordsReversed 4 (4 * N) m) (16 * N) n h := by
  intro n
  induction n with
  | zero => intro _ h; rfl
  | succ n ih =>
    intro hn h
    obtain ⟨h1, h2, h3, h4⟩ := h
    have o1 : 16 * N - 16 * (n + 1) = 32 / 8 * (4 * (N - (n + 1))) := by omega
    have o2 : 32 / 8 * (4 * (N - (n + 1))) + 4 = 32 / 8 * (4 * (N - (n + 1)) + 1) := by omega
    have o3 : 32 / 8 * (4 * (N - (n + 1))) + 8 = 32 / 8 * (4 * (N - (n + 1)) + 2) := by omega
    have o4 : 32 / 8 * (4 * (N - (n + 1))) + 12 = 32 / 8 * (4 * (N - (n + 1)) + 3) := by omega
    have b1 := getblock_big 32 addr m (4 * N) (4 * (N - (n + 1))) (by omega) (by omega)
    have b2 := getblock_big 32 addr m (4 * N) (4 * (N - (n + 1)) + 1) (by omega) (by omega)
    have b3 := getblock_big 32 addr m (4 * N) (4 * (N - (n + 1)) + 2) (by omega) (by omega)
    have b4 := getblock_big 32 addr m (4 * N) (4 * (N - (n + 1)) + 3) (by omega) (by omega)
    rw [body128, body128, o1, o2, o3, o4, b1, b2, b3, b4]
    have e8 : 32 / 8 = 4 := rfl
    simp only [e8]
    generalize getblock 32 false addr (wordsReversed 4 (4 * N) m) (4 * (4 * (N - (n + 1)))) = x
    generalize getblock 32 false addr (wordsReversed 4 (4 * N) m) (4 * (4 * (N - (n + 1)) + 1)) = y
    generalize getblock 32 false addr (wordsReversed 4 (4 * N) m) (4 * (4 * (N - (n + 1)) + 2)) = z
    generalize getblock 32 false addr (wordsReversed 4 (4 * N) m) (4 * (4 * (N - (n + 1)) + 3)) = u
    cases x <;> try rfl
    cases y <;> try rfl
    cases z <;> try rfl
    cases u <;> try rfl
    exact ih (by omega) _

theorem x86_128_big (addr : Nat) (m : List Byte) (seed : Word) (hd : m.length < 2 ^ 31) :
    x86_128 true addr m seed = x86_128 false addr (wordsReversed 4 (4 * (m.length / 16)) m) seed := by
  have ht : ∀ cs, (∀ c ∈ cs, c.2.1 < c.1) → tailPart m (16 * (m.length / 16)) (m.length % 16) cs =
      tailPart (wordsReversed 4 (4 * (m.length / 16)) m) (16 * (m.length / 16)) (m.length % 16) cs := by
    intro cs hc
    funext l a r b h
    rw [tailPart, tailPart, tailWord_congr 32 m (wordsReversed 4 (4 * (m.length / 16)) m) (16 * (m.length / 16)) (m.length % 16) cs hc
      fun j _ => (wordsReversed_rest 4 _ _ _ (by omega)).symm]
  rw [x86_128, x86_128, wordsReversed_length, tailOffset_eq 16 _ (by decide) hd, Outcome.bind_ok, Outcome.bind_ok,
    nblocks_eq 16 _ (by decide) hd, Int.toNat_natCast, body128_big addr m _ (Nat.mul_div_le _ _) _ (Nat.le_refl _)]
  simp only [ht _ (by decide : ∀ c ∈ [(15, 14, 16), (14, 13, 8), (13, 12, 0)], c.2.1 < c.1),
    ht _ (by decide : ∀ c ∈ [(12, 11, 24), (11, 10, 16), (10, 9, 8), (9, 8, 0)], c.2.1 < c.1),
    ht _ (by decide : ∀ c ∈ [(8, 7, 24), (7, 6, 16), (6, 5, 8), (5, 4, 0)], c.2.1 < c.1),
    ht _ (by decide : ∀ c ∈ [(4, 3, 24), (3, 2, 16), (2, 1, 8), (1, 0, 0)], c.2.1 < c.1)]

/-- **C84** exactly, for every input that a 32-bit target can hold: an update is undefined from 2 GiB on and for a whole block at an
address that is not a multiple of four; otherwise the digest is the published hash, of words taken backwards and written backwards on
big endian machines. -/
theorem C84_murmur128_exact (h : Host) (c : M128x86) (addr : Nat) (data : List Byte) (hd : data.length < 2 ^ 32) :
    (2 ^ 31 ≤ data.length ∨ (16 ≤ data.length ∧ addr % 4 ≠ 0) → c.update h addr data = .ub) ∧
    (data.length < 2 ^ 31 → data.length < 16 ∨ addr % 4 = 0 → ∃ c' v, c.update h addr data = .ok c' ∧ c'.seed = c.seed ∧
      v = Murmur3.x86_128 c.seed (asSeen h.big 4 (4 * (data.length / 16)) data) ∧
      (c'.digest h).1 = [v.w0, v.w1, v.w2, v.w3].flatMap fun w => if h.big then beBytes 4 w.toNat else leBytes 4 w.toNat) := by
  constructor
  · intro hub
    by_cases hlong : 2 ^ 31 ≤ data.length
    · rw [M128x86.update, x86_128, nblocks_large 16 _ (by decide) (by rw [Nat.mod_eq_of_lt (by omega)]; exact hlong) (by decide)
        (by decide)]
      rfl
    · obtain ⟨h4, ha⟩ := hub.resolve_left hlong
      exact C84_misaligned h c addr _ ha h4 (by omega)
  · intro hs ha
    have key : x86_128 h.big addr data c.seed =
        .ok (quad (Murmur3.x86_128 c.seed (asSeen h.big 4 (4 * (data.length / 16)) data))) := by
      have hflip : x86_128 h.big addr data c.seed =
          x86_128 false addr (asSeen h.big 4 (4 * (data.length / 16)) data) c.seed := by
        cases h.big with
        | false => rfl
        | true => exact x86_128_big addr data c.seed hs
      rw [hflip]
      generalize hm : asSeen h.big 4 (4 * (data.length / 16)) data = m
      have hml : m.length = data.length := by rw [← hm, asSeen_length]
      rcases ha with h4 | ha
      · have hind : x86_128 false addr m c.seed = x86_128 false 0 m c.seed := by
          have h0 : m.length / 16 = 0 := by omega
          rw [x86_128, x86_128, tailOffset_eq 16 _ (by decide) (by omega), nblocks_eq 16 _ (by decide) (by omega), h0]
          rfl
        rw [hind]
        exact x86_128_eq 0 m c.seed rfl (by omega)
      · exact x86_128_eq addr m c.seed ha (by omega)
    refine ⟨⟨quad (Murmur3.x86_128 c.seed (asSeen h.big 4 (4 * (data.length / 16)) data)), c.seed⟩, _, ?_, rfl, rfl, ?_⟩
    · rw [M128x86.update, key, Outcome.bind_ok, Outcome.pure_def]
    · generalize Murmur3.x86_128 c.seed _ = v
      simp only [M128x86.digest, hostRepr, leRepr_eq, quad]
      cases h.big <;> simp [beBytes]

/-- 5 and 17 bytes: one block and a rest. -/
example : hash32 bigEndian 0 8 (Md5.bytesOf [104, 101, 108, 108, 111]) =
    hash32 little 0 8 (asSeen true 4 1 (Md5.bytesOf [104, 101, 108, 108, 111])) := by decide +kernel
example : asSeen true 4 1 (Md5.bytesOf [104, 101, 108, 108, 111]) = Md5.bytesOf [108, 108, 101, 104, 111] := by decide +kernel
example : 5 % 2 ^ 34 < 2 ^ 31 ∧ 17 % 2 ^ 36 < 2 ^ 31 ∧ (2 ^ 34 + 5) % 2 ^ 34 < 2 ^ 31 ∧ 8 % 8 = 0 ∧ 3 < 16 := by decide

end Solace.Hash.Murmur
