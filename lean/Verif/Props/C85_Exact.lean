import Verif.Props.C63_C84_Exact
import Verif.Props.C85_Murmur3Injective
/-! C85 for every input, address and byte order. -/
namespace Solace.Hash.Murmur
open Spec

/-- Where a byte of a block is taken from when words are read backwards. -/
def mirrored (k b j : Nat) : Nat := if j < k * b then k * (j / k) + (k - 1 - j % k) else j

theorem mirrored_div (k b j : Nat) (hk : 0 < k) : mirrored k b j / k = j / k := by
  rw [mirrored]
  split
  · have := Nat.mod_lt j hk
    rw [Nat.mul_add_div hk, Nat.div_eq_of_lt (by omega : k - 1 - j % k < k), Nat.add_zero]
  · rfl

theorem mirrored_lt (k b j : Nat) (hk : 0 < k) : mirrored k b j < k * b ↔ j < k * b := by
  have h : ∀ x, x < k * b ↔ x / k < b := fun x => by rw [Nat.div_lt_iff_lt_mul hk, Nat.mul_comm]
  rw [h, h, mirrored_div k b j hk]

theorem mirrored_mirrored (k b j : Nat) (hk : 0 < k) : mirrored k b (mirrored k b j) = j := by
  by_cases h : j < k * b
  · have hlt := Nat.mod_lt j hk
    have hdiv := Nat.div_add_mod j k
    have hm : mirrored k b j % k = k - 1 - j % k := by
      rw [mirrored, if_pos h, Nat.mul_add_mod, Nat.mod_eq_of_lt (by omega)]
    rw [mirrored, if_pos ((mirrored_lt k b j hk).2 h), mirrored_div k b j hk, hm]
    omega
  · have e : mirrored k b j = j := if_neg h
    rw [e, e]

theorem mirrored_bound (k b j l : Nat) (hk : 0 < k) (hl : k * b ≤ l) : mirrored k b j < l ↔ j < l := by
  by_cases h : j < k * b
  · have := (mirrored_lt k b j hk).2 h
    exact ⟨fun _ => by omega, fun _ => by omega⟩
  · have e : mirrored k b j = j := if_neg h
    rw [e]

theorem wordsReversed_at (k b : Nat) (m : List Byte) (hk : 0 < k) (hl : k * b ≤ m.length) (j : Nat) :
    (wordsReversed k b m)[j]? = m[mirrored k b j]? := by
  by_cases h : j < m.length
  · have := (mirrored_bound k b j m.length hk hl).2 h
    have e : (if j < k * b then k * (j / k) + (k - 1 - j % k) else j) = mirrored k b j := rfl
    rw [wordsReversed_get k b m j h, e, List.getD_eq_getElem?_getD, List.getElem?_eq_getElem this]
    rfl
  · have : ¬ mirrored k b j < m.length := fun x => h ((mirrored_bound k b j m.length hk hl).1 x)
    rw [List.getElem?_eq_none (by rw [wordsReversed_length]; omega), List.getElem?_eq_none (by omega)]

theorem asSeen_inj (big : Bool) (k b : Nat) (m m' : List Byte) (hk : 0 < k) (hl : k * b ≤ m.length) (hl' : k * b ≤ m'.length)
    (h : asSeen big k b m = asSeen big k b m') : m = m' := by
  cases big with
  | false => exact h
  | true =>
    refine List.ext_getElem? fun j => ?_
    have e := congrArg (fun l => l[mirrored k b j]?) h
    simp only [asSeen, if_true] at e
    rw [wordsReversed_at k b m hk hl, wordsReversed_at k b m' hk hl', mirrored_mirrored k b j hk] at e
    exact e

theorem SameBut.asSeen {k t p : Nat} {m m' : List Byte} (big : Bool) (b : Nat) (hk : 0 < k) (hl : k * b ≤ m.length)
    (h : SameBut (k * t) p m m') : SameBut (k * t) p (asSeen big k b m) (asSeen big k b m') := by
  cases big with
  | false => exact h
  | true =>
    refine ⟨by rw [asSeen_length, asSeen_length]; exact h.1, fun i hi => ?_⟩
    rw [Murmur.asSeen, Murmur.asSeen, if_pos rfl, if_pos rfl, wordsReversed_at k b m hk hl,
      wordsReversed_at k b m' hk (by rw [← h.1]; exact hl)]
    refine h.2 _ ?_
    rw [← Nat.div_div_eq_div_mul, mirrored_div k b i hk, Nat.div_div_eq_div_mul]
    exact hi

theorem SameBut.take {size p : Nat} {m m' : List Byte} (h : SameBut size p m m') (n : Nat) : SameBut size p (m.take n) (m'.take n) := by
  refine ⟨by rw [List.length_take, List.length_take, h.1], fun i hi => ?_⟩
  rw [List.getElem?_take, List.getElem?_take, h.2 i hi]

/-- **C85**, 32 bits, for every host and wherever the updates are defined: of two inputs of the same length that differ only
within one block the digests are the same exactly if the difference is beyond the `n` bytes that are looked at, where `n` is the
length modulo 16 GiB; and one input has different digests under different seeds. -/
theorem C85_murmur32_exact (h : Host) (addr addr' : Nat) (data data' : List Byte) (seed seed' : Word) (c c' : M32)
    (hu : (M32.new seed).update h addr data = .ok c) (hu' : (M32.new seed').update h addr' data' = .ok c') :
    (∀ p, seed = seed' → SameBut 4 p data data' → ((c.digest h).1 = (c'.digest h).1 ↔
      data.take (data.length % 2 ^ 34) = data'.take (data.length % 2 ^ 34))) ∧
    (data = data' → ((c.digest h).1 = (c'.digest h).1 ↔ seed = seed')) := by
  have facts : ∀ (seed : Word) addr (data : List Byte) c, (M32.new seed).update h addr data = .ok c →
      (c.digest h).1 = beBytes 4 (Murmur3.x86_32 seed
        (asSeen h.big 4 (data.length % 2 ^ 34 / 4) (data.take (data.length % 2 ^ 34)))).toNat := by
    intro seed addr data c hu
    obtain ⟨h1, h2⟩ := C63_murmur32_exact h (M32.new seed) addr data _ rfl
    by_cases hb : 2 ^ 31 ≤ data.length % 2 ^ 34 ∨ (4 ≤ data.length % 2 ^ 34 ∧ addr % 4 ≠ 0)
    · rw [h1 hb] at hu
      cases hu
    · obtain ⟨c', e, -, d⟩ := h2 (by omega) (by omega)
      rw [hu] at e
      cases e
      exact d
  have f := facts seed addr data c hu
  have f' := facts seed' addr' data' c' hu'
  have inj : ∀ x y : Word, beBytes 4 x.toNat = beBytes 4 y.toNat → x = y := fun x y e =>
    word_bytes_inj (n := 4) (by decide) _ _ (List.reverse_inj.1 e)
  refine ⟨fun p hs hm => ⟨fun e => ?_, fun e => ?_⟩, fun hd => ⟨fun e => ?_, fun e => ?_⟩⟩
  · rw [f, f', ← hs, ← hm.1] at e
    have e2 := inj _ _ e
    have hle := Nat.mod_le data.length (2 ^ 34)
    have hb : 4 * (data.length % 2 ^ 34 / 4) ≤ (data.take (data.length % 2 ^ 34)).length := by
      rw [List.length_take]; omega
    refine asSeen_inj h.big 4 _ _ _ (by decide) hb (by rw [List.length_take, ← hm.1]; omega) ?_
    exact x86_32_inj seed _ _ p (SameBut.asSeen (k := 4) (t := 1) h.big _ (by decide) hb (hm.take _)) e2
  · rw [f, f', ← hs, ← hm.1, e]
  · rw [f, f', ← hd] at e
    exact x86_32_seed seed seed' _ (inj _ _ e)
  · rw [f, f', ← hd, e]

theorem x64WithLength_form (seed : Word) (len : Nat) (m : List Byte) : Murmur3.x64_128WithLength seed len m =
    let h := (List.range (m.length / 16)).foldl (fun s i => step64 s (pair m i)) (seed.setWidth 64, seed.setWidth 64)
    let rest := m.drop (16 * (m.length / 16))
    end64 (h.1 ^^^ Murmur3.scramble1 (BitVec.ofNat 64 (Murmur3.number (rest.take 8))) ^^^ BitVec.ofNat 64 len,
      h.2 ^^^ Murmur3.scramble2 (BitVec.ofNat 64 (Murmur3.number (rest.drop 8))) ^^^ BitVec.ofNat 64 len) := rfl

theorem x64WithLength_eq (seed seed' : Word) (len : Nat) (m m' : List Byte) (hl : m.length = m'.length)
    (h : Murmur3.x64_128WithLength seed len m = Murmur3.x64_128WithLength seed' len m') :
    Murmur3.x64_128 seed m = Murmur3.x64_128 seed' m' := by
  rw [x64WithLength_form, x64WithLength_form] at h
  have h0 := end64_inj _ _ h
  rw [Prod.mk.injEq] at h0
  rw [x64_128_form, x64_128_form]
  simp only
  rw [xor_right_inj _ _ _ h0.1, xor_right_inj _ _ _ h0.2, hl]

/-- **C85**, 128 bits on a 64-bit target, likewise with the length modulo 64 GiB. -/
theorem C85_murmur128_exact (h : Host) (addr addr' : Nat) (data data' : List Byte) (seed seed' : Word) (c c' : M128)
    (hu : (M128.new seed).update h addr data = .ok c) (hu' : (M128.new seed').update h addr' data' = .ok c') :
    (∀ p, seed = seed' → SameBut 16 p data data' → ((c.digest h).1 = (c'.digest h).1 ↔
      data.take (data.length % 2 ^ 36) = data'.take (data.length % 2 ^ 36))) ∧
    (data = data' → ((c.digest h).1 = (c'.digest h).1 ↔ seed = seed')) := by
  have facts : ∀ (seed : Word) addr (data : List Byte) c, (M128.new seed).update h addr data = .ok c →
      (c.digest h).1 = (fun v : Word64 × Word64 =>
        if h.big then beBytes 8 v.1.toNat ++ beBytes 8 v.2.toNat else leBytes 8 v.1.toNat ++ leBytes 8 v.2.toNat)
        (Murmur3.x64_128WithLength seed data.length
          (asSeen h.big 8 (2 * (data.length % 2 ^ 36 / 16)) (data.take (data.length % 2 ^ 36)))) := by
    intro seed addr data c hu
    obtain ⟨h1, h2⟩ := C63_murmur128_exact h (M128.new seed) addr data _ rfl
    by_cases hb : 2 ^ 31 ≤ data.length % 2 ^ 36 ∨ (16 ≤ data.length % 2 ^ 36 ∧ addr % 8 ≠ 0)
    · rw [h1 hb] at hu
      cases hu
    · obtain ⟨c', v, e, -, rfl, d⟩ := h2 (by omega) (by omega)
      rw [hu] at e
      cases e
      exact d
  have f := facts seed addr data c hu
  have f' := facts seed' addr' data' c' hu'
  have inj : ∀ x y : Word64 × Word64, (if h.big then beBytes 8 x.1.toNat ++ beBytes 8 x.2.toNat else leBytes 8 x.1.toNat ++ leBytes 8 x.2.toNat) =
      (if h.big then beBytes 8 y.1.toNat ++ beBytes 8 y.2.toNat else leBytes 8 y.1.toNat ++ leBytes 8 y.2.toNat) → x = y := by
    intro x y e
    cases hb : h.big with
    | false =>
      rw [hb, if_neg Bool.false_ne_true, if_neg Bool.false_ne_true] at e
      obtain ⟨e1, e2⟩ := List.append_inj e (by rw [leBytes_length, leBytes_length])
      exact Prod.ext (word_bytes_inj (by decide) _ _ e1) (word_bytes_inj (by decide) _ _ e2)
    | true =>
      rw [hb, if_pos rfl, if_pos rfl] at e
      obtain ⟨e1, e2⟩ := List.append_inj e (by rw [beBytes, beBytes, List.length_reverse, List.length_reverse, leBytes_length, leBytes_length])
      exact Prod.ext (word_bytes_inj (by decide) _ _ (List.reverse_inj.1 e1)) (word_bytes_inj (by decide) _ _ (List.reverse_inj.1 e2))
  refine ⟨fun p hs hm => ⟨fun e => ?_, fun e => ?_⟩, fun hd => ⟨fun e => ?_, fun e => ?_⟩⟩
  · rw [f, f', ← hs, ← hm.1] at e
    have e2 := inj _ _ e
    have hle := Nat.mod_le data.length (2 ^ 36)
    have hb : 8 * (2 * (data.length % 2 ^ 36 / 16)) ≤ (data.take (data.length % 2 ^ 36)).length := by
      rw [List.length_take]; omega
    have hs' := SameBut.asSeen (k := 8) (t := 2) h.big (2 * (data.length % 2 ^ 36 / 16)) (by decide) hb (hm.take (data.length % 2 ^ 36))
    refine asSeen_inj h.big 8 _ _ _ (by decide) hb (by rw [List.length_take, ← hm.1]; omega) ?_
    exact x64_128_inj seed _ _ p hs' (x64WithLength_eq seed seed _ _ _ hs'.1 e2)
  · rw [f, f', ← hs, ← hm.1, e]
  · rw [f, f', ← hd] at e
    exact x64_128_seed seed seed' _ (x64WithLength_eq seed seed' _ _ _ rfl (inj _ _ e))
  · rw [f, f', ← hd, e]

/-- **C85**, 128 bits on a 32-bit target: for every host, and wherever the updates are defined, without exception. -/
theorem C85_murmur128_x86_exact (h : Host) (addr addr' : Nat) (data data' : List Byte) (hd : data.length < 2 ^ 32)
    (seed seed' : Word) (c c' : M128x86)
    (hu : (M128x86.new seed).update h addr data = .ok c) (hu' : (M128x86.new seed').update h addr' data' = .ok c') :
    (∀ p, seed = seed' → SameBut 16 p data data' → ((c.digest h).1 = (c'.digest h).1 ↔ data = data')) ∧
    (data = data' → ((c.digest h).1 = (c'.digest h).1 ↔ seed = seed')) := by
  have facts : ∀ (seed : Word) addr (data : List Byte) c, data.length < 2 ^ 32 → (M128x86.new seed).update h addr data = .ok c →
      (c.digest h).1 = (fun v : Murmur3.Words => [v.w0, v.w1, v.w2, v.w3].flatMap fun w =>
        if h.big then beBytes 4 w.toNat else leBytes 4 w.toNat)
        (Murmur3.x86_128 seed (asSeen h.big 4 (4 * (data.length / 16)) data)) := by
    intro seed addr data c hd hu
    obtain ⟨h1, h2⟩ := C84_murmur128_exact h (M128x86.new seed) addr data hd
    by_cases hb : 2 ^ 31 ≤ data.length ∨ (16 ≤ data.length ∧ addr % 4 ≠ 0)
    · rw [h1 hb] at hu
      cases hu
    · obtain ⟨c', v, e, -, rfl, d⟩ := h2 (by omega) (by omega)
      rw [hu] at e
      cases e
      exact d
  have f := facts seed addr data c hd hu
  have inj1 : ∀ x y : Word, (if h.big then beBytes 4 x.toNat else leBytes 4 x.toNat) =
      (if h.big then beBytes 4 y.toNat else leBytes 4 y.toNat) → x = y := by
    intro x y e
    cases hb : h.big with
    | false =>
      rw [hb, if_neg Bool.false_ne_true, if_neg Bool.false_ne_true] at e
      exact word_bytes_inj (by decide) _ _ e
    | true =>
      rw [hb, if_pos rfl, if_pos rfl] at e
      exact word_bytes_inj (by decide) _ _ (List.reverse_inj.1 e)
  have len : ∀ x : Word, (if h.big then beBytes 4 x.toNat else leBytes 4 x.toNat).length = 4 := by
    intro x
    cases h.big <;> simp [beBytes, leBytes_length]
  have inj : ∀ x y : Murmur3.Words, ([x.w0, x.w1, x.w2, x.w3].flatMap fun w => if h.big then beBytes 4 w.toNat else leBytes 4 w.toNat) =
      ([y.w0, y.w1, y.w2, y.w3].flatMap fun w => if h.big then beBytes 4 w.toNat else leBytes 4 w.toNat) → x = y := by
    intro x y e
    simp only [List.flatMap_cons, List.flatMap_nil, List.append_nil] at e
    obtain ⟨e0, e⟩ := List.append_inj e (by rw [len, len])
    obtain ⟨e1, e⟩ := List.append_inj e (by rw [len, len])
    obtain ⟨e2, e3⟩ := List.append_inj e (by rw [len, len])
    cases x
    cases y
    simp only at e0 e1 e2 e3
    rw [inj1 _ _ e0, inj1 _ _ e1, inj1 _ _ e2, inj1 _ _ e3]
  refine ⟨fun p hs hm => ⟨fun e => ?_, fun e => ?_⟩, fun hdd => ⟨fun e => ?_, fun e => ?_⟩⟩
  · have f' := facts seed' addr' data' c' (by rw [← hm.1]; exact hd) hu'
    rw [f, f', ← hs, ← hm.1] at e
    have e2 := inj _ _ e
    have hb : 4 * (4 * (data.length / 16)) ≤ data.length := by omega
    have hs' := SameBut.asSeen (k := 4) (t := 4) h.big (4 * (data.length / 16)) (by decide) hb hm
    refine asSeen_inj h.big 4 _ _ _ (by decide) hb (by rw [← hm.1]; omega) ?_
    exact x86_128_inj seed _ _ p hs' e2
  · have f' := facts seed' addr' data' c' (by rw [← hm.1]; exact hd) hu'
    rw [f, f', ← hs, e]
  · have f' := facts seed' addr' data' c' (by rw [← hdd]; exact hd) hu'
    rw [f, f', ← hdd] at e
    exact x86_128_seed seed seed' _ (inj _ _ e)
  · have f' := facts seed' addr' data' c' (by rw [← hdd]; exact hd) hu'
    rw [f, f', ← hdd, e]

/-- Also on a big endian machine, for inputs of 9 bytes that differ in the second block. -/
example : hash32 bigEndian 0 8 (Md5.bytesOf [1, 2, 3, 4, 5, 6, 7, 8, 9]) ≠ .ub ∧
    hash32 bigEndian 0 8 (Md5.bytesOf [1, 2, 3, 4, 5, 6, 7, 8, 9]) ≠
      hash32 bigEndian 0 8 (Md5.bytesOf [1, 2, 3, 4, 9, 6, 7, 0, 9]) := by decide +kernel

end Solace.Hash.Murmur
