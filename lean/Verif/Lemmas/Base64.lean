import Verif.Model.Base64
import Verif.Spec.Rfc4648
import Verif.Lemmas.Chunks
namespace Solace.Base64
open ByteWriter

/-- The alphabet of the encoder chosen by `url`. -/
def alphabetOf (url : Bool) : List Nat := if url then kBase64UrlAlphabet else kBase64Alphabet
/-- The table of the decoder chosen by `url`. -/
def tableOf (url : Bool) : List Nat := if url then prUrl2six else pr2six

theorem idx0_eq (a : Byte) : idx0 a = a.toNat / 4 := by
  have := a.isLt
  rw [idx0, Nat.and_two_pow_sub_one_eq_mod _ 6, Nat.shiftRight_eq_div_pow]; omega

theorem low2 (a : Byte) : (a.toNat &&& 0x3) <<< 4 = a.toNat % 4 * 16 := by
  rw [Nat.and_two_pow_sub_one_eq_mod _ 2, Nat.shiftLeft_eq]

theorem low4 (a : Byte) : (a.toNat &&& 0xF) <<< 2 = a.toNat % 16 * 4 := by
  rw [Nat.and_two_pow_sub_one_eq_mod _ 4, Nat.shiftLeft_eq]

theorem idx1_eq (a b : Byte) : idx1 a b = a.toNat % 4 * 16 + b.toNat / 16 := by
  have := b.isLt
  have h : (b.toNat &&& 0xF0) >>> 4 = b.toNat / 16 := by
    rw [Nat.shiftRight_and_distrib, show (0xF0 : Nat) >>> 4 = 2 ^ 4 - 1 by decide, Nat.and_two_pow_sub_one_eq_mod,
      Nat.shiftRight_eq_div_pow]
    omega
  rw [idx1, h, ← Nat.shiftLeft_add_eq_or_of_lt (by omega), low2]

theorem idx2_eq (b c : Byte) : idx2 b c = b.toNat % 16 * 4 + c.toNat / 64 := by
  have := c.isLt
  have h : (c.toNat &&& 0xC0) >>> 6 = c.toNat / 64 := by
    rw [Nat.shiftRight_and_distrib, show (0xC0 : Nat) >>> 6 = 2 ^ 2 - 1 by decide, Nat.and_two_pow_sub_one_eq_mod,
      Nat.shiftRight_eq_div_pow]
    omega
  rw [idx2, h, ← Nat.shiftLeft_add_eq_or_of_lt (by omega), low4]

theorem idx3_eq (c : Byte) : idx3 c = c.toNat % 64 := by
  rw [idx3, Nat.and_two_pow_sub_one_eq_mod _ 6]

/-- Every index used by the encoder is inside the 64 characters of the alphabet. -/
theorem enc_index_lt (a b : Byte) : idx0 a < 64 ∧ idx1 a b < 64 ∧ idx2 a b < 64 ∧ idx3 a < 64 ∧
    (a.toNat &&& 0x3) <<< 4 < 64 ∧ (a.toNat &&& 0xF) <<< 2 < 64 := by
  have := a.isLt
  have := b.isLt
  rw [idx0_eq, idx1_eq, idx2_eq, idx3_eq, low2, low4]; omega

theorem alpha_eq (url : Bool) (n : Nat) (h : n < 64) : alpha (alphabetOf url) n = Rfc4648.char url n := by
  have : ∀ (url : Bool) (n : Fin 64), alpha (alphabetOf url) n = Rfc4648.char url n := by decide +kernel
  exact this url ⟨n, h⟩

theorem look_char (url : Bool) (n : Nat) (h : n < 64) : look (tableOf url) (Rfc4648.char url n) = n := by
  have : ∀ (url : Bool) (n : Fin 64), look (tableOf url) (Rfc4648.char url n) = n := by decide +kernel
  exact this url ⟨n, h⟩

theorem look_pad (url : Bool) : look (tableOf url) pad = 64 := by
  revert url; decide +kernel

/-- Pieces written by the encoder. -/
def pieces (url : Bool) : List Byte → List (List Byte)
  | [] => []
  | [a] => [[Rfc4648.char url (a.toNat / 4), Rfc4648.char url (a.toNat % 4 * 16), pad, pad]]
  | [a, b] => [[Rfc4648.char url (a.toNat / 4), Rfc4648.char url (a.toNat % 4 * 16 + b.toNat / 16),
      Rfc4648.char url (b.toNat % 16 * 4), pad]]
  | a :: b :: c :: rest => [Rfc4648.char url (a.toNat / 4), Rfc4648.char url (a.toNat % 4 * 16 + b.toNat / 16),
      Rfc4648.char url (b.toNat % 16 * 4 + c.toNat / 64), Rfc4648.char url (c.toNat % 64)] :: pieces url rest

theorem encode_eq (url : Bool) (src : List Byte) (dest : ByteWriter) :
    encode (alphabetOf url) dest src = dest.writeChunks (pieces url src) := by
  have hw : ∀ (d : ByteWriter) (l : List Byte), d.writeChunks [l] = d.write l := by
    intro d l
    rw [writeChunks]
    split <;> simp [writeChunks, *]
  induction src using pieces.induct generalizing dest with
  | case1 => rfl
  | case2 a =>
    have := enc_index_lt a a
    rw [encode, pieces, hw, alpha_eq url _ this.1, alpha_eq url _ this.2.2.2.2.1, idx0_eq, low2]
  | case3 a b =>
    have := enc_index_lt a b
    have := enc_index_lt b b
    rw [encode, pieces, hw, alpha_eq url _ (by omega), alpha_eq url _ (by omega), alpha_eq url _ (by omega), idx0_eq,
      low4, idx1_eq]
  | case4 a b c rest ih =>
    have := enc_index_lt a b
    have := enc_index_lt b c
    have := enc_index_lt c c
    rw [encode, pieces, alpha_eq url _ (by omega), alpha_eq url _ (by omega), alpha_eq url _ (by omega),
      alpha_eq url _ (by omega), idx0_eq, idx1_eq, idx2_eq, idx3_eq, writeChunks]
    split
    · rename_i h; rw [h]; exact ih _
    · rename_i h; rw [h]

theorem bit_toNat (a : Byte) (i : Nat) : (a.getLsbD i).toNat = a.toNat / 2 ^ i % 2 := by
  rw [BitVec.getLsbD, Nat.testBit_eq_decide_div_mod_eq]
  have := Nat.mod_two_eq_zero_or_one (a.toNat / 2 ^ i)
  rcases this with h | h <;> simp [h]

theorem pieces_text (url : Bool) (src : List Byte) : (pieces url src).flatten = Rfc4648.text url src := by
  induction src using pieces.induct with
  | case1 => simp [pieces, Rfc4648.text, Rfc4648.sextets]
  | case2 a =>
    have := a.isLt
    have hs : Rfc4648.sextets ([a].flatMap Rfc4648.bits) = [a.toNat / 4, a.toNat % 4 * 16] := by
      simp only [Rfc4648.bits, List.flatMap_cons, List.flatMap_nil, List.cons_append, List.nil_append,
        Rfc4648.sextets, Rfc4648.value, List.take, List.drop, List.length, List.foldl, bit_toNat, List.replicate,
        Nat.reduceSub, Nat.reduceAdd, Bool.toNat_false]
      congr 1
      · omega
      · congr 1
        omega
    rw [Rfc4648.text, hs]
    simp [pieces, pad, List.replicate]
  | case3 a b =>
    have := a.isLt
    have := b.isLt
    have hs : Rfc4648.sextets ([a, b].flatMap Rfc4648.bits) =
        [a.toNat / 4, a.toNat % 4 * 16 + b.toNat / 16, b.toNat % 16 * 4] := by
      simp only [Rfc4648.bits, List.flatMap_cons, List.flatMap_nil, List.cons_append, List.nil_append,
        Rfc4648.sextets, Rfc4648.value, List.take, List.drop, List.length, List.foldl, bit_toNat, List.replicate,
        Nat.reduceSub, Nat.reduceAdd, Bool.toNat_false]
      congr 1
      · omega
      · congr 1
        · omega
        · congr 1
          omega
    rw [Rfc4648.text, hs]
    simp [pieces, pad]
  | case4 a b c rest ih =>
    have := a.isLt
    have := b.isLt
    have := c.isLt
    have hs : Rfc4648.sextets ((a :: b :: c :: rest).flatMap Rfc4648.bits) =
        a.toNat / 4 :: (a.toNat % 4 * 16 + b.toNat / 16) :: (b.toNat % 16 * 4 + c.toNat / 64) :: (c.toNat % 64) ::
          Rfc4648.sextets (rest.flatMap Rfc4648.bits) := by
      simp only [Rfc4648.bits, List.flatMap_cons, List.cons_append, List.nil_append, Rfc4648.sextets, Rfc4648.value,
        List.take, List.drop, List.length, List.foldl, bit_toNat,
        show ∀ n, 6 - (n + 1 + 1 + 1 + 1 + 1 + 1) = 0 by omega, List.replicate]
      congr 1
      · omega
      · congr 1
        · omega
        · congr 1
          · omega
          · congr 1
            omega
    rw [pieces, List.flatten_cons, ih, Rfc4648.text, Rfc4648.text, hs]
    simp only [List.map, List.length, List.cons_append, List.nil_append, List.length_map]
    congr 7
    omega


theorem byte0_char (url : Bool) (i j : Nat) (hi : i < 64) (hj : j < 64) :
    byte0 (tableOf url) (Rfc4648.char url i) (Rfc4648.char url j) = BitVec.ofNat 8 (i * 4 + j / 16) := by
  rw [byte0, look_char url i hi, look_char url j hj, Nat.shiftRight_eq_div_pow,
    ← Nat.shiftLeft_add_eq_or_of_lt (by omega), Nat.shiftLeft_eq]

theorem byte1_char (url : Bool) (i j : Nat) (hi : i < 64) (hj : j < 64) :
    byte1 (tableOf url) (Rfc4648.char url i) (Rfc4648.char url j) = BitVec.ofNat 8 (i * 16 + j / 4) := by
  rw [byte1, look_char url i hi, look_char url j hj, Nat.shiftRight_eq_div_pow,
    ← Nat.shiftLeft_add_eq_or_of_lt (by omega), Nat.shiftLeft_eq]

theorem byte2_char (url : Bool) (i j : Nat) (hi : i < 64) (hj : j < 64) :
    byte2 (tableOf url) (Rfc4648.char url i) (Rfc4648.char url j) = BitVec.ofNat 8 (i * 64 + j) := by
  rw [byte2, look_char url i hi, look_char url j hj, ← Nat.shiftLeft_add_eq_or_of_lt (by omega), Nat.shiftLeft_eq]

theorem ofNat_eq (n : Nat) (a : Byte) (h : n % 256 = a.toNat) : BitVec.ofNat 8 n = a := by
  apply BitVec.eq_of_toNat_eq
  rw [BitVec.toNat_ofNat]; exact h

/-- Number of alphabet characters in the encoding. -/
def cnt : List Byte → Nat
  | [] => 0
  | [_] => 2
  | [_, _] => 3
  | _ :: _ :: _ :: rest => cnt rest + 4

theorem countDecodable_char (url : Bool) (n : Nat) (h : n < 64) (mem : List Byte) :
    countDecodable (tableOf url) (Rfc4648.char url n :: mem) = (countDecodable (tableOf url) mem).map (· + 1) := by
  rw [countDecodable, look_char url n h, if_pos (by omega)]

theorem countDecodable_pad (url : Bool) (mem : List Byte) : countDecodable (tableOf url) (pad :: mem) = some 0 := by
  rw [countDecodable, look_pad, if_neg (by omega)]

theorem countDecodable_padded (url : Bool) (src after : List Byte) (h : src.length % 3 ≠ 0) :
    countDecodable (tableOf url) ((pieces url src).flatten ++ after) = some (cnt src) := by
  induction src using pieces.induct with
  | case1 => simp at h
  | case2 a =>
    have := a.isLt
    simp only [pieces, List.flatten_cons, List.flatten_nil, List.append_nil, List.cons_append, cnt]
    rw [countDecodable_char _ _ (by omega), countDecodable_char _ _ (by omega), countDecodable_pad]
    rfl
  | case3 a b =>
    have := a.isLt
    have := b.isLt
    simp only [pieces, List.flatten_cons, List.flatten_nil, List.append_nil, List.cons_append, cnt]
    rw [countDecodable_char _ _ (by omega), countDecodable_char _ _ (by omega), countDecodable_char _ _ (by omega),
      countDecodable_pad]
    rfl
  | case4 a b c rest ih =>
    have := a.isLt
    have := b.isLt
    have := c.isLt
    simp only [pieces, List.flatten_cons, List.cons_append, List.nil_append, cnt]
    rw [countDecodable_char _ _ (by omega), countDecodable_char _ _ (by omega), countDecodable_char _ _ (by omega),
      countDecodable_char _ _ (by omega), ih (by simp at h; omega)]
    rfl

theorem countDecodable_unpadded (url : Bool) (src after : List Byte) (h : src.length % 3 = 0) :
    countDecodable (tableOf url) ((pieces url src).flatten ++ after) =
      (countDecodable (tableOf url) after).map (· + cnt src) := by
  induction src using pieces.induct with
  | case1 => simp [pieces, cnt]
  | case2 a => simp at h
  | case3 a b => simp at h
  | case4 a b c rest ih =>
    have := a.isLt
    have := b.isLt
    have := c.isLt
    simp only [pieces, List.flatten_cons, List.cons_append, List.nil_append, cnt]
    rw [countDecodable_char _ _ (by omega), countDecodable_char _ _ (by omega), countDecodable_char _ _ (by omega),
      countDecodable_char _ _ (by omega), ih (by simp at h; omega)]
    simp [Function.comp_def, Nat.add_assoc]

/-- Pieces written by the decoder for the encoding of `src`. -/
def decPieces : List Byte → List (List Byte)
  | [] => []
  | [a] => [[a]]
  | [a, b] => [[a], [b]]
  | [a, b, c] => [[a], [b], [c]]
  | a :: b :: c :: d :: rest => [a, b, c] :: decPieces (d :: rest)

theorem decPieces_flatten (src : List Byte) : (decPieces src).flatten = src := by
  induction src using decPieces.induct with
  | case5 a b c d rest ih => rw [decPieces, List.flatten_cons, ih]; rfl
  | _ => rfl

theorem cnt_pos (d : Byte) (rest : List Byte) : 0 < cnt (d :: rest) := by
  match rest with
  | [] => simp [cnt]
  | [_] => simp [cnt]
  | _ :: _ :: _ => simp [cnt]

theorem decodeLoop_small (t : List Nat) (dest : ByteWriter) (n : Nat) (mem : List Byte) (h : n ≤ 4) :
    decodeLoop t dest n mem = decodeTail t dest n mem := by
  unfold decodeLoop
  rw [if_neg (by omega)]

theorem decodeLoop_big (t : List Nat) (dest : ByteWriter) (n : Nat) (x y z w : Byte) (rest : List Byte) (h : 4 < n) :
    decodeLoop t dest n (x :: y :: z :: w :: rest) =
      match dest.write [byte0 t x y, byte1 t y z, byte2 t z w] with
      | (dest', .ok _) => decodeLoop t dest' (n - 4) rest
      | (dest', .error e) => .ok (dest', .error e) := by
  rw [decodeLoop, if_pos h]
  rcases dest.write [byte0 t x y, byte1 t y z, byte2 t z w] with ⟨d, _ | _⟩ <;> rfl

theorem writeThen_eq (dest : ByteWriter) (b : Byte) (k : ByteWriter → Call) (ds : List (List Byte))
    (h : ∀ d, k d = d.writeChunks ds) : writeThen dest b k = dest.writeChunks ([b] :: ds) := by
  rw [writeThen, writeChunks]
  split
  · rename_i hw; rw [hw]; exact h _
  · rename_i hw; rw [hw]

theorem decodeLoop_pieces (url : Bool) (src after : List Byte) (dest : ByteWriter) :
    decodeLoop (tableOf url) dest (cnt src) ((pieces url src).flatten ++ after) =
      .ok (dest.writeChunks (decPieces src)) := by
  induction src using decPieces.induct generalizing dest with
  | case1 =>
    rw [decodeLoop_small _ _ _ _ (by simp [cnt])]
    simp [cnt, decodeTail, decPieces, writeChunks]
  | case2 a =>
    have := a.isLt
    rw [decodeLoop_small _ _ _ _ (by simp [cnt])]
    simp only [pieces, List.flatten_cons, List.flatten_nil, List.append_nil, List.cons_append, cnt, decodeTail,
      decPieces]
    rw [byte0_char url _ _ (by omega) (by omega), ofNat_eq _ a (by omega), writeThen_eq dest a _ []]
    intro d; rfl
  | case3 a b =>
    have := a.isLt
    have := b.isLt
    rw [decodeLoop_small _ _ _ _ (by simp [cnt])]
    simp only [pieces, List.flatten_cons, List.flatten_nil, List.append_nil, List.cons_append, cnt, decodeTail,
      decPieces]
    rw [byte0_char url _ _ (by omega) (by omega), byte1_char url _ _ (by omega) (by omega), ofNat_eq _ a (by omega),
      ofNat_eq _ b (by omega), writeThen_eq dest a _ [[b]]]
    intro d
    rw [writeThen_eq d b _ []]
    intro d; rfl
  | case4 a b c =>
    have := a.isLt
    have := b.isLt
    have := c.isLt
    rw [decodeLoop_small _ _ _ _ (by simp [cnt])]
    simp only [pieces, List.flatten_cons, List.flatten_nil, List.append_nil, List.cons_append, cnt, decodeTail,
      decPieces]
    rw [byte0_char url _ _ (by omega) (by omega), byte1_char url _ _ (by omega) (by omega),
      byte2_char url _ _ (by omega) (by omega), ofNat_eq _ a (by omega),
      ofNat_eq _ b (by omega), ofNat_eq _ c (by omega), writeThen_eq dest a _ [[b], [c]]]
    intro d
    rw [writeThen_eq d b _ [[c]]]
    intro d
    rw [writeThen_eq d c _ []]
    intro d; rfl
  | case5 a b c e rest ih =>
    have := a.isLt
    have := b.isLt
    have := c.isLt
    have hp := cnt_pos e rest
    simp only [pieces, List.flatten_cons, List.cons_append, List.nil_append]
    rw [decodeLoop_big _ _ _ _ _ _ _ _ (by simp only [cnt]; omega)]
    rw [byte0_char url _ _ (by omega) (by omega), byte1_char url _ _ (by omega) (by omega),
      byte2_char url _ _ (by omega) (by omega), ofNat_eq _ a (by omega),
      ofNat_eq _ b (by omega), ofNat_eq _ c (by omega), decPieces, writeChunks, cnt]
    split
    · rename_i hw; rw [hw]
      simp only [Nat.add_sub_cancel]
      exact ih _
    · rename_i hw; rw [hw]

theorem pieces_length (url : Bool) (src : List Byte) :
    (pieces url src).flatten.length = 4 * ((src.length + 2) / 3) := by
  induction src using pieces.induct with
  | case4 a b c rest ih =>
    rw [pieces, List.flatten_cons, List.length_append, ih]
    simp; omega
  | _ => simp [pieces]

theorem pieces_ne_nil (url : Bool) (src : List Byte) (h : src ≠ []) : (pieces url src).flatten ≠ [] := by
  intro hc
  have := congrArg List.length hc
  rw [pieces_length] at this
  have := List.length_pos_iff.mpr h
  simp at *; omega


/-- Only the counted bytes are read after counting. -/
theorem decodeLoop_append (t : List Nat) (n : Nat) (mem after : List Byte) (dest : ByteWriter) (h : n ≤ mem.length) :
    decodeLoop t dest n (mem ++ after) = decodeLoop t dest n mem := by
  induction n using Nat.strongRecOn generalizing mem dest with
  | _ n ih =>
    by_cases hn : n ≤ 4
    · rw [decodeLoop_small _ _ _ _ hn, decodeLoop_small _ _ _ _ hn]
      match n, mem, h, hn with
      | 0, _, _, _ => simp [decodeTail]
      | 1, _, _, _ => simp [decodeTail]
      | 2, x :: y :: rest, _, _ => simp [decodeTail]
      | 3, x :: y :: z :: rest, _, _ => simp [decodeTail]
      | 4, x :: y :: z :: w :: rest, _, _ => simp [decodeTail]
    · match mem, h with
      | x :: y :: z :: w :: rest, h =>
        simp only [List.cons_append]
        rw [decodeLoop_big _ _ _ _ _ _ _ _ (by omega), decodeLoop_big _ _ _ _ _ _ _ _ (by omega)]
        rcases dest.write [byte0 t x y, byte1 t y z, byte2 t z w] with ⟨d, _ | _⟩
        · rfl
        · exact ih (n - 4) (by omega) rest d (by simp at h; omega)
      | [], h => simp at h; omega
      | [_], h => simp at h; omega
      | [_, _], h => simp at h; omega
      | [_, _, _], h => simp at h; omega

/-- Decoding the counted bytes has no undefined behaviour. -/
theorem decodeLoop_defined (t : List Nat) (n : Nat) (mem : List Byte) (dest : ByteWriter) (h : n ≤ mem.length) :
    ∃ c, decodeLoop t dest n mem = .ok c := by
  induction n using Nat.strongRecOn generalizing mem dest with
  | _ n ih =>
    by_cases hn : n ≤ 4
    · rw [decodeLoop_small _ _ _ _ hn]
      match n, mem, h, hn with
      | 0, _, _, _ => simp [decodeTail]
      | 1, _, _, _ => simp [decodeTail]
      | 2, x :: y :: rest, _, _ => simp [decodeTail]
      | 3, x :: y :: z :: rest, _, _ => simp [decodeTail]
      | 4, x :: y :: z :: w :: rest, _, _ => simp [decodeTail]
    · match mem, h with
      | x :: y :: z :: w :: rest, h =>
        rw [decodeLoop_big _ _ _ _ _ _ _ _ (by omega)]
        rcases dest.write [byte0 t x y, byte1 t y z, byte2 t z w] with ⟨d, _ | _⟩
        · exact ⟨_, rfl⟩
        · exact ih (n - 4) (by omega) rest d (by simp at h; omega)
      | [], h => simp at h; omega
      | [_], h => simp at h; omega
      | [_, _], h => simp at h; omega
      | [_, _, _], h => simp at h; omega

theorem countDecodable_stop (t : List Nat) (src : List Byte) (h : ∃ c ∈ src, 63 < look t c) :
    ∃ n, n < src.length ∧ ∀ after, countDecodable t (src ++ after) = some n := by
  induction src with
  | nil => simp at h
  | cons b src ih =>
    by_cases hb : look t b ≤ 63
    · have : ∃ c ∈ src, 63 < look t c := by
        obtain ⟨c, hc, hl⟩ := h
        rcases List.mem_cons.mp hc with rfl | hc
        · omega
        · exact ⟨c, hc, hl⟩
      obtain ⟨n, hn, hall⟩ := ih this
      refine ⟨n + 1, by simp; omega, ?_⟩
      intro after
      rw [List.cons_append, countDecodable, if_pos hb, hall]
      rfl
    · refine ⟨0, by simp, ?_⟩
      intro after
      rw [List.cons_append, countDecodable, if_neg hb]

theorem countDecodable_none (t : List Nat) (src : List Byte) (h : ∀ c ∈ src, look t c ≤ 63) :
    countDecodable t src = none := by
  induction src with
  | nil => rfl
  | cons b src ih =>
    rw [countDecodable, if_pos (h b (by simp)), ih (fun c hc => h c (by simp [hc]))]
    rfl

theorem leading_char (url : Bool) (n : Nat) (h : n < 64) (hu : url = false ∨ n < 62) (mem : List Byte) :
    leading (Rfc4648.char url n :: mem) = leading mem + 1 := by
  have : ∀ n : Fin 64, n.val < 62 → look pr2six (Rfc4648.char true n) ≤ 63 := by decide +kernel
  rw [leading, if_pos]
  rcases url with _ | _
  · have := look_char false n h
    simp only [tableOf] at this
    simp at this
    omega
  · exact this ⟨n, h⟩ (by simpa using hu)

theorem leading_pad (mem : List Byte) : leading (pad :: mem) = 0 := by
  have := look_pad false
  simp [tableOf] at this
  rw [leading, if_neg (by omega)]

end Solace.Base64

namespace Solace.Base64
open ByteWriter

theorem char_url_62 (n : Nat) (h : n < 64) :
    (Rfc4648.char true n = 45 ∨ Rfc4648.char true n = 95) ↔ 62 ≤ n := by
  have : ∀ n : Fin 64, (Rfc4648.char true n = 45 ∨ Rfc4648.char true n = 95) ↔ 62 ≤ n.val := by decide +kernel
  exact this ⟨n, h⟩

theorem leading_url_stop (n : Nat) (h : n < 64) (h' : 62 ≤ n) (mem : List Byte) :
    leading (Rfc4648.char true n :: mem) = 0 := by
  have : ∀ n : Fin 64, 62 ≤ n.val → ¬ look pr2six (Rfc4648.char true n) ≤ 63 := by decide +kernel
  rw [leading, if_neg (this ⟨n, h⟩ h')]

theorem leading_pieces (url : Bool) (src : List Byte)
    (h : url = true → ∀ c ∈ (pieces url src).flatten, c ≠ 45 ∧ c ≠ 95) :
    leading (pieces url src).flatten = cnt src := by
  have key : ∀ n, n < 64 → Rfc4648.char url n ∈ (pieces url src).flatten → (url = false ∨ n < 62) := by
    intro n hn hmem
    rcases url with _ | _
    · exact .inl rfl
    · right
      have h1 := h rfl _ hmem
      have h2 := char_url_62 n hn
      apply Nat.lt_of_not_le
      intro hc
      rcases h2.mpr hc with h3 | h3
      · exact h1.1 h3
      · exact h1.2 h3
  induction src using pieces.induct with
  | case1 => simp [pieces, leading, cnt]
  | case2 a =>
    have := a.isLt
    simp only [pieces, List.flatten_cons, List.flatten_nil, List.append_nil, cnt] at key ⊢
    rw [leading_char url _ (by omega) (key _ (by omega) (by simp)), leading_char url _ (by omega) (key _ (by omega) (by simp)),
      leading_pad]
  | case3 a b =>
    have := a.isLt
    have := b.isLt
    simp only [pieces, List.flatten_cons, List.flatten_nil, List.append_nil, cnt] at key ⊢
    rw [leading_char url _ (by omega) (key _ (by omega) (by simp)), leading_char url _ (by omega) (key _ (by omega) (by simp)),
      leading_char url _ (by omega) (key _ (by omega) (by simp)), leading_pad]
  | case4 a b c rest ih =>
    have := a.isLt
    have := b.isLt
    have := c.isLt
    simp only [pieces, List.flatten_cons, List.cons_append, List.nil_append, cnt] at key h ⊢
    rw [leading_char url _ (by omega) (key _ (by omega) (by simp)), leading_char url _ (by omega) (key _ (by omega) (by simp)),
      leading_char url _ (by omega) (key _ (by omega) (by simp)), leading_char url _ (by omega) (key _ (by omega) (by simp)),
      ih (fun hu c hc => h hu c (by simp [hc])) (fun n hn hm => key n hn (by simp [hm]))]

theorem pad_not_url : ¬ (pad = 45 ∨ pad = 95) := by decide

theorem leading_url_lt (src : List Byte) (h : ∃ c ∈ (pieces true src).flatten, c = 45 ∨ c = 95) :
    leading (pieces true src).flatten < cnt src := by
  have step : ∀ (n m : Nat) (mem : List Byte), n < 64 → 0 < m →
      ((Rfc4648.char true n ≠ 45 ∧ Rfc4648.char true n ≠ 95) → leading mem < m - 1) →
      leading (Rfc4648.char true n :: mem) < m := by
    intro n m mem hn hm hrest
    by_cases h62 : 62 ≤ n
    · rw [leading_url_stop n hn h62]; exact hm
    · rw [leading_char true n hn (.inr (by omega))]
      have := hrest (by
        have := char_url_62 n hn
        constructor
        · exact fun hc => h62 (this.mp (.inl hc))
        · exact fun hc => h62 (this.mp (.inr hc)))
      omega
  induction src using pieces.induct with
  | case1 => simp [pieces] at h
  | case2 a =>
    have := a.isLt
    simp only [pieces, List.flatten_cons, List.flatten_nil, List.append_nil, cnt, List.mem_cons, List.not_mem_nil,
      or_false, exists_eq_or_imp, exists_eq_left] at h ⊢
    apply step _ _ _ (by omega) (by omega)
    intro h1
    apply step _ _ _ (by omega) (by omega)
    intro h2
    have := pad_not_url
    simp_all
  | case3 a b =>
    have := a.isLt
    have := b.isLt
    simp only [pieces, List.flatten_cons, List.flatten_nil, List.append_nil, cnt, List.mem_cons, List.not_mem_nil,
      or_false, exists_eq_or_imp, exists_eq_left] at h ⊢
    apply step _ _ _ (by omega) (by omega)
    intro h1
    apply step _ _ _ (by omega) (by omega)
    intro h2
    apply step _ _ _ (by omega) (by omega)
    intro h3
    have := pad_not_url
    simp_all
  | case4 a b c rest ih =>
    have := a.isLt
    have := b.isLt
    have := c.isLt
    simp only [pieces, List.flatten_cons, List.cons_append, List.nil_append, cnt, List.mem_cons,
      exists_eq_or_imp] at h ⊢
    apply step _ _ _ (by omega) (by omega)
    intro h1
    apply step _ _ _ (by omega) (by omega)
    intro h2
    apply step _ _ _ (by omega) (by omega)
    intro h3
    apply step _ _ _ (by omega) (by omega)
    intro h4
    have := ih (by
      rcases h with h | h | h | h | h
      · simp_all
      · simp_all
      · simp_all
      · simp_all
      · exact h)
    omega

theorem cnt_bytes (src : List Byte) : cnt src * 3 / 4 = src.length ∧ ∀ k, k < cnt src → k * 3 / 4 < src.length := by
  induction src using pieces.induct with
  | case4 a b c rest ih =>
    obtain ⟨h1, h2⟩ := ih
    simp only [cnt, List.length_cons]
    refine ⟨by omega, ?_⟩
    intro k hk
    by_cases hk4 : k < 4
    · omega
    · have := h2 (k - 4) (by omega)
      omega
  | _ => simp [cnt] <;> omega

end Solace.Base64
