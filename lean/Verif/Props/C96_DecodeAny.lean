import Verif.Props.C12_C16_Base64
/-
C96: what the base64 and base16 decoders do with any text, and not only with text that an encoder made.
-/
namespace Solace.Base64
open ByteWriter

/-- What the decoder writes for a run of alphabet indices, write by write. -/
def anyPieces : List Nat → List (List Byte)
  | a :: b :: c :: d :: e :: rest =>
    [BitVec.ofNat 8 (a * 4 + b / 16), BitVec.ofNat 8 (b * 16 + c / 4), BitVec.ofNat 8 (c * 64 + d)] :: anyPieces (e :: rest)
  | [a, b, c, d] => [[BitVec.ofNat 8 (a * 4 + b / 16)], [BitVec.ofNat 8 (b * 16 + c / 4)], [BitVec.ofNat 8 (c * 64 + d)]]
  | [a, b, c] => [[BitVec.ofNat 8 (a * 4 + b / 16)], [BitVec.ofNat 8 (b * 16 + c / 4)]]
  | [a, b] => [[BitVec.ofNat 8 (a * 4 + b / 16)]]
  | _ => []

theorem decodeLoop_any (url : Bool) (ns : List Nat) (hn : ∀ n ∈ ns, n < 64) (after : List Byte) (dest : ByteWriter) :
    decodeLoop (tableOf url) dest ns.length (ns.map (Rfc4648.char url) ++ after) =
      .ok (dest.writeChunks (anyPieces ns)) := by
  induction ns using anyPieces.induct generalizing dest with
  | case1 a b c d e rest ih =>
    simp only [List.mem_cons, forall_eq_or_imp] at hn
    obtain ⟨ha, hb, hc, hd, he, hr⟩ := hn
    simp only [List.map_cons, List.cons_append]
    rw [decodeLoop_big _ _ _ _ _ _ _ _ (by simp only [List.length_cons]; omega),
      byte0_char url _ _ ha hb, byte1_char url _ _ hb hc, byte2_char url _ _ hc hd, anyPieces, writeChunks]
    split
    · rename_i hw; rw [hw]
      simp only
      exact ih (by simpa using ⟨he, hr⟩) _
    · rename_i hw; rw [hw]
  | case2 a b c d =>
    simp only [List.mem_cons, forall_eq_or_imp] at hn
    obtain ⟨ha, hb, hc, hd, _⟩ := hn
    rw [decodeLoop_small _ _ _ _ (by simp)]
    simp only [List.map_cons, List.cons_append, List.length_cons, List.length_nil, decodeTail, anyPieces]
    rw [byte0_char url _ _ ha hb, byte1_char url _ _ hb hc, byte2_char url _ _ hc hd, writeThen_eq dest _ _ [_, _]]
    intro d
    rw [writeThen_eq d _ _ [_]]
    intro d
    rw [writeThen_eq d _ _ []]
    intro d; rfl
  | case3 a b c =>
    simp only [List.mem_cons, forall_eq_or_imp] at hn
    obtain ⟨ha, hb, hc, _⟩ := hn
    rw [decodeLoop_small _ _ _ _ (by simp)]
    simp only [List.map_cons, List.cons_append, List.length_cons, List.length_nil, decodeTail, anyPieces]
    rw [byte0_char url _ _ ha hb, byte1_char url _ _ hb hc, writeThen_eq dest _ _ [_]]
    intro d
    rw [writeThen_eq d _ _ []]
    intro d; rfl
  | case4 a b =>
    simp only [List.mem_cons, forall_eq_or_imp] at hn
    obtain ⟨ha, hb, _⟩ := hn
    rw [decodeLoop_small _ _ _ _ (by simp)]
    simp only [List.map_cons, List.cons_append, List.length_cons, List.length_nil, decodeTail, anyPieces]
    rw [byte0_char url _ _ ha hb, writeThen_eq dest _ _ []]
    intro d; rfl
  | case5 ns h1 h2 h3 h4 =>
    match ns with
    | [] => rw [decodeLoop_small _ _ _ _ (by simp)]; rfl
    | [a] => rw [decodeLoop_small _ _ _ _ (by simp)]; rfl
    | [a, b] => exact absurd rfl (h4 a b)
    | [a, b, c] => exact absurd rfl (h3 a b c)
    | [a, b, c, d] => exact absurd rfl (h2 a b c d)
    | a :: b :: c :: d :: e :: rest => exact absurd rfl (h1 a b c d e rest)

theorem octet0 (i j : Nat) (hi : i < 64) (hj : j < 64) :
    Rfc4648.value [i.testBit 5, i.testBit 4, i.testBit 3, i.testBit 2, i.testBit 1, i.testBit 0, j.testBit 5, j.testBit 4]
      % 256 = (i * 4 + j / 16) % 256 := by
  have : ∀ i j : Fin 64, Rfc4648.value [i.val.testBit 5, i.val.testBit 4, i.val.testBit 3, i.val.testBit 2,
      i.val.testBit 1, i.val.testBit 0, j.val.testBit 5, j.val.testBit 4] % 256 = (i.val * 4 + j.val / 16) % 256 := by
    decide +kernel
  exact this ⟨i, hi⟩ ⟨j, hj⟩

theorem octet1 (i j : Nat) (hi : i < 64) (hj : j < 64) :
    Rfc4648.value [i.testBit 3, i.testBit 2, i.testBit 1, i.testBit 0, j.testBit 5, j.testBit 4, j.testBit 3, j.testBit 2]
      % 256 = (i * 16 + j / 4) % 256 := by
  have : ∀ i j : Fin 64, Rfc4648.value [i.val.testBit 3, i.val.testBit 2, i.val.testBit 1, i.val.testBit 0,
      j.val.testBit 5, j.val.testBit 4, j.val.testBit 3, j.val.testBit 2] % 256 = (i.val * 16 + j.val / 4) % 256 := by
    decide +kernel
  exact this ⟨i, hi⟩ ⟨j, hj⟩

theorem octet2 (i j : Nat) (hi : i < 64) (hj : j < 64) :
    Rfc4648.value [i.testBit 1, i.testBit 0, j.testBit 5, j.testBit 4, j.testBit 3, j.testBit 2, j.testBit 1, j.testBit 0]
      % 256 = (i * 64 + j) % 256 := by
  have : ∀ i j : Fin 64, Rfc4648.value [i.val.testBit 1, i.val.testBit 0, j.val.testBit 5, j.val.testBit 4,
      j.val.testBit 3, j.val.testBit 2, j.val.testBit 1, j.val.testBit 0] % 256 = (i.val * 64 + j.val) % 256 := by
    decide +kernel
  exact this ⟨i, hi⟩ ⟨j, hj⟩

theorem ofNat_congr (m n : Nat) (h : m % 256 = n % 256) : BitVec.ofNat 8 m = BitVec.ofNat 8 n := by
  apply BitVec.eq_of_toNat_eq
  rw [BitVec.toNat_ofNat, BitVec.toNat_ofNat]; exact h

theorem anyPieces_flatten (ns : List Nat) (hn : ∀ n ∈ ns, n < 64) :
    (anyPieces ns).flatten = Rfc4648.octets (ns.flatMap Rfc4648.six) := by
  induction ns using anyPieces.induct with
  | case1 a b c d e rest ih =>
    simp only [List.mem_cons, forall_eq_or_imp] at hn
    obtain ⟨ha, hb, hc, hd, he, hr⟩ := hn
    rw [anyPieces, List.flatten_cons, ih (by simpa using ⟨he, hr⟩)]
    have hx : (a :: b :: c :: d :: e :: rest).flatMap Rfc4648.six = Rfc4648.six a ++ (Rfc4648.six b ++
        (Rfc4648.six c ++ (Rfc4648.six d ++ (e :: rest).flatMap Rfc4648.six))) := rfl
    rw [hx]
    generalize (e :: rest).flatMap Rfc4648.six = x
    simp only [Rfc4648.six, List.cons_append, List.nil_append, Rfc4648.octets]
    rw [ofNat_congr _ _ (octet0 a b ha hb), ofNat_congr _ _ (octet1 b c hb hc), ofNat_congr _ _ (octet2 c d hc hd)]
  | case2 a b c d =>
    simp only [List.mem_cons, forall_eq_or_imp] at hn
    obtain ⟨ha, hb, hc, hd, _⟩ := hn
    simp only [anyPieces, List.flatten_cons, List.flatten_nil, List.flatMap_cons, List.flatMap_nil, Rfc4648.six,
      List.cons_append, List.nil_append, List.append_nil, Rfc4648.octets]
    rw [ofNat_congr _ _ (octet0 a b ha hb), ofNat_congr _ _ (octet1 b c hb hc), ofNat_congr _ _ (octet2 c d hc hd)]
  | case3 a b c =>
    simp only [List.mem_cons, forall_eq_or_imp] at hn
    obtain ⟨ha, hb, hc, _⟩ := hn
    simp only [anyPieces, List.flatten_cons, List.flatten_nil, List.flatMap_cons, List.flatMap_nil, Rfc4648.six,
      List.cons_append, List.nil_append, List.append_nil, Rfc4648.octets]
    rw [ofNat_congr _ _ (octet0 a b ha hb), ofNat_congr _ _ (octet1 b c hb hc)]
  | case4 a b =>
    simp only [List.mem_cons, forall_eq_or_imp] at hn
    obtain ⟨ha, hb, _⟩ := hn
    simp only [anyPieces, List.flatten_cons, List.flatten_nil, List.flatMap_cons, List.flatMap_nil, Rfc4648.six,
      List.cons_append, List.nil_append, List.append_nil, Rfc4648.octets]
    rw [ofNat_congr _ _ (octet0 a b ha hb)]
  | case5 ns h1 h2 h3 h4 =>
    match ns with
    | [] => rfl
    | [a] => rfl
    | [a, b] => exact absurd rfl (h4 a b)
    | [a, b, c] => exact absurd rfl (h3 a b c)
    | [a, b, c, d] => exact absurd rfl (h2 a b c d)
    | a :: b :: c :: d :: e :: rest => exact absurd rfl (h1 a b c d e rest)

theorem octets_length (bs : List Bool) : (Rfc4648.octets bs).length = bs.length / 8 := by
  induction bs using Rfc4648.octets.induct with
  | case1 a b c d e f g h rest ih => rw [Rfc4648.octets, List.length_cons, ih]; simp only [List.length_cons]; omega
  | case2 bs h =>
    match bs with
    | [] | [_] | [_, _] | [_, _, _] | [_, _, _, _] | [_, _, _, _, _] | [_, _, _, _, _, _] | [_, _, _, _, _, _, _] =>
      simp [Rfc4648.octets]
    | a :: b :: c :: d :: e :: f :: g :: i :: rest => exact absurd rfl (h a b c d e f g i rest)

theorem bits_length (ns : List Nat) : (ns.flatMap Rfc4648.six).length = 6 * ns.length := by
  induction ns with
  | nil => rfl
  | cons n ns ih => rw [List.flatMap_cons, List.length_append, ih, List.length_cons]; simp [Rfc4648.six]; omega

theorem look_alphabet (url : Bool) (b : Byte) :
    look (tableOf url) b ≤ 63 ↔ ∃ n < 64, b = Rfc4648.char url n := by
  have : ∀ (url : Bool) (x : Fin 256), look (tableOf url) (BitVec.ofFin x) ≤ 63 ↔
      ∃ n : Fin 64, BitVec.ofFin x = Rfc4648.char url n := by decide +kernel
  refine (this url b.toFin).trans ⟨fun ⟨n, h⟩ => ⟨n, n.isLt, h⟩, fun ⟨n, h, e⟩ => ⟨⟨n, h⟩, e⟩⟩

theorem countDecodable_any (url : Bool) (ns : List Nat) (hn : ∀ n ∈ ns, n < 64) (stop : Byte) (rest : List Byte)
    (hs : ¬ ∃ n < 64, stop = Rfc4648.char url n) :
    countDecodable (tableOf url) (ns.map (Rfc4648.char url) ++ stop :: rest) = some ns.length := by
  induction ns with
  | nil =>
    have := mt (look_alphabet url stop).mp hs
    rw [List.map_nil, List.nil_append, countDecodable, if_neg this]; rfl
  | cons n ns ih =>
    rw [List.map_cons, List.cons_append, countDecodable_char url n (hn n (by simp)),
      ih (fun m hm => hn m (by simp [hm]))]
    rfl

/-- **C96**, base64 (full). Whatever bytes are in and after the view: the memory from the beginning of the view on is a
run of alphabet characters up to the first byte `stop` outside the alphabet - padding or anything else, in the view or
after it. The decoder writes the whole bytes of the six-bit groups of that run, drops the two, four or six bits left
over, and looks at nothing behind `stop`; it fails, with the position between the old one and the limit, only when
those bytes do not fit. -/
theorem C96_base64_any (url : Bool) (ns : List Nat) (hn : ∀ n ∈ ns, n < 64) (stop : Byte)
    (hs : ¬ ∃ n < 64, stop = Rfc4648.char url n) (src after rest : List Byte) (hsrc : src ≠ [])
    (hmem : src ++ after = ns.map (Rfc4648.char url) ++ stop :: rest) (dest : ByteWriter) (h : dest.Ready) :
    (6 * ns.length / 8 ≤ dest.remaining →
      (Rfc4648.octets (ns.flatMap Rfc4648.six)).length = 6 * ns.length / 8 ∧
      decode (tableOf url) dest src after = .ok (dest.wrote (Rfc4648.octets (ns.flatMap Rfc4648.six)), .ok ())) ∧
    (dest.remaining < 6 * ns.length / 8 →
      ∃ call, decode (tableOf url) dest src after = .ok call ∧ FailsInside dest call) := by
  have hrem := remaining_of_ready dest h
  have := h.1
  have hl : (Rfc4648.octets (ns.flatMap Rfc4648.six)).length = 6 * ns.length / 8 := by
    rw [octets_length, bits_length]
  have hd : decode (tableOf url) dest src after = .ok (dest.writeChunks (anyPieces ns)) := by
    rw [decode, if_neg hsrc, hmem, countDecodable_any url ns hn stop rest hs]
    exact decodeLoop_any url ns hn (stop :: rest) dest
  have hf := anyPieces_flatten ns hn
  rw [hd]
  constructor
  · intro hr
    exact ⟨hl, by rw [writeChunks_fits _ _ h (by rw [hf, hl]; omega), hf]⟩
  · intro hr
    obtain ⟨s', h1, h2, h3, h4, h5, h6⟩ := writeChunks_short (anyPieces ns) dest h (by rw [hf, hl]; omega)
    rw [h1]
    exact ⟨_, rfl, rfl, h2, h3, h4, h5, h6⟩

example : ([84, 87, 70, 117, 84, 87, 33] : List Byte) ++ [0xFF] =
      [19, 22, 5, 46, 19, 22].map (Rfc4648.char false) ++ 33 :: [0xFF] ∧
    (∀ n ∈ [19, 22, 5, 46, 19, 22], n < 64) ∧ (¬ ∃ n < 64, (33 : Byte) = Rfc4648.char false n) ∧
    Rfc4648.octets ([19, 22, 5, 46, 19, 22].flatMap Rfc4648.six) = [0x4D, 0x61, 0x6E, 0x4D] := by
  decide +kernel

/-- The other two cases: nothing but alphabet characters in all the readable memory - the decoder leaves it; and an
empty view - an error, whatever follows. Every memory is in one of the three cases. -/
theorem C96_base64_rest (url : Bool) (dest : ByteWriter) (src after : List Byte) :
    (src ≠ [] → (∀ c ∈ src ++ after, ∃ n < 64, c = Rfc4648.char url n) → decode (tableOf url) dest src after = .ub) ∧
    (src = [] → decode (tableOf url) dest src after = .ok (dest, .error .nodata)) ∧
    ((∀ c ∈ src ++ after, ∃ n < 64, c = Rfc4648.char url n) ∨
      ∃ (ns : List Nat) (stop : Byte) (rest : List Byte), (∀ n ∈ ns, n < 64) ∧ (¬ ∃ n < 64, stop = Rfc4648.char url n) ∧
        src ++ after = ns.map (Rfc4648.char url) ++ stop :: rest) := by
  refine ⟨?_, ?_, ?_⟩
  · intro hs ha
    rw [decode, if_neg hs, countDecodable_none _ _ (fun c hc => (look_alphabet url c).mpr (ha c hc))]
  · rintro rfl; rfl
  · generalize src ++ after = mem
    induction mem with
    | nil => left; simp
    | cons c mem ih =>
      by_cases hc : ∃ n < 64, c = Rfc4648.char url n
      · rcases ih with ih | ⟨ns, stop, rest, h1, h2, h3⟩
        · left
          intro d hd
          rcases List.mem_cons.mp hd with rfl | hd
          · exact hc
          · exact ih d hd
        · right
          obtain ⟨n, hn, rfl⟩ := hc
          refine ⟨n :: ns, stop, rest, ?_, h2, by rw [h3]; rfl⟩
          intro m hm
          rcases List.mem_cons.mp hm with rfl | hm
          · exact hn
          · exact h1 m hm
      · exact .inr ⟨[], c, mem, by simp, hc, rfl⟩

/-- `decodedSize` of any text of the standard alphabet whose length is a multiple of four and in which the run ends: the
number of bytes the decoder writes. A text of any other length is given the size 0 although the decoder writes the bytes
of its run. -/
theorem C96_decodedSize (ns : List Nat) (hn : ∀ n ∈ ns, n < 64) (stop : Byte)
    (hs : ¬ ∃ n < 64, stop = Rfc4648.char false n) (rest : List Byte) :
    decodedSize (ns.map (Rfc4648.char false) ++ stop :: rest) =
      if (ns.length + 1 + rest.length) % 4 = 0 then 6 * ns.length / 8 else 0 := by
  have hl : leading (ns.map (Rfc4648.char false) ++ stop :: rest) = ns.length := by
    induction ns with
    | nil =>
      have := mt (look_standard stop).mp hs
      rw [List.map_nil, List.nil_append, leading, if_neg this]; rfl
    | cons n ns ih =>
      rw [List.map_cons, List.cons_append, leading,
        if_pos ((look_standard _).mpr ⟨n, hn n (by simp), rfl⟩), ih (fun m hm => hn m (by simp [hm]))]
      rfl
  have hlen : (ns.map (Rfc4648.char false) ++ stop :: rest).length = ns.length + 1 + rest.length := by
    simp; omega
  rw [decodedSize, if_neg (by simp), hl, hlen]
  by_cases h4 : (ns.length + 1 + rest.length) % 4 = 0
  · rw [if_neg (by omega), if_pos h4]; omega
  · rw [if_pos h4, if_neg h4]

example : decodedSize [84, 87, 70, 117, 84, 87, 33, 0xFF] = 4 ∧ decodedSize [84, 87, 70, 117, 84, 87, 33] = 0 := by
  decide +kernel

end Solace.Base64

namespace Solace.Base16
open ByteWriter

theorem decodeLoop_good (p bs tail : List Byte) (h : Hex.parse p = some bs) (dest : ByteWriter) :
    decodeLoop dest (p ++ tail) =
      match dest.writeChunks (bs.map fun b => [b]) with
      | (d, .ok _) => decodeLoop d tail
      | (d, .error e) => .ok (d, .error e) := by
  induction p using Hex.parse.induct generalizing dest bs with
  | case1 => cases h; rfl
  | case2 => cases h
  | case3 a b rest hh l bs' hr hb ha ih =>
    rw [Hex.parse, ha, hb, hr] at h
    cases h
    have h1 : a.toNat < 128 := value_ascii a (by simp [Hex.IsDigit, ha])
    have h2 : b.toNat < 128 := value_ascii b (by simp [Hex.IsDigit, hb])
    rw [List.cons_append, List.cons_append, decodeLoop, decode16_eq a b h1 h2, ha, hb, List.map_cons, writeChunks]
    simp only
    rcases hw : dest.write [BitVec.ofNat 8 (16 * hh + l)] with ⟨d, e | u⟩
    · rfl
    · simp only
      exact ih _ hr d
  | case4 a b rest hno ih =>
    rw [Hex.parse] at h
    split at h
    · rename_i h1 h2 h3; exact absurd h3 (hno _ _ _ h1 h2)
    · cases h

theorem decode16_bad (a b : Byte) (h : ¬ (Hex.IsDigit a ∧ Hex.IsDigit b)) :
    decode16 a b = if 128 ≤ a.toNat ∨ 128 ≤ b.toNat then .ub else .ok (.error .ilseq) := by
  by_cases ha : 128 ≤ a.toNat
  · rw [if_pos (.inl ha), decode16, charToBin_ub a ha]; rfl
  · by_cases hb : 128 ≤ b.toNat
    · rw [if_pos (.inr hb), decode16, charToBin_eq a (by omega), charToBin_ub b hb]; rfl
    · rw [if_neg (by omega), decode16_eq a b (by omega) (by omega)]
      split
      · rename_i h1 h2
        exact absurd ⟨by simp [Hex.IsDigit, h1], by simp [Hex.IsDigit, h2]⟩ h
      · rfl

/-- **C96**, base16 (full). Whatever the text and the destination: a text of odd length is refused before anything is
written; otherwise the digit pairs `p` before the first pair that has a character which is not a digit are decoded and
written, and at that pair the call is undefined if one of its characters is not ASCII and fails with `ilseq` if both
are. If the bytes of `p` do not fit, the call fails where they do not, whatever comes after `p`. -/
theorem C96_base16_any (p bs tail : List Byte) (hp : Hex.parse p = some bs) (dest : ByteWriter) (h : dest.Ready) :
    (tail.length % 2 = 1 → decode dest (p ++ tail) = .ok (dest, .error .dom)) ∧
    (tail.length % 2 = 0 → dest.remaining < bs.length →
      ∃ call, decode dest (p ++ tail) = .ok call ∧ Base64.FailsInside dest call) ∧
    (bs.length ≤ dest.remaining →
      (tail = [] → decode dest (p ++ tail) = .ok (dest.wrote bs, .ok ())) ∧
      ∀ a b rest, tail = a :: b :: rest → rest.length % 2 = 0 → ¬ (Hex.IsDigit a ∧ Hex.IsDigit b) →
        decode dest (p ++ tail) =
          if 128 ≤ a.toNat ∨ 128 ≤ b.toNat then .ub else .ok (dest.wrote bs, .error .ilseq)) := by
  have hrem := remaining_of_ready dest h
  have := h.1
  have heven := ((parse_isSome_iff p).mp (by rw [hp]; rfl)).1
  have hf := flatten_singletons bs
  refine ⟨?_, ?_, ?_⟩
  · intro ht
    rw [decode, if_pos (by rw [List.length_append]; omega)]
  · intro ht hr
    obtain ⟨s', h1, h2, h3, h4, h5, h6⟩ := writeChunks_short (bs.map fun b => [b]) dest h (by rw [hf]; omega)
    rw [decode, if_neg (by rw [List.length_append]; omega), decodeLoop_good p bs tail hp, h1]
    exact ⟨_, rfl, rfl, h2, h3, h4, h5, h6⟩
  · intro hr
    have hw := writeChunks_fits (bs.map fun b => [b]) dest h (by rw [hf]; omega)
    rw [hf] at hw
    constructor
    · rintro rfl
      rw [decode, if_neg (by simp; omega), decodeLoop_good p bs [] hp, hw]
      rfl
    · rintro a b rest rfl ht hab
      rw [decode, if_neg (by simp; omega), decodeLoop_good p bs _ hp, hw]
      simp only
      rw [decodeLoop, decode16_bad a b hab]
      split <;> rename_i hc <;> split at hc <;> simp_all

example : Hex.parse [52, 66] = some [0x4B] ∧ ¬ (Hex.IsDigit 52 ∧ Hex.IsDigit 0xC3) ∧
    decode (ofBuffer [0, 0]) [52, 66, 52, 0xC3] = .ub ∧
    decode (ofBuffer [0, 0]) [52, 66, 52, 103] = .ok (⟨[0x4B, 0], 1, 2⟩, .error .ilseq) := by decide +kernel

/-- Every text of even length splits in that way. -/
theorem C96_base16_split (text : List Byte) :
    ∃ p bs tail, Hex.parse p = some bs ∧ text = p ++ tail ∧
      (tail.length < 2 ∨ ∃ a b rest, tail = a :: b :: rest ∧ ¬ (Hex.IsDigit a ∧ Hex.IsDigit b)) := by
  induction text using Hex.parse.induct with
  | case1 => exact ⟨[], [], [], rfl, rfl, .inl (by simp)⟩
  | case2 c => exact ⟨[], [], [c], rfl, rfl, .inl (by simp)⟩
  | case3 a b rest hh l bs' hr hb ha ih =>
    obtain ⟨p, bs, tail, h1, h2, h3⟩ := ih
    refine ⟨a :: b :: p, BitVec.ofNat 8 (16 * hh + l) :: bs, tail, ?_, by rw [h2]; rfl, h3⟩
    rw [Hex.parse, ha, hb, h1]
  | case4 a b rest hno ih =>
    by_cases hab : Hex.IsDigit a ∧ Hex.IsDigit b
    · obtain ⟨p, bs, tail, h1, h2, h3⟩ := ih
      rcases hx : Hex.value a with _ | x
      · exact absurd hx hab.1
      rcases hy : Hex.value b with _ | y
      · exact absurd hy hab.2
      refine ⟨a :: b :: p, BitVec.ofNat 8 (16 * x + y) :: bs, tail, ?_, by rw [h2]; rfl, h3⟩
      rw [Hex.parse, hx, hy, h1]
    · exact ⟨[], [], a :: b :: rest, rfl, rfl, .inr ⟨a, b, rest, rfl, hab⟩⟩

/-- **C96**, the base16 iterator (full). Whatever the text: the loop from `base16Decode_begin` yields the bytes of the
digit pairs `p` and stops, without telling, at a pair that is not made of digits or at a single character; when that pair
has a character that is not ASCII the loop is undefined - constructing the iterator when `p` is empty, advancing it
otherwise. -/
theorem C96_base16_iterator (p bs tail : List Byte) (hp : Hex.parse p = some bs) (old : Option Byte) :
    ((tail.length < 2 ∨ ∃ a b rest, tail = a :: b :: rest ∧ ¬ (Hex.IsDigit a ∧ Hex.IsDigit b) ∧
        a.toNat < 128 ∧ b.toNat < 128) →
      ∃ it, DecIter.load (p ++ tail) old = .ok it ∧ ∀ n, bs.length < n → it.collect n = some (.ok bs)) ∧
    ((∃ a b rest, tail = a :: b :: rest ∧ (128 ≤ a.toNat ∨ 128 ≤ b.toNat)) →
      if p = [] then DecIter.load (p ++ tail) old = .ub
      else ∃ it, DecIter.load (p ++ tail) old = .ok it ∧ ∀ n, bs.length < n → it.collect n = some .ub) := by
  induction p using Hex.parse.induct generalizing old bs with
  | case1 =>
    cases hp
    rw [List.nil_append]
    constructor
    · intro ht
      have : DecIter.load tail old = .ok ⟨[], old⟩ := by
        rcases ht with ht | ⟨a, b, rest, rfl, hab, ha, hb⟩
        · match tail with
          | [] => rfl
          | [_] => rfl
          | _ :: _ :: _ => simp at ht; omega
        · rw [DecIter.load, decode16_bad a b hab, if_neg (by omega)]
      refine ⟨_, this, ?_⟩
      intro n hn
      match n with
      | 0 => simp at hn
      | n + 1 => rw [DecIter.collect]; simp
    · rintro ⟨a, b, rest, rfl, hab⟩
      rw [if_pos rfl, DecIter.load, decode16_bad a b, if_pos hab]
      rintro ⟨h1, h2⟩
      have := value_ascii a h1
      have := value_ascii b h2
      omega
  | case2 => cases hp
  | case3 a b rest hh l bs' hr hb ha ih =>
    rw [Hex.parse, ha, hb, hr] at hp
    cases hp
    have h1 : a.toNat < 128 := value_ascii a (by simp [Hex.IsDigit, ha])
    have h2 : b.toNat < 128 := value_ascii b (by simp [Hex.IsDigit, hb])
    have hd : decode16 a b = .ok (.ok (BitVec.ofNat 8 (16 * hh + l))) := by rw [decode16_eq a b h1 h2, ha, hb]
    have hl : ∀ old, DecIter.load (a :: b :: rest ++ tail) old =
        .ok ⟨a :: b :: rest ++ tail, some (BitVec.ofNat 8 (16 * hh + l))⟩ := by
      intro old
      rw [List.cons_append, List.cons_append, DecIter.load, hd]
    obtain ⟨i1, i2⟩ := ih bs' hr (some (BitVec.ofNat 8 (16 * hh + l)))
    constructor
    · intro ht
      obtain ⟨it, j1, j2⟩ := i1 ht
      refine ⟨_, hl old, ?_⟩
      intro n hn
      match n with
      | 0 => simp at hn
      | n + 1 =>
        rw [DecIter.collect]
        simp only [List.cons_append, DecIter.deref, DecIter.next, j1, j2 n (by simp at hn; omega)]
        simp
    · intro ht
      have i3 := i2 ht
      rw [if_neg (by simp)]
      refine ⟨_, hl old, ?_⟩
      intro n hn
      match n with
      | 0 => simp at hn
      | n + 1 =>
        rw [DecIter.collect]
        split at i3
        · simp only [List.cons_append, DecIter.deref, DecIter.next, i3]
          simp
        · obtain ⟨it, j1, j2⟩ := i3
          simp only [List.cons_append, DecIter.deref, DecIter.next, j1, j2 n (by simp at hn; omega)]
          simp
  | case4 a b rest hno ih =>
    rw [Hex.parse] at hp
    split at hp
    · rename_i h1 h2 h3; exact absurd h3 (hno _ _ _ h1 h2)
    · cases hp

example : Hex.parse [52, 66] = some [0x4B] ∧ (∃ a b rest, ([0x31, 0xC3] : List Byte) = a :: b :: rest ∧
    (128 ≤ a.toNat ∨ 128 ≤ b.toNat)) := by
  exact ⟨by decide +kernel, _, _, _, rfl, by decide⟩

end Solace.Base16
