import Verif.Lemmas.Base64
import Verif.Props.C09_C11_Base16
/-
C12 (base64 round trip), C13 (RFC 4648), C14 (decoder stays in its input), C15 (decodedSize), C16 (announced space).

`after` is the readable memory that follows the input view of the decoder. The code looks at it: C12, C14 and C15 hold
only in part; negations are proved.
-/
namespace Solace.Base64
open ByteWriter

/-- `encodedSize(n) = 4 * ceil(n / 3)`, for every `n` for which `4 * n` does not wrap (no object is that large). -/
theorem encodedSize_eq (n : Nat) (hn : n < 2 ^ 62) : encodedSize n = 4 * ((n + 2) / 3) := by
  have hm : ∀ x, x < 2 ^ 64 → x &&& (2 ^ 64 - 4) = x - x % 4 := by
    intro x hx
    have e : (2 : Nat) ^ 64 - 4 = (2 ^ 62 - 1) <<< 2 := by decide
    apply Nat.eq_of_testBit_eq
    intro i
    have h4 : x - x % 4 = (x >>> 2) <<< 2 := by
      rw [Nat.shiftRight_eq_div_pow, Nat.shiftLeft_eq]; omega
    rw [h4, e, Nat.testBit_and, Nat.testBit_shiftLeft, Nat.testBit_shiftLeft, Nat.testBit_shiftRight,
      Nat.testBit_two_pow_sub_one]
    by_cases hi : 2 ≤ i
    · simp only [ge_iff_le, hi, decide_true, Bool.true_and]
      rw [show 2 + (i - 2) = i by omega]
      by_cases hi2 : i - 2 < 62
      · simp [hi2]
      · have : x.testBit i = false :=
          Nat.testBit_lt_two_pow (Nat.lt_of_lt_of_le hx (Nat.pow_le_pow_right (by omega) (by omega)))
        simp [this]
    · simp [hi]
  rw [encodedSize, wrap64_of_lt (n := 4 * n) (by omega), wrap64_of_lt (by omega), hm _ (by omega)]
  omega

/-- **C13** (full): both encoders write exactly the RFC 4648 text of their input, whose length is
`encodedSize(n) = 4 * ceil(n / 3)`. -/
theorem C13_conforms_to_rfc4648 (url : Bool) (bytes : List Byte) (hn : bytes.length < 2 ^ 62) (dest : ByteWriter)
    (h : dest.Ready) (hr : dest.position + 4 * ((bytes.length + 2) / 3) ≤ dest.limit) :
    encode (alphabetOf url) dest bytes = (dest.wrote (Rfc4648.text url bytes), .ok ()) ∧
    (Rfc4648.text url bytes).length = 4 * ((bytes.length + 2) / 3) ∧
    encodedSize bytes.length = 4 * ((bytes.length + 2) / 3) := by
  have hl := pieces_length url bytes
  refine ⟨?_, ?_, encodedSize_eq _ hn⟩
  · rw [encode_eq, writeChunks_fits _ _ h (by rw [hl]; exact hr), pieces_text]
  · rw [← pieces_text, hl]

example : (ofBuffer [0, 0, 0, 0]).Ready ∧
    (encode (alphabetOf false) (ofBuffer [0, 0, 0, 0]) [0x66]).1.viewWritten = [90, 103, 61, 61] := by
  unfold Ready ofBuffer; decide +kernel

/-- **C12** (partial: if the number of bytes is a positive multiple of three, the text must be followed by a byte
outside the alphabet). Decoding the RFC 4648 text written by the encoder gives back the bytes, for both alphabets.
Missing: the empty byte string (`C12_empty_rejected`) and unpadded texts followed by other memory
(`C12_unpadded_undefined`, `C12_unpadded_wrong`). -/
theorem C12_round_trip_partial (url : Bool) (bytes after : List Byte) (hne : bytes ≠ [])
    (hafter : bytes.length % 3 = 0 → ∃ c rest, after = c :: rest ∧ look (tableOf url) c = 64)
    (dest dest2 : ByteWriter) (h : dest.Ready) (h2 : dest2.Ready)
    (hr : dest.position + 4 * ((bytes.length + 2) / 3) ≤ dest.limit)
    (hr2 : dest2.position + bytes.length ≤ dest2.limit) :
    ∃ text, encode (alphabetOf url) dest bytes = (dest.wrote text, .ok ()) ∧
      decode (tableOf url) dest2 text after = .ok (dest2.wrote bytes, .ok ()) := by
  refine ⟨(pieces url bytes).flatten, ?_, ?_⟩
  · rw [encode_eq, writeChunks_fits _ _ h (by rw [pieces_length]; exact hr)]
  · have hc : countDecodable (tableOf url) ((pieces url bytes).flatten ++ after) = some (cnt bytes) := by
      by_cases h3 : bytes.length % 3 = 0
      · obtain ⟨c, rest, rfl, hc⟩ := hafter h3
        rw [countDecodable_unpadded url bytes _ h3, countDecodable, if_neg (by omega)]
        simp
      · exact countDecodable_padded url bytes after h3
    rw [decode, if_neg (pieces_ne_nil url bytes hne), hc]
    simp only
    rw [decodeLoop_pieces, writeChunks_fits _ _ h2 (by rw [decPieces_flatten]; exact hr2), decPieces_flatten]

example : decode (tableOf true) (ofBuffer [0, 0, 0, 0]) [45, 95, 56, 61] [65] =
    .ok (⟨[0xFB, 0xFF, 0, 0], 2, 4⟩, .ok ()) := by decide +kernel
example : look (tableOf false) 0 = 64 ∧ look (tableOf true) 0 = 64 := by decide +kernel

/-- **C12, negation, empty input**: the empty byte string encodes to the empty text, which the decoder rejects. -/
theorem C12_empty_rejected (url : Bool) (dest dest2 : ByteWriter) (after : List Byte) :
    encode (alphabetOf url) dest [] = (dest, .ok ()) ∧
    decode (tableOf url) dest2 [] after = .ok (dest2, .error .nodata) := ⟨rfl, rfl⟩

/-- **C12 / C14, negation**: every text of a positive multiple of three bytes makes the decoder read beyond the view;
with nothing readable there the behaviour is undefined. -/
theorem C12_unpadded_undefined (url : Bool) (bytes : List Byte) (hne : bytes ≠ []) (h3 : bytes.length % 3 = 0)
    (dest2 : ByteWriter) : decode (tableOf url) dest2 (Rfc4648.text url bytes) [] = .ub := by
  rw [← pieces_text, decode, if_neg (pieces_ne_nil url bytes hne), countDecodable_unpadded url bytes [] h3]
  rfl

/-- **C12 / C14, negation**: with alphabet characters behind the view, the decoder silently writes more than was
encoded: `"TWFu"` followed by `"TWFu\0"` decodes to `"ManMan"`. -/
theorem C12_unpadded_wrong :
    Rfc4648.text false [0x4D, 0x61, 0x6E] = [84, 87, 70, 117] ∧
    (∃ w, decode pr2six (ofBuffer [0, 0, 0, 0, 0, 0]) [84, 87, 70, 117] [84, 87, 70, 117, 0] = .ok (w, .ok ()) ∧
      w.viewWritten = [0x4D, 0x61, 0x6E, 0x4D, 0x61, 0x6E]) := by
  constructor
  · rw [← pieces_text]; decide +kernel
  · exact ⟨⟨[0x4D, 0x61, 0x6E, 0x4D, 0x61, 0x6E], 6, 6⟩, by decide +kernel, by decide +kernel⟩

/-- **C14** (partial: the view contains a byte outside the alphabet, for example a padding character, or is empty).
The decoder's behaviour is defined and does not depend on the memory after the view. Missing: views made of alphabet
characters only, for which `C14_unterminated_undefined` shows that it does. -/
theorem C14_reads_only_view_partial (url : Bool) (dest : ByteWriter) (text : List Byte)
    (h : text = [] ∨ ∃ c ∈ text, 63 < look (tableOf url) c) :
    ∃ call, ∀ after, decode (tableOf url) dest text after = .ok call := by
  rcases h with rfl | h
  · exact ⟨_, fun _ => rfl⟩
  · obtain ⟨n, hn, hall⟩ := countDecodable_stop (tableOf url) text h
    obtain ⟨call, hcall⟩ := decodeLoop_defined (tableOf url) n text dest (by omega)
    have hne : text ≠ [] := by rintro rfl; simp at hn
    refine ⟨call, ?_⟩
    intro after
    rw [decode, if_neg hne, hall after]
    simp only
    rw [decodeLoop_append _ _ _ _ _ (by omega), hcall]

example : ∃ c ∈ ([90, 103, 61, 61] : List Byte), 63 < look (tableOf false) c := by decide +kernel

/-- **C14, negation of the full statement**: on *every* non-empty view of alphabet characters the decoder runs past
the end of the view. -/
theorem C14_unterminated_undefined (url : Bool) (dest : ByteWriter) (text : List Byte) (hne : text ≠ [])
    (h : ∀ c ∈ text, look (tableOf url) c ≤ 63) : decode (tableOf url) dest text [] = .ub := by
  rw [decode, if_neg hne, List.append_nil, countDecodable_none _ _ h]

example : ∀ c ∈ ([84, 87, 70, 117] : List Byte), look (tableOf false) c ≤ 63 := by decide +kernel

/-- **C15** (partial: for the URL alphabet the text has no `-` and no `_`; the text is properly followed as in C12).
`decodedSize` of the text is the number of bytes encoded, which is what the decoder writes. -/
theorem C15_decodedSize_partial (url : Bool) (bytes after : List Byte) (hne : bytes ≠ [])
    (hurl : url = true → ∀ c ∈ Rfc4648.text url bytes, c ≠ 45 ∧ c ≠ 95)
    (hafter : bytes.length % 3 = 0 → ∃ c rest, after = c :: rest ∧ look (tableOf url) c = 64)
    (dest : ByteWriter) (h : dest.Ready) (hr : dest.position + bytes.length ≤ dest.limit) :
    ∃ written, decode (tableOf url) dest (Rfc4648.text url bytes) after = .ok (dest.wrote written, .ok ()) ∧
      decodedSize (Rfc4648.text url bytes) = written.length := by
  rw [← pieces_text] at hurl ⊢
  have hc : countDecodable (tableOf url) ((pieces url bytes).flatten ++ after) = some (cnt bytes) := by
    by_cases h3 : bytes.length % 3 = 0
    · obtain ⟨c, rest, rfl, hc⟩ := hafter h3
      rw [countDecodable_unpadded url bytes _ h3, countDecodable, if_neg (by omega)]
      simp
    · exact countDecodable_padded url bytes after h3
  refine ⟨bytes, ?_, ?_⟩
  · rw [decode, if_neg (pieces_ne_nil url bytes hne), hc]
    simp only
    rw [decodeLoop_pieces, writeChunks_fits _ _ h (by rw [decPieces_flatten]; exact hr), decPieces_flatten]
  · rw [decodedSize, if_neg (pieces_ne_nil url bytes hne), if_neg (by rw [pieces_length]; omega),
      leading_pieces url bytes hurl, (cnt_bytes bytes).1]

example : ∀ c ∈ Rfc4648.text true [0x66, 0x6F], c ≠ 45 ∧ c ≠ 95 := by
  rw [← pieces_text]; decide +kernel

theorem look_standard (b : Byte) : look pr2six b ≤ 63 ↔ ∃ n < 64, b = Rfc4648.char false n := by
  have : ∀ x : Fin 256, look pr2six (BitVec.ofFin x) ≤ 63 ↔ ∃ n : Fin 64, BitVec.ofFin x = Rfc4648.char false n := by
    decide +kernel
  refine (this b.toFin).trans ⟨fun ⟨n, h⟩ => ⟨n, n.isLt, h⟩, fun ⟨n, h, e⟩ => ⟨⟨n, h⟩, e⟩⟩

/-- **C15**, the exact result for every text: zero unless the length is a multiple of four; otherwise three quarters (rounded
down) of the number of leading characters of the standard alphabet - for the URL decoder too. -/
theorem C15_decodedSize_exact (lead rest : List Byte) (hl : ∀ c ∈ lead, ∃ n < 64, c = Rfc4648.char false n)
    (hr : ∀ c, rest.head? = some c → ¬∃ n < 64, c = Rfc4648.char false n) :
    decodedSize (lead ++ rest) = if (lead.length + rest.length) % 4 = 0 then lead.length * 3 / 4 else 0 := by
  have hlead : leading (lead ++ rest) = lead.length := by
    induction lead with
    | nil =>
      cases rest with
      | nil => rfl
      | cons c r => rw [List.nil_append, leading, if_neg (fun h => hr c rfl ((look_standard c).mp h))]; rfl
    | cons c l ih =>
      rw [List.cons_append, leading, if_pos ((look_standard c).mpr (hl c List.mem_cons_self)),
        ih (fun x hx => hl x (List.mem_cons_of_mem _ hx)), List.length_cons]
  rw [decodedSize]
  by_cases he : lead ++ rest = []
  · rw [if_pos he]
    obtain ⟨rfl, rfl⟩ := List.append_eq_nil_iff.mp he
    rfl
  · rw [if_neg he, hlead, List.length_append]
    by_cases h4 : (lead.length + rest.length) % 4 = 0
    · rw [if_neg (by omega), if_pos h4]
    · rw [if_pos h4, if_neg h4]

example : decodedSize [84, 87, 61, 61] = 1 ∧ decodedSize [84, 87] = 0 ∧ decodedSize [84, 95, 61, 61] = 0 := by decide +kernel

/-- **C15, negation of the full statement**: for *every* URL text that contains `-` or `_`, `decodedSize` is smaller
than the number of bytes encoded. -/
theorem C15_url_undercounts (bytes : List Byte) (h : ∃ c ∈ Rfc4648.text true bytes, c = 45 ∨ c = 95) :
    decodedSize (Rfc4648.text true bytes) < bytes.length := by
  rw [← pieces_text] at h ⊢
  have hne : bytes ≠ [] := by rintro rfl; simp [pieces] at h
  rw [decodedSize, if_neg (pieces_ne_nil true bytes hne), if_neg (by rw [pieces_length]; omega)]
  exact (cnt_bytes bytes).2 _ (leading_url_lt bytes h)

example : ∃ c ∈ Rfc4648.text true [0xFB], c = 45 ∨ c = 95 := by
  rw [← pieces_text]; decide +kernel

/-- What a failing encoder may leave behind: an overflow error, the buffer keeps its size and its bytes before the
position, and the position stays between the old one and the limit. -/
def FailsInside (dest : ByteWriter) (call : ByteWriter.Call) : Prop :=
  call.2 = .error .overflow ∧ dest.position ≤ call.1.position ∧ call.1.position ≤ dest.limit ∧
  call.1.limit = dest.limit ∧ call.1.data.length = dest.data.length ∧
  ∀ i < dest.position, call.1.data[i]? = dest.data[i]?

/-- **C16** (full), base64 encoders. -/
theorem C16_base64_fits (url : Bool) (bytes : List Byte) (hn : bytes.length < 2 ^ 62) (dest : ByteWriter)
    (h : dest.Ready) :
    (encodedSize bytes.length ≤ dest.remaining →
      ∃ text, text.length = encodedSize bytes.length ∧
        encode (alphabetOf url) dest bytes = (dest.wrote text, .ok ())) ∧
    (dest.remaining < encodedSize bytes.length → FailsInside dest (encode (alphabetOf url) dest bytes)) := by
  have hrem := remaining_of_ready dest h
  have hl := pieces_length url bytes
  have := h.1
  rw [encodedSize_eq _ hn]
  constructor
  · intro hs
    exact ⟨(pieces url bytes).flatten, hl, by rw [encode_eq, writeChunks_fits _ _ h (by omega)]⟩
  · intro hs
    obtain ⟨s', h1, h2, h3, h4, h5, h6⟩ := writeChunks_short (pieces url bytes) dest h (by omega)
    rw [encode_eq, h1]
    exact ⟨rfl, h2, h3, h4, h5, h6⟩

/-- **C16** (full), base16 encoder. -/
theorem C16_base16_fits (bytes : List Byte) (hn : bytes.length < 2 ^ 63) (dest : ByteWriter) (h : dest.Ready) :
    (Base16.encodedSize bytes.length ≤ dest.remaining →
      ∃ text, text.length = Base16.encodedSize bytes.length ∧ Base16.encode dest bytes = (dest.wrote text, .ok ())) ∧
    (dest.remaining < Base16.encodedSize bytes.length → FailsInside dest (Base16.encode dest bytes)) := by
  have hrem := remaining_of_ready dest h
  have hl := Base16.text_length bytes
  have := h.1
  rw [Base16.encodedSize, wrap64_of_lt (by omega)]
  constructor
  · intro hs
    exact ⟨Hex.text bytes, hl, Base16.C09_text bytes dest h (by omega)⟩
  · intro hs
    obtain ⟨s', h1, h2, h3, h4, h5, h6⟩ := writeChunks_short (bytes.map Base16.hexPair) dest h
      (by rw [Base16.text_eq, hl]; omega)
    rw [Base16.encode_eq, h1]
    exact ⟨rfl, h2, h3, h4, h5, h6⟩

/-- **C16** (full), base16 decoder on text it accepts. -/
theorem C16_base16_decoder_fits (text : List Byte) (hhex : text.length % 2 = 0 ∧ ∀ c ∈ text, Hex.IsDigit c)
    (dest : ByteWriter) (h : dest.Ready) :
    (Base16.decodedSize text.length ≤ dest.remaining →
      ∃ bytes, bytes.length = Base16.decodedSize text.length ∧
        Base16.decode dest text = .ok (dest.wrote bytes, .ok ())) ∧
    (dest.remaining < Base16.decodedSize text.length →
      ∃ call, Base16.decode dest text = .ok call ∧ FailsInside dest call) := by
  have hrem := remaining_of_ready dest h
  have := h.1
  obtain ⟨bs, hbs⟩ := Option.isSome_iff_exists.mp ((Base16.parse_isSome_iff text).mpr hhex)
  have hlen : 2 * bs.length = text.length := by
    have := congrArg List.length (Base16.text_parse text bs hbs)
    rw [Base16.text_length, List.length_map] at this; exact this
  have hd : Base16.decode dest text = .ok (dest.writeChunks (bs.map fun b => [b])) := by
    rw [Base16.decode, if_neg (by omega), Base16.decodeLoop_parse _ _ _ hbs]
  have hf := Base16.flatten_singletons bs
  rw [Base16.decodedSize, hd]
  constructor
  · intro hs
    exact ⟨bs, by omega, by rw [writeChunks_fits _ _ h (by rw [hf]; omega), hf]⟩
  · intro hs
    obtain ⟨s', h1, h2, h3, h4, h5, h6⟩ := writeChunks_short (bs.map fun b => [b]) dest h (by rw [hf]; omega)
    rw [h1]
    exact ⟨_, rfl, rfl, h2, h3, h4, h5, h6⟩

example : (⟨[1, 2, 3, 4, 5, 6, 7, 8], 2, 7⟩ : ByteWriter).Ready ∧
    (⟨[1, 2, 3, 4, 5, 6, 7, 8], 2, 7⟩ : ByteWriter).remaining < encodedSize 4 ∧
    encodedSize 3 ≤ (⟨[1, 2, 3, 4, 5, 6, 7, 8], 2, 7⟩ : ByteWriter).remaining := by
  unfold Ready; decide +kernel

end Solace.Base64
