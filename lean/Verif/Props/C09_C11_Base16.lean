import Verif.Lemmas.Base16
/-
C09 (round trip), C10 (accepted language), C11 (iterators agree with the bulk coder).

`Ready` is the usual state of a destination writer (position ≤ limit ≤ capacity) and `wrote w bytes` the writer after
exactly these bytes were stored at its position.
-/
namespace Solace.Base16
open ByteWriter

/-- **C09** (full). Whatever the bytes and the two destinations with enough room: the encoder writes
`encodedSize(n) = 2 n` lower-case hexadecimal digits, and decoding exactly those writes the original bytes. -/
theorem C09_round_trip (bytes : List Byte) (dest dest2 : ByteWriter) (h1 : dest.Ready) (h2 : dest2.Ready)
    (hr1 : dest.position + 2 * bytes.length ≤ dest.limit) (hr2 : dest2.position + bytes.length ≤ dest2.limit) :
    ∃ text : List Byte, encode dest bytes = (dest.wrote text, .ok ()) ∧ text.length = 2 * bytes.length ∧
      text.length = encodedSize bytes.length ∧ (∀ c ∈ text, Hex.IsLowerDigit c) ∧
      decode dest2 text = .ok (dest2.wrote bytes, .ok ()) := by
  have htl := text_length bytes
  refine ⟨Hex.text bytes, ?_, htl, ?_, ?_, ?_⟩
  · rw [encode_eq, writeChunks_fits _ _ h1 (by rw [text_eq, htl]; exact hr1), text_eq]
  · rw [encodedSize, wrap64_of_lt (by have := h1.2; omega), htl]
  · intro c hc
    simp only [Hex.text, List.mem_flatMap] at hc
    obtain ⟨b, _, hc⟩ := hc
    simp only [List.mem_cons, List.not_mem_nil, or_false] at hc
    rcases hc with rfl | rfl
    · exact digit_lower _ (by omega)
    · exact digit_lower _ (by omega)
  · rw [decode, if_neg (by omega), decodeLoop_parse _ _ _ (parse_text bytes),
      writeChunks_fits _ _ h2 (by rw [flatten_singletons]; exact hr2), flatten_singletons]

/-- The text written is the positional hexadecimal notation of the bytes. -/
theorem C09_text (bytes : List Byte) (dest : ByteWriter) (h1 : dest.Ready)
    (hr1 : dest.position + 2 * bytes.length ≤ dest.limit) :
    encode dest bytes = (dest.wrote (Hex.text bytes), .ok ()) := by
  rw [encode_eq, writeChunks_fits _ _ h1 (by rw [text_eq, text_length]; exact hr1), text_eq]

example : (ofBuffer [0, 0, 0, 0, 0]).Ready ∧ (0 : Nat) + 2 * [(0xA5 : Byte), 7].length ≤ 5 ∧
    (encode (ofBuffer [0, 0, 0, 0, 0]) [0xA5, 7]).1.viewWritten = [97, 53, 48, 55] := by
  unfold Ready ofBuffer; decide +kernel

/-- **C10** (partial: the text is ASCII). The decoder succeeds exactly on the even-length texts made of hexadecimal
digits; otherwise it returns an error. It never throws and has no undefined behaviour. Missing: texts with bytes
`≥ 0x80`, see `C10_non_ascii_undefined`. -/
theorem C10_accepts_exactly_hex_partial (text : List Byte) (hascii : ∀ c ∈ text, c.toNat < 128)
    (dest : ByteWriter) (h : dest.Ready) (hr : dest.position + text.length / 2 ≤ dest.limit) :
    ((text.length % 2 = 0 ∧ ∀ c ∈ text, Hex.IsDigit c) →
      ∃ bytes, decode dest text = .ok (dest.wrote bytes, .ok ())) ∧
    (¬ (text.length % 2 = 0 ∧ ∀ c ∈ text, Hex.IsDigit c) → ∃ d e, decode dest text = .ok (d, .error e)) := by
  rw [← parse_isSome_iff]
  constructor
  · intro hp
    obtain ⟨bs, hbs⟩ := Option.isSome_iff_exists.mp hp
    have heven := (parse_isSome_iff text).mp hp
    have hlen : 2 * bs.length = text.length := by
      have := congrArg List.length (text_parse text bs hbs)
      rw [text_length, List.length_map] at this; exact this
    refine ⟨bs, ?_⟩
    rw [decode, if_neg (by omega), decodeLoop_parse _ _ _ hbs,
      writeChunks_fits _ _ h (by rw [flatten_singletons]; omega), flatten_singletons]
  · intro hp
    rw [decode]
    split
    · exact ⟨_, _, rfl⟩
    · exact decodeLoop_reject text dest (by omega) hascii (by simpa using hp)

example : (∀ c ∈ ([52, 66, 97] : List Byte), c.toNat < 128) ∧ (∃ c ∈ ([52, 71] : List Byte), ¬ Hex.IsDigit c) := by
  decide +kernel

/-- **C10, re-encoding** (full): if the decoder accepts a text, encoding the decoded bytes gives the lower-case form
of the text. -/
theorem C10_reencode_lower (text : List Byte) (dest dest2 : ByteWriter) (h : dest.Ready) (h2 : dest2.Ready)
    (hr : dest.position + text.length / 2 ≤ dest.limit) (hr2 : dest2.position + text.length ≤ dest2.limit)
    (hhex : text.length % 2 = 0 ∧ ∀ c ∈ text, Hex.IsDigit c) :
    ∃ bytes, decode dest text = .ok (dest.wrote bytes, .ok ()) ∧
      encode dest2 bytes = (dest2.wrote (text.map Hex.toLower), .ok ()) := by
  have hp := (parse_isSome_iff text).mpr hhex
  obtain ⟨bs, hbs⟩ := Option.isSome_iff_exists.mp hp
  have htp := text_parse text bs hbs
  have hlen : 2 * bs.length = text.length := by
    have := congrArg List.length htp
    rw [text_length, List.length_map] at this; exact this
  refine ⟨bs, ?_, ?_⟩
  · rw [decode, if_neg (by omega), decodeLoop_parse _ _ _ hbs,
      writeChunks_fits _ _ h (by rw [flatten_singletons]; omega), flatten_singletons]
  · rw [C09_text bs dest2 h2 (by omega), htp]

example : decode (ofBuffer [0, 0]) [52, 66, 70, 97] = .ok (⟨[0x4B, 0xFA], 2, 2⟩, .ok ()) := by decide +kernel

/-- **C10, negation of the full statement**: any even-length text that starts with a byte `≥ 0x80` makes the decoder
index its 128-entry table out of bounds. -/
theorem C10_non_ascii_undefined (c d : Byte) (rest : List Byte) (hc : 128 ≤ c.toNat) (heven : rest.length % 2 = 0)
    (dest : ByteWriter) : decode dest (c :: d :: rest) = .ub := by
  rw [decode, if_neg (by simp; omega), decodeLoop, decode16, charToBin_ub c hc]
  rfl

example : (128 : Nat) ≤ (0xC3 : Byte).toNat ∧ ([] : List Byte).length % 2 = 0 := by decide

/-- **C11, encoding** (full): the pieces yielded by the encoding iterator, put together, are the text written by the
bulk encoder. -/
theorem C11_encode_iterator (bytes : List Byte) (dest : ByteWriter) (h1 : dest.Ready)
    (hr1 : dest.position + 2 * bytes.length ≤ dest.limit) :
    encode dest bytes = (dest.wrote (encodeIter bytes).flatten, .ok ()) ∧
    (encodeIter bytes).length = bytes.length ∧ ∀ p ∈ encodeIter bytes, p.length = 2 := by
  have he : encodeIter bytes = bytes.map hexPair := by
    induction bytes with
    | nil => rfl
    | cons b bs ih => rw [encodeIter, ih (by simp at hr1; omega)]; rfl
  refine ⟨?_, by simp [he], ?_⟩
  · rw [C09_text bytes dest h1 hr1, he, text_eq]
  · intro p hp
    rw [he, List.mem_map] at hp
    obtain ⟨b, _, rfl⟩ := hp
    rw [hexPair_eq]; rfl

/-- **C11, decoding** (partial: the text is ASCII). Iterating from `base16Decode_begin` terminates without undefined
behaviour and yields the bytes that `Base16Decoder` writes for the longest prefix of the text it accepts. -/
theorem C11_decode_iterator_partial (text : List Byte) (hascii : ∀ c ∈ text, c.toNat < 128) :
    ∃ (it : DecIter) (p bytes : List Byte), DecIter.begin text = .ok it ∧
      (∀ n, text.length < n → it.collect n = some (.ok bytes)) ∧
      p <+: text ∧
      (∀ dest : ByteWriter, dest.Ready → dest.position + text.length ≤ dest.limit →
        decode dest p = .ok (dest.wrote bytes, .ok ()) ∧
        ∀ q, q <+: text → p.length < q.length → ∃ d e, decode dest q = .ok (d, .error e)) := by
  obtain ⟨it, h1, h2⟩ := load_collect text hascii none
  obtain ⟨g1, g2, g3⟩ := goodPrefix_spec text
  refine ⟨it, _, _, h1, h2, g1, ?_⟩
  intro dest hd hr
  have hev := (parse_isSome_iff (goodPrefix text).1).mp (by rw [g2]; rfl)
  have hlen : 2 * (goodPrefix text).2.length = (goodPrefix text).1.length := by
    have := congrArg List.length (text_parse _ _ g2)
    rw [text_length, List.length_map] at this; exact this
  have hple : (goodPrefix text).1.length ≤ text.length := g1.length_le
  constructor
  · rw [decode, if_neg (by omega), decodeLoop_parse _ _ _ g2,
      writeChunks_fits _ _ hd (by rw [flatten_singletons]; omega), flatten_singletons]
  · intro q hq hl
    have := g3 q hq hl
    rw [decode]
    split
    · exact ⟨_, _, rfl⟩
    · exact decodeLoop_reject q dest (by omega) (fun c hc => hascii c (hq.subset hc)) this

example : (DecIter.begin [52, 66, 48]).bind (fun it => match it.collect 9 with | some r => r | none => .ub) =
    .ok [0x4B] := by decide +kernel

/-- **C11, negation of the full statement**: a text starting with a byte `≥ 0x80` makes constructing the iterator
undefined. -/
theorem C11_non_ascii_undefined (c d : Byte) (rest : List Byte) (hc : 128 ≤ c.toNat) :
    DecIter.begin (c :: d :: rest) = .ub := by
  rw [DecIter.begin, DecIter.load, decode16, charToBin_ub c hc]
  rfl

end Solace.Base16
