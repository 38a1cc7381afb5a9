import Verif.Props.C154_InPlace
import Verif.Props.C09_C11_Base16
import Verif.Props.C12_C16_Base64
import Verif.Props.C12_Exact
/-
C154: bytes at the end of a buffer are encoded to its front, and the text is decoded onto itself.
-/
namespace Solace.InPlace
open ByteWriter (Ready wrote overwrite overwrite_length overwrite_take overwrite_drop)

theorem front (data src : List Byte) (h : src.length ≤ data.length) : (overwrite data 0 src).take src.length = src := by
  have := overwrite_take data 0 src (by omega)
  rwa [Nat.zero_add, List.take_zero, List.nil_append] at this

theorem behind (data src : List Byte) (h : src.length ≤ data.length) : (overwrite data 0 src).drop src.length = data.drop src.length := by
  have := overwrite_drop data 0 src (by omega)
  rwa [Nat.zero_add] at this

theorem decode_hex (bytes : List Byte) (dest : ByteWriter) (h : Ready dest) (hr : dest.position + bytes.length ≤ dest.limit) :
    Base16.decode dest (Hex.text bytes) = .ok (dest.wrote bytes, .ok ()) := by
  rw [Base16.decode, if_neg (by rw [Base16.text_length]; omega), Base16.decodeLoop_parse _ _ _ (Base16.parse_text bytes),
    ByteWriter.writeChunks_fits _ _ h (by rw [Base16.flatten_singletons]; exact hr), Base16.flatten_singletons]

/-- **C154**, Base16: in a buffer of twice their size bytes at its end become their text and again themselves. -/
theorem C154_round_trip16 (buffer : List Byte) (hm : buffer.length < 2 ^ 64) (n : Nat) (hn : 2 * n ≤ buffer.length) :
    ∃ text again, enc16 ⟨buffer, 0, buffer.length⟩ n (buffer.length - n) = .ok (⟨text, 2 * n, buffer.length⟩, .ok ()) ∧
      text.take (2 * n) = Hex.text (buffer.drop (buffer.length - n)) ∧ text.drop (2 * n) = buffer.drop (2 * n) ∧
      dec16 ⟨text, 0, buffer.length⟩ (2 * n) 0 = .ok (⟨again, n, buffer.length⟩, .ok ()) ∧
      again.take n = buffer.drop (buffer.length - n) := by
  have hl : (buffer.drop (buffer.length - n)).length = n := by rw [List.length_drop]; omega
  have ht : (Hex.text (buffer.drop (buffer.length - n))).length = 2 * n := by rw [Base16.text_length, hl]
  have hd := decode_hex (buffer.drop (buffer.length - n))
  generalize hx : Hex.text (buffer.drop (buffer.length - n)) = x at *
  have hol : (overwrite buffer 0 x).length = buffer.length := overwrite_length _ _ _ (by omega)
  refine ⟨overwrite buffer 0 x, overwrite (overwrite buffer 0 x) 0 (buffer.drop (buffer.length - n)), ?_, ?_, ?_, ?_, ?_⟩
  · rw [C154_encode16_partial _ ⟨hm, Nat.two_pow_pos 64⟩ _ _ (by dsimp only; omega) (.inr (by dsimp only; omega))]
    dsimp only
    rw [List.take_of_length_le (by omega), Base16.C09_text _ _ ⟨Nat.zero_le _, Nat.le_refl _, hm⟩ (by dsimp only; omega), hx, wrote, ht, Nat.zero_add]
  · rw [← ht]; exact front _ _ (by omega)
  · rw [← ht]; exact behind _ _ (by omega)
  · rw [C154_decode16_partial _ ⟨by dsimp only; omega, Nat.two_pow_pos 64⟩ _ _ (by dsimp only; omega) (.inr (by dsimp only; omega))]
    dsimp only
    rw [List.drop_zero, ← ht, front _ _ (by omega), hd _ ⟨Nat.zero_le _, by dsimp only; omega, by dsimp only; omega⟩ (by dsimp only; omega), wrote, hl, Nat.zero_add]
  · have := front (overwrite buffer 0 x) (buffer.drop (buffer.length - n)) (by omega)
    rwa [hl] at this

/-- **C154**, Base64: bytes at the end of a buffer that has room for their text become the text and again themselves, exactly as far as decoding this text with
what then follows it in memory gives them back at all (C12). -/
theorem C154_round_trip64 (url : Bool) (buffer after : List Byte) (hm : buffer.length < 2 ^ 62) (n : Nat) (hn : 4 * ((n + 2) / 3) ≤ buffer.length) (h0 : n ≠ 0)
    (hs : n % 3 = 0 → Base64.StopsSoon url (buffer.drop (4 * ((n + 2) / 3)) ++ after)) :
    ∃ text again, enc64 (Base64.alphabetOf url) ⟨buffer, 0, buffer.length⟩ n (buffer.length - n) = .ok (⟨text, 4 * ((n + 2) / 3), buffer.length⟩, .ok ()) ∧
      text.take (4 * ((n + 2) / 3)) = Rfc4648.text url (buffer.drop (buffer.length - n)) ∧
      text.drop (4 * ((n + 2) / 3)) = buffer.drop (4 * ((n + 2) / 3)) ∧
      dec64 (Base64.tableOf url) ⟨text, 0, buffer.length⟩ after (4 * ((n + 2) / 3)) 0 = .ok (⟨again, n, buffer.length⟩, .ok ()) ∧
      again.take n = buffer.drop (buffer.length - n) := by
  have hl : (buffer.drop (buffer.length - n)).length = n := by rw [List.length_drop]; omega
  have hr : Ready ⟨buffer, 0, buffer.length⟩ := ⟨Nat.zero_le _, Nat.le_refl _, by dsimp only; omega⟩
  have hc := Base64.C13_conforms_to_rfc4648 url (buffer.drop (buffer.length - n)) (by omega) ⟨buffer, 0, buffer.length⟩ hr (by dsimp only; omega)
  have ht := hc.2.1
  have he := hc.1
  rw [hl] at ht
  have hd := Base64.C12_round_trip_iff url (buffer.drop (buffer.length - n))
  generalize hx : Rfc4648.text url (buffer.drop (buffer.length - n)) = x at *
  have hol : (overwrite buffer 0 x).length = buffer.length := overwrite_length _ _ _ (by omega)
  refine ⟨overwrite buffer 0 x, overwrite (overwrite buffer 0 x) 0 (buffer.drop (buffer.length - n)), ?_, ?_, ?_, ?_, ?_⟩
  · rw [C154_encode64_partial _ _ ⟨by dsimp only; omega, Nat.two_pow_pos 64⟩ _ _ (by dsimp only; omega) (.inr (by dsimp only; omega))]
    dsimp only
    rw [List.take_of_length_le (by omega), he, wrote, ht, Nat.zero_add]
  · rw [← ht]; exact front _ _ (by omega)
  · rw [← ht]; exact behind _ _ (by omega)
  · rw [C154_decode64_partial _ _ _ ⟨by dsimp only; omega, Nat.two_pow_pos 64⟩ _ _ (by dsimp only; omega) (.inl (Nat.le_refl _))]
    dsimp only
    rw [List.drop_zero, Nat.zero_add, ← ht, front _ _ (by omega), behind _ _ (by omega),
      (hd _ _ ⟨Nat.zero_le _, by dsimp only; omega, by dsimp only; omega⟩ (by dsimp only; omega)).mpr
        ⟨fun e => h0 (by rw [← hl, e]; rfl), fun h3 => by rw [ht]; exact hs (by rwa [hl] at h3)⟩, wrote, hl, Nat.zero_add]
  · have := front (overwrite buffer 0 x) (buffer.drop (buffer.length - n)) (by omega)
    rwa [hl] at this

/-- The hypotheses are met: four bytes at the end of ten; for Base64 in eight. -/
example : (∃ text again, enc16 ⟨[1#8, 2#8, 3#8, 4#8, 5#8, 6#8, 0xDE#8, 0xAD#8, 0xBE#8, 0xEF#8], 0, 10⟩ 4 6 = .ok (⟨text, 8, 10⟩, .ok ()) ∧
    dec16 ⟨text, 0, 10⟩ 8 0 = .ok (⟨again, 4, 10⟩, .ok ()) ∧ again.take 4 = [0xDE#8, 0xAD#8, 0xBE#8, 0xEF#8]) ∧ 4 % 3 ≠ 0 ∧ 4 * ((4 + 2) / 3) ≤ 8 := by
  obtain ⟨t, a, h1, -, -, h4, h5⟩ :=
    C154_round_trip16 [1#8, 2#8, 3#8, 4#8, 5#8, 6#8, 0xDE#8, 0xAD#8, 0xBE#8, 0xEF#8] (by decide) 4 (by decide)
  exact ⟨⟨t, a, h1, h4, h5⟩, by decide, by decide⟩

end Solace.InPlace
