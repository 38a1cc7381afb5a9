import Verif.Model.Encoder
import Verif.Props.C12_C16_Base64
import Verif.Props.C01_C02_ByteReader
/-
C70: `Encoder::encode(ByteReader&)`, for any concrete encoder `enc`.
-/
namespace Solace

/-- **C70** (full). Whatever the concrete encoder, the destination and the reader state (its fields are `size_t`):
the encoder is given exactly the bytes between position and limit that exist in the buffer; if it succeeds, the call
succeeds and leaves nothing remaining in the reader; if it fails, the call reports the error and the reader is
unchanged. The reader's data and limit never change. -/
theorem C70_encode_reader (enc : ByteWriter → List Byte → ByteWriter.Call) (dest : ByteWriter) (src : ByteReader)
    (hp : src.position < 2 ^ 64) (hl : src.limit < 2 ^ 64) :
    let given := (src.data.drop src.position).take (src.limit - src.position)
    let r := encodeReader enc dest src
    r.1 = (enc dest given).1 ∧ r.2.2 = (enc dest given).2 ∧
    (r.2.2 = .ok () → r.2.1.remaining = 0) ∧
    (∀ e, r.2.2 = .error e → r.2.1 = src) ∧
    r.2.1.data = src.data ∧ r.2.1.limit = src.limit := by
  have hv : src.viewRemaining = (src.data.drop src.position).take (src.limit - src.position) := by
    rw [ByteReader.viewRemaining, slice_eq]
  have hadv : src.advance src.remaining =
      ⟨{ src with position := src.limit }, .ok none, []⟩ := by
    have : wrap64 (src.position + src.remaining) = src.limit := by
      rw [ByteReader.remaining, wrap64_def]
      by_cases h : src.position ≤ src.limit
      · rw [sub64_of_le h hl]; omega
      · rw [sub64_of_lt (by omega) (by omega)]; omega
    rw [ByteReader.advance, if_neg (by omega), this]
  simp only
  rw [encodeReader, hv, hadv]
  rcases enc dest ((src.data.drop src.position).take (src.limit - src.position)) with ⟨d, e | u⟩
  · simp
  · refine ⟨rfl, rfl, ?_, ?_, rfl, rfl⟩
    · intro _
      rw [ByteReader.remaining, sub64_of_le (Nat.le_refl _) hl, Nat.sub_self]
    · intro e he; cases he

/-- With the base16 encoder: the reader's remaining bytes appear in the destination as hexadecimal text. -/
theorem C70_base16 (dest : ByteWriter) (hd : dest.Ready) (src : ByteReader) (h1 : src.position ≤ src.limit)
    (h2 : src.limit ≤ src.data.length) (h3 : src.data.length < 2 ^ 64)
    (hr : dest.position + 2 * (src.limit - src.position) ≤ dest.limit) :
    (encodeReader Base16.encode dest src).1 =
      dest.wrote (Hex.text ((src.data.drop src.position).take (src.limit - src.position))) ∧
    (encodeReader Base16.encode dest src).2.1.remaining = 0 ∧
    (encodeReader Base16.encode dest src).2.2 = .ok () := by
  have hlen : ((src.data.drop src.position).take (src.limit - src.position)).length = src.limit - src.position := by
    rw [List.length_take, List.length_drop]; omega
  have he := Base16.C09_text ((src.data.drop src.position).take (src.limit - src.position)) dest hd (by omega)
  have hk := C70_encode_reader Base16.encode dest src (by omega) (by omega)
  simp only at hk
  rw [he] at hk
  obtain ⟨k1, k2, k3, _⟩ := hk
  exact ⟨k1, k3 k2, k2⟩

example : encodeReader Base16.encode (ByteWriter.ofBuffer [0, 0, 0, 0]) ⟨[1, 2, 0xAB, 3], 1, 3⟩ =
    (⟨[48, 50, 97, 98], 4, 4⟩, ⟨[1, 2, 0xAB, 3], 3, 3⟩, .ok ()) := by decide +kernel
example : (encodeReader Base16.encode (ByteWriter.ofBuffer [0, 0]) ⟨[1, 2, 0xAB, 3], 1, 3⟩).2 =
    (⟨[1, 2, 0xAB, 3], 1, 3⟩, .error .overflow) := by decide +kernel

end Solace
