import Verif.Model.MessageDigest
import Verif.Lemmas.Base16
import Verif.Lemmas.String
/-
C64: the text form and the length of a digest.
-/
namespace Solace.MessageDigest

theorem view_zero (b : List Byte) : (Str.mk b 0).view = [] := by
  apply List.length_eq_zero_iff.mp
  rw [Str.view, slice_length]
  show min (0 - 0) (b.length - 0) = 0
  omega

theorem write_none (d : List Byte) :
    (Base16.encodeIter d).foldl (fun w piece => (w.write piece).1) (ByteWriter.ofBuffer []) = ByteWriter.ofBuffer [] := by
  induction d with
  | nil => rfl
  | cons b d ih =>
    rw [Base16.encodeIter, List.foldl_cons]
    have : ((ByteWriter.ofBuffer []).write (Base16.hexPair b)).1 = ByteWriter.ofBuffer [] := by
      rcases ByteWriter.write_cases (ByteWriter.ofBuffer []) (Base16.hexPair b) (by constructor <;> decide) with h | h | h | h
      · rw [h.2]
      · rw [h.2.2]
      · exact absurd h.2.1 (by simp [Base16.hexPair, ByteWriter.ofBuffer])
      · exact absurd h.2.1 (by simp [Base16.hexPair, ByteWriter.ofBuffer])
    rw [this, ih]

/-- **C64, negation**: the text is empty for every digest, because the characters are written into a view of the zero elements
of the new vector, and the failures are ignored. -/
theorem C64_empty_text (alloc : Nat → Except Err MutView) (vector : Nat → Except Err (Vec Byte × List Byte))
    (hv : VectorOk vector) (d : List Byte) : (toString alloc vector d).view = [] := by
  rw [toString]
  cases h : vector (Base16.encodedSize (size d)) with
  | error e => exact view_zero []
  | ok r =>
    obtain ⟨buffer, chars⟩ := r
    simp only
    have hn : buffer.next = 0 := by rw [hv _ _ _ h]; rfl
    rw [hn, List.take_zero, write_none]
    cases hs : Str.make alloc (ByteWriter.ofBuffer []).data with
    | error e => exact view_zero []
    | ok s =>
      simp only
      have hsz : s.size = 0 := by
        rw [Str.make] at hs
        split at hs
        · cases hs
        · split at hs
          · cases hs
          · cases hs; rfl
      obtain ⟨b, n⟩ := s
      simp only at hsz
      rw [hsz]
      exact view_zero b

/-- So it is not the hexadecimal text, except of the empty digest. -/
theorem C64_not_hex (alloc : Nat → Except Err MutView) (vector : Nat → Except Err (Vec Byte × List Byte))
    (hv : VectorOk vector) (d : List Byte) (hd : d ≠ []) : (toString alloc vector d).view ≠ Hex.text d := by
  rw [C64_empty_text alloc vector hv d]
  intro h
  have hl := Base16.text_length d
  rw [← h, List.length_nil] at hl
  exact hd (List.length_eq_zero_iff.mp (by omega))

/-- **C64** (partial: the length and the bytes, not the text): a digest made of a view holds its bytes in order, its length in
bits is 8 times their number, and indexing returns each byte and raises beyond the last. -/
theorem C64_digest_partial (alloc : Nat → Except Err MutView) (ha : Str.AllocOk alloc) (bytes : List Byte)
    (hl : bytes.length < 2 ^ 61) :
    (make alloc bytes = .throws ↔ ∃ e, alloc bytes.length = .error e) ∧
    ∀ d, make alloc bytes = .ok d → d = bytes ∧ getDigestLength d = 8 * bytes.length ∧
      ∀ i, index d i = (match bytes[i]? with | some b => .ok b | none => .throws) := by
  constructor
  · rw [make]
    cases h : alloc bytes.length with
    | error e => simp
    | ok v =>
      simp only
      constructor
      · intro h
        split at h <;> cases h
      · intro ⟨e, he⟩
        cases he
  · intro d hd
    have hdb : d = bytes := by
      rw [make] at hd
      cases h : alloc bytes.length with
      | error e => rw [h] at hd; cases hd
      | ok v =>
        rw [h] at hd
        simp only at hd
        have := (ha _ _ h).1
        rw [if_pos (by omega), List.drop_eq_nil_of_le (by omega), List.append_nil] at hd
        exact (Outcome.ok.inj hd).symm
    refine ⟨hdb, ?_, ?_⟩
    · rw [getDigestLength, hdb, size, wrap64_of_lt (by omega)]; omega
    · intro i
      rw [index, size, hdb]
      by_cases hi : i < bytes.length
      · rw [if_pos hi, List.getElem?_eq_getElem hi]
      · rw [if_neg hi, List.getElem?_eq_none (by omega)]

def heap (n : Nat) : Except Err MutView := .ok ⟨false, List.replicate n 0xCC#8⟩
def vectors (n : Nat) : Except Err (Vec Byte × List Byte) := .ok (Vec.make 1 n, List.replicate n 0xCC#8)

example : VectorOk vectors := fun _ _ _ h => by cases h; rfl
example : make heap [0xAB#8, 0x01#8] = .ok [0xAB#8, 0x01#8] ∧ getDigestLength [0xAB#8, 0x01#8] = 16 ∧
    (toString heap vectors [0xAB#8, 0x01#8]).view = [] ∧ Hex.text [0xAB#8, 0x01#8] ≠ [] := by decide +kernel

/-- The string returned has the length zero, whatever fails. -/
theorem C64_text_size (alloc : Nat → Except Err MutView) (vector : Nat → Except Err (Vec Byte × List Byte))
    (hv : VectorOk vector) (d : List Byte) : (toString alloc vector d).size = 0 := by
  rw [toString]
  cases h : vector (Base16.encodedSize (size d)) with
  | error e => rfl
  | ok r =>
    obtain ⟨buffer, chars⟩ := r
    simp only
    have hn : buffer.next = 0 := by rw [hv _ _ _ h]; rfl
    rw [hn, List.take_zero, write_none]
    cases hs : Str.make alloc (ByteWriter.ofBuffer []).data with
    | error e => rfl
    | ok s =>
      simp only
      rw [Str.make] at hs
      split at hs
      · cases hs
      · split at hs
        · cases hs
        · cases hs; rfl

example : (toString (fun _ => .error .nomem) (fun n => .ok (Vec.make 1 n, List.replicate n 7)) [1, 2]).size = 0 :=
  C64_text_size _ _ (fun _ _ _ h => by cases h; rfl) _

end Solace.MessageDigest
