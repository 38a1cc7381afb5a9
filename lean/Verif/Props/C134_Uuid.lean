import Verif.Props.C134_Compare
import Verif.Props.C37_C39_Uuid
/-
C134: UUIDs are equal exactly when their texts are.
-/
namespace Solace.Cmp

/-- **C134**: comparing UUIDs, wherever they lie, is comparing the texts that `toString` writes for them. -/
theorem C134_uuid_text (ids : Ids) (hi : ids.Real) (p : List Nat) (a b : Ty.uuid.Val) (buffer : List Byte) (hb : 36 ≤ buffer.length)
    (hm : buffer.length < 2 ^ 64) :
    eq ids .uuid p a b = true ↔ Uuid.toStringInto a.1 buffer = Uuid.toStringInto b.1 buffer := by
  rw [C134_exact ids hi .uuid trivial trivial p a b]
  constructor
  · intro h; rw [h]
  · intro h
    have h1 := (Uuid.C37_round_trip a.1 a.2 buffer (List.replicate 16 0#8) [] hb hm List.length_replicate).2.2
    have h2 := (Uuid.C37_round_trip b.1 b.2 buffer (List.replicate 16 0#8) [] hb hm List.length_replicate).2.2
    rw [h, h2] at h1
    injection h1 with h1
    injection h1 with h1
    exact Subtype.ext h1.symm

/-- The hypotheses are met: a buffer of 36 bytes, two UUIDs that differ in the last bit. -/
example : 36 ≤ (List.replicate 36 0#8).length ∧
    eq apart .uuid [] ⟨List.replicate 16 0#8, rfl⟩ ⟨List.replicate 15 0#8 ++ [1#8], rfl⟩ = false := by decide

end Solace.Cmp
