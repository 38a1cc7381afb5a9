import Verif.Props.C21_C28_StringView
import Verif.Props.C32_C33_StringBuilder
/-! C27, C32: the exact counts and contents beyond 65535. -/
namespace Solace

namespace StringView
open Strings

/-- **C27**, the reported count of every variant: the number of pieces modulo 65536. There are never more than 65536 pieces,
so it is right exactly when there are not 65536, and then it is 0. -/
theorem C27_count_exact (s d : List Byte) (c : Byte) (hd : d ≠ []) (hs : s.length < 2 ^ 16) :
    (∀ ps, IsSplit d s ps → ps.length ≤ 65536 ∧ ∃ reported, reported = ps.length % 65536 ∧
      (reported = ps.length ↔ ps.length ≠ 65536) ∧
      ∀ fuel, s.length < fuel → split1 fuel s d = some (ps, reported) ∧ (split3 fuel s d).map (·.2) = some reported) ∧
    (∀ ps, IsSplit [c] s ps → ps.length ≤ 65536 ∧ splitChar s c = (ps, ps.length % 65536) ∧
      ((splitChar s c).2 = ps.length ↔ ps.length ≠ 65536)) := by
  constructor
  · intro ps hps
    have hle := scan_length_le d [] s hd
    have hu := isSplit_unique hps (scan_spec d s hd)
    rw [hu]
    refine ⟨by omega, _, rfl, by omega, fun fuel hf => ⟨?_, ?_⟩⟩
    · rw [split1_eq s d hd hs fuel hf, wrap16_def]
    · rw [split3_eq s d hd hs fuel hf, wrap16_def]; rfl
  · intro ps hps
    have hd : [c] ≠ [] := by simp
    have hle := scan_length_le [c] [] s hd
    have hu := isSplit_unique hps (scan_spec [c] s hd)
    rw [hu, splitChar_eq s c hs, wrap16_def]
    exact ⟨by omega, rfl, by simp only; omega⟩

example : IsSplit [0x2C#8] [0x61#8, 0x2C#8, 0x62#8] [[0x61#8], [0x62#8]] := by
  have := scan_spec [0x2C#8] [0x61#8, 0x2C#8, 0x62#8] (by simp)
  rwa [show scan [0x2C#8] [] [0x61#8, 0x2C#8, 0x62#8] = [[0x61#8], [0x62#8]] by decide +kernel] at this

end StringView

namespace StringBuilder
open ByteWriter

/-- **C32** for a buffer of any size: the bytes are accumulated as for small ones; the view, the length and the string made
show the first `length % 65536` of them, so they are right exactly when there are fewer than 65536. -/
theorem C32_any_size (buf : List Byte) (items : List Item) (hb : buf.length < 2 ^ 64) (hv : ∀ i ∈ items, i.Valid) :
    ∃ out, Accumulates buf.length [] items out ∧
      view (run (ofBuffer buf) items) = out.take (out.length % 65536) ∧
      length (run (ofBuffer buf) items) = out.length % 65536 ∧
      (build (run (ofBuffer buf) items)).view = out.take (out.length % 65536) ∧
      (empty (run (ofBuffer buf) items) = true ↔ out = []) ∧
      (view (run (ofBuffer buf) items) = out ↔ out.length < 65536) ∧
      (∀ from_ to, to ≤ out.length → from_ ≤ to → substring (run (ofBuffer buf) items) from_ to =
        (out.drop from_).take ((to - from_) % 65536)) := by
  obtain ⟨out, h1, h⟩ := run_holds items hv (ofBuffer_holds buf hb)
  generalize run (ofBuffer buf) items = w at h
  obtain ⟨⟨hr1, hr2, hr3⟩, hl, hd, hct, hp⟩ := h
  have hvw : w.viewWritten = out := by
    rw [viewWritten, slice_eq, List.drop_zero, Nat.sub_zero]; exact hct
  have hview : view w = out.take (out.length % 65536) := by rw [view, narrowView, hvw, wrap16_def]
  refine ⟨out, h1, hview, ?_, ?_, ?_, ?_, fun from_ to ht hf => ?_⟩
  · rw [length, hp, wrap16_def]
  · rw [build, Str.view, length, hp, wrap16_def]
    simp only
    rw [slice_eq, List.drop_zero, Nat.sub_zero]
    conv => rhs; rw [← hct, content, List.take_take, List.length_take]
    congr 1
    omega
  · rw [empty, hp, beq_iff_eq, List.length_eq_zero_iff]
  · rw [hview]
    constructor
    · intro h
      have := congrArg List.length h
      rw [List.length_take] at this
      omega
    · intro h
      rw [Nat.mod_eq_of_lt h, List.take_length]
  · rw [substring, narrowView, hvw, slice_eq, List.take_take, wrap16_def, List.length_take, List.length_drop]
    congr 1
    omega

example : ∃ items : List Item, (∀ i ∈ items, i.Valid) ∧ 65536 ≤ (items.map fun _ => 1).sum :=
  ⟨List.replicate 65536 (.char 0x61#8), fun i hi => by rw [List.eq_of_mem_replicate hi]; trivial, by
    rw [List.map_replicate, List.sum_replicate_nat]; omega⟩

end StringBuilder
end Solace
