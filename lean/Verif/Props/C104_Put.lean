import Verif.Props.C104_Alignment
/-
C104, what a dictionary in aligned buffers does with one more entry.
-/
namespace Solace.Align

/-- **C104**, dictionaries in aligned buffers: `put` is defined, and says that there was room exactly when both buffers had room for one
more object; then both have one more, otherwise both have what they had. -/
theorem C104_put {tk tv : Ty} (htk : tk.Valid) (htv : tv.Valid) (ks vs : Vect) (hk : ks.Ok tk) (hv : vs.Ok tv) :
    ((ks.next < ks.buf.size / tk.size ∧ vs.next < vs.buf.size / tv.size) →
      put tk tv ks vs = .ok (⟨ks.buf, ks.next + 1⟩, ⟨vs.buf, vs.next + 1⟩, true)) ∧
    (¬ (ks.next < ks.buf.size / tk.size ∧ vs.next < vs.buf.size / tv.size) → put tk tv ks vs = .ok (ks, vs, false)) := by
  rw [put, emplaceBack_aligned htv hv]
  by_cases h1 : vs.next < vs.buf.size / tv.size
  · have hv1 : ({ vs with next := vs.next + 1 } : Vect).Ok tv := ⟨hv.1, hv.2.1, h1⟩
    rw [if_pos h1]
    simp only
    rw [emplaceBack_aligned htk hk]
    by_cases h2 : ks.next < ks.buf.size / tk.size
    · rw [if_pos h2]
      exact ⟨fun _ => rfl, fun h => absurd ⟨h2, h1⟩ h⟩
    · rw [if_neg h2]
      simp only
      rw [popBack_aligned htv hv1, if_neg (Nat.succ_ne_zero _)]
      exact ⟨fun h => absurd h.1 h2, fun _ => rfl⟩
  · rw [if_neg h1]
    exact ⟨fun h => absurd h.2 h1, fun _ => rfl⟩

-- Room for two keys and one value, nothing stored yet.
example : (⟨⟨0x7000, 16⟩, 0⟩ : Vect).Ok ⟨8, 8⟩ ∧ (⟨⟨0x8000, 8⟩, 0⟩ : Vect).Ok ⟨4, 4⟩ :=
  ⟨⟨by show 0x7000 + 16 < 2 ^ 64; decide, by decide, by decide⟩, ⟨by show 0x8000 + 8 < 2 ^ 64; decide, by decide, by decide⟩⟩

end Solace.Align
