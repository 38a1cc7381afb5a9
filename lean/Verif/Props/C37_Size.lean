import Verif.Props.C37_C39_Uuid
/-
C37: the length of the string that `UUID::toString` returns.
-/
namespace Solace.Uuid

/-- **C37**: the string returned has 36 characters, or none if there was no memory for them or the memory was a null view. -/
theorem C37_size (alloc : Nat → Except Err MutView) (ha : Str.AllocOk alloc) (buffer u : List Byte) (hu : u.length = 16) (hb : buffer.length = 36) :
    (toString alloc buffer u).size = 36 ∨ ((toString alloc buffer u).size = 0 ∧ ∀ v, alloc 36 = .ok v → v.null = true) := by
  have h1 := toStringInto_eq u buffer hu (by omega) (by omega)
  have h2 : (text u).length = 36 := (C37_round_trip u hu buffer (List.replicate 16 0) [] (by omega) (by omega) (by simp)).2.1
  rw [toString, h1]
  cases hv : alloc 36 with
  | error e =>
    refine .inr ?_
    rw [Str.make, h2, hv]
    exact ⟨rfl, fun v h => by cases h⟩
  | ok v =>
    have hlen := ha 36 v hv
    rw [Str.make, h2, hv]
    simp only
    cases hnn : v.null with
    | true =>
      refine .inr ⟨?_, fun w h => by cases h; exact hnn⟩
      rw [MutView.write, if_pos (by simp [hnn])]
    | false =>
      refine .inl ?_
      rw [MutView.write, if_neg (by simp [hnn]), if_neg (by rw [h2]; have := hlen.1; omega)]

/-- The hypotheses are met. -/
example : (toString (fun _ => .error .nomem) (List.replicate 36 0) (List.replicate 16 0)).size = 0 ∧
    (toString (fun n => .ok ⟨false, List.replicate n 0⟩) (List.replicate 36 0) (List.replicate 16 0)).size = 36 := by decide +kernel

end Solace.Uuid
