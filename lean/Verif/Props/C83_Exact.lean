import Verif.Props.C83_DictionaryIteration
/-! C83: the room of a dictionary for all capacities and all memory resources. -/
namespace Solace.Dict
variable {K V : Type}

/-- **C83, exactly, the room**: a dictionary in given memory resources reports the number of values that fit, and takes as many
entries as keys and values fit; further ones are refused. -/
theorem C83_ofBytes_exact (szK szV kb vb : Nat) (hK : 0 < szK) (hV : 0 < szV) (hkb : kb < 2 ^ 64) (hvb : vb < 2 ^ 64)
    (ps : List (Put K V)) :
    capacity szV (ofBytes szK szV kb vb : Dict K V) = vb / szV ∧
    (runPuts szK szV (ofBytes szK szV kb vb) ps).2 =
      (ps.take (min (kb / szK) (vb / szV))).map (fun _ => .ok (.ok ())) ++
        (ps.drop (min (kb / szK) (vb / szV))).map (fun _ => .ok (.error .overflow)) := by
  refine ⟨rfl, ?_⟩
  have h0 : Entries szK szV (ofBytes szK szV kb vb : Dict K V) [] :=
    ⟨holds_ofBytes szK _ hK hkb, holds_ofBytes szV _ hV hvb⟩
  have h2 := (runPuts_spec ps h0).2
  rw [show room szK szV (ofBytes szK szV kb vb : Dict K V) = min (kb / szK) (vb / szV) from rfl,
    List.length_nil, Nat.sub_zero] at h2
  exact h2

/-- **C83, exactly when**: `capacity()` is the number of entries the dictionary takes if and only if as many keys fit as values. -/
theorem C83_capacity_iff (szK szV kb vb : Nat) (hK : 0 < szK) (hV : 0 < szV) (hkb : kb < 2 ^ 64) (hvb : vb < 2 ^ 64) (p : Put K V) :
    (∀ ps : List (Put K V), (runPuts szK szV (ofBytes szK szV kb vb) ps).2 =
      (ps.take (capacity szV (ofBytes szK szV kb vb : Dict K V))).map (fun _ => .ok (.ok ())) ++
        (ps.drop (capacity szV (ofBytes szK szV kb vb : Dict K V))).map (fun _ => .ok (.error .overflow))) ↔
      vb / szV ≤ kb / szK := by
  constructor
  · intro h
    by_cases hle : vb / szV ≤ kb / szK
    · exact hle
    · exfalso
      obtain ⟨hc, hr⟩ := C83_ofBytes_exact szK szV kb vb hK hV hkb hvb (List.replicate (vb / szV) p)
      have := h (List.replicate (vb / szV) p)
      rw [hr, hc, Nat.min_eq_left (by omega : kb / szK ≤ vb / szV)] at this
      simp only [List.drop_replicate, List.take_replicate, Nat.min_self, Nat.sub_self, List.replicate_zero, List.map_nil,
        List.append_nil, List.map_replicate, Nat.min_eq_left (by omega : kb / szK ≤ vb / szV)] at this
      have h1 := congrArg (fun l => l[kb / szK]?) this
      rw [List.getElem?_append_right (by simp), List.length_replicate, Nat.sub_self, List.getElem?_replicate_of_lt (by omega),
        List.getElem?_replicate_of_lt (by omega)] at h1
      cases h1
  · intro hle ps
    obtain ⟨hc, hr⟩ := C83_ofBytes_exact szK szV kb vb hK hV hkb hvb ps
    rw [hr, hc, Nat.min_eq_right hle]

/-- **C83, exactly, creation**: for every number of entries; the numbers of bytes are computed modulo 2^64. -/
theorem C83_make_exact (heapK heapV : Nat → Bool) (szK szV n : Nat) (hK : 0 < szK) (hV : 0 < szV) :
    let kb := n * szK % 2 ^ 64
    let vb := n * szV % 2 ^ 64
    if heapK kb = true ∧ heapV vb = true then
      ∃ d : Dict K V, make heapK heapV szK szV n = .ok d ∧ empty d = true ∧ size d = 0 ∧ capacity szV d = vb / szV ∧
        ∀ ps : List (Put K V), (runPuts szK szV d ps).2 =
          (ps.take (min (kb / szK) (vb / szV))).map (fun _ => .ok (.ok ())) ++
            (ps.drop (min (kb / szK) (vb / szV))).map (fun _ => .ok (.error .overflow))
    else make heapK heapV szK szV n = (.error .nomem : Except Err (Dict K V)) := by
  intro kb vb
  have hkb : kb < 2 ^ 64 := Nat.mod_lt _ (by decide)
  have hvb : vb < 2 ^ 64 := Nat.mod_lt _ (by decide)
  have hwK : wrap64 (n * szK) = kb := wrap64_def _
  have hwV : wrap64 (n * szV) = vb := wrap64_def _
  split
  · rename_i h
    refine ⟨ofBytes szK szV kb vb, ?_, rfl, rfl, rfl, fun ps => (C83_ofBytes_exact szK szV kb vb hK hV hkb hvb ps).2⟩
    simp only [make, makeVector, Vec.allocate, hwK, hwV, if_pos h.1, if_pos h.2]
    rfl
  · rename_i h
    simp only [make, makeVector, Vec.allocate, hwK, hwV]
    by_cases h1 : heapK kb = true
    · have h2 : ¬heapV vb = true := fun h2 => h ⟨h1, h2⟩
      simp only [if_pos h1, if_neg h2]
    · simp only [if_neg h1]

theorem le_mod_div (n sz : Nat) (h : 0 < sz) : n ≤ n * sz % 2 ^ 64 / sz ↔ n * sz < 2 ^ 64 := by
  rw [Nat.le_div_iff_mul_le h]
  have := Nat.mod_lt (n * sz) (by decide : 2 ^ 64 > 0)
  constructor
  · intro h; omega
  · intro h; rw [Nat.mod_eq_of_lt h]; exact Nat.le_refl _

/-- **C83, exactly when**: a dictionary that was made for `n` entries takes `n` if and only if neither number of bytes exceeds 64
bits. -/
theorem C83_make_iff (heapK heapV : Nat → Bool) (szK szV n : Nat) (hK : 0 < szK) (hV : 0 < szV) (d : Dict K V)
    (h : make heapK heapV szK szV n = .ok d) (ps : List (Put K V)) (hps : ps.length = n) :
    (∀ r ∈ (runPuts szK szV d ps).2, r = .ok (.ok ())) ↔ n * szK < 2 ^ 64 ∧ n * szV < 2 ^ 64 := by
  have hm := C83_make_exact (K := K) (V := V) heapK heapV szK szV n hK hV
  simp only at hm
  rw [← le_mod_div n szK hK, ← le_mod_div n szV hV]
  split at hm
  · obtain ⟨d', h1, _, _, _, h2⟩ := hm
    rw [h] at h1
    cases h1
    rw [h2]
    constructor
    · intro hr
      by_cases hle : n ≤ min (n * szK % 2 ^ 64 / szK) (n * szV % 2 ^ 64 / szV)
      · omega
      · exfalso
        have := hr (.ok (.error .overflow)) (List.mem_append_right _ (by
          rw [List.map_const', List.mem_replicate, List.length_drop]
          exact ⟨by omega, rfl⟩))
        cases this
    · rintro ⟨h3, h4⟩ r hr
      rw [List.drop_eq_nil_of_le (by omega), List.map_nil, List.append_nil, List.map_const', List.mem_replicate] at hr
      exact hr.2
  · rw [h] at hm
    cases hm

example : make (fun _ => true) (fun _ => true) 8 1 (2 ^ 61 + 2) = (.ok (ofBytes 8 1 16 (2 ^ 61 + 2)) : Except Err (Dict Nat Nat)) := by
  have h1 : wrap64 ((2 ^ 61 + 2) * 8) = 16 := by rw [wrap64_def]
  have h2 : wrap64 ((2 ^ 61 + 2) * 1) = 2 ^ 61 + 2 := by rw [wrap64_def]
  simp only [make, makeVector, Vec.allocate, h1, h2]
  rfl

end Solace.Dict
