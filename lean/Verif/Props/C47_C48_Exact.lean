import Verif.Props.C47_Dictionary
import Verif.Props.C48_C50_PathText
/-! C47 with constructors that throw; exactly when C47 and C48 hold. -/
namespace Solace

namespace Dict
variable {K V : Type}

/-- What a dictionary with room for `nk` keys and `nv` values is to its user: the keys and the values, in two lists. -/
structure Lists (K V : Type) where
  keys : List K
  values : List V

/-- A call of `put`; `none`: the constructor of the key or the value throws. The value comes first. When its key cannot be
stored for lack of room it is taken back, when the constructor of the key throws it is not. -/
def specPut (nk nv : Nat) (s : Lists K V) (k : Option K) (v : Option V) : Lists K V × Outcome (Except Err Unit) :=
  if nv ≤ s.values.length then (s, .ok (.error .overflow))
  else match v with
    | none => (s, .throws)
    | some v =>
      if nk ≤ s.keys.length then (s, .ok (.error .overflow))
      else match k with
        | none => (⟨s.keys, s.values ++ [v]⟩, .throws)
        | some k => (⟨s.keys ++ [k], s.values ++ [v]⟩, .ok (.ok ()))

def specPuts (nk nv : Nat) : Lists K V → List (Option K × Option V) → Lists K V × List (Outcome (Except Err Unit))
  | s, [] => (s, [])
  | s, p :: ps =>
    ((specPuts nk nv (specPut nk nv s p.1 p.2).1 ps).1, (specPut nk nv s p.1 p.2).2 :: (specPuts nk nv (specPut nk nv s p.1 p.2).1 ps).2)

/-- Calls of `put`, with constructors that may throw. -/
def tryPuts (szK szV : Nat) : Dict K V → List (Option K × Option V) → Dict K V × List (Outcome (Except Err Unit))
  | d, [] => (d, [])
  | d, p :: ps =>
    ((tryPuts szK szV (put szK szV d p.1 p.2).1 ps).1, (put szK szV d p.1 p.2).2 :: (tryPuts szK szV (put szK szV d p.1 p.2).1 ps).2)

structure HoldsLists (szK szV : Nat) (d : Dict K V) (s : Lists K V) : Prop where
  keys : Vec.Holds szK d.lookup s.keys
  values : Vec.Holds szV d.values s.values
  le : s.keys.length ≤ s.values.length

theorem put_lists {szK szV nk nv : Nat} {d : Dict K V} {s : Lists K V} (h : HoldsLists szK szV d s)
    (hk : d.lookup.bytes / szK = nk) (hv : d.values.bytes / szV = nv) (k : Option K) (v : Option V) :
    (put szK szV d k v).2 = (specPut nk nv s k v).2 ∧ HoldsLists szK szV (put szK szV d k v).1 (specPut nk nv s k v).1 ∧
    (put szK szV d k v).1.lookup.bytes / szK = nk ∧ (put szK szV d k v).1.values.bytes / szV = nv := by
  have fK := h.keys.fits
  have fV := h.values.fits
  rw [specPut.eq_def]
  by_cases h1 : nv ≤ s.values.length
  · have := Vec.emplaceBack_full h.values v (by omega)
    rw [if_pos h1, put, this]
    exact ⟨rfl, h, hk, hv⟩
  · rw [if_neg h1]
    cases v with
    | none =>
      have := Vec.emplaceBack_throws h.values (by omega)
      rw [put, this]
      exact ⟨rfl, h, hk, hv⟩
    | some v =>
      obtain ⟨vs, g1, g2, g3⟩ := Vec.emplaceBack_room h.values v (by omega)
      simp only
      by_cases h2 : nk ≤ s.keys.length
      · have g4 := Vec.emplaceBack_full h.keys k (by omega)
        obtain ⟨vs', g5, g6, g7⟩ := Vec.popBack_concat g2
        rw [if_pos h2, put, g1]
        simp only [g4, g5]
        exact ⟨trivial, ⟨h.keys, g6, h.le⟩, hk, by rw [g7, g3]; exact hv⟩
      · rw [if_neg h2]
        cases k with
        | none =>
          have g4 := Vec.emplaceBack_throws h.keys (by omega)
          rw [put, g1]
          simp only [g4]
          refine ⟨trivial, ⟨h.keys, g2, ?_⟩, hk, by rw [g3]; exact hv⟩
          have := h.le
          simp only [List.length_append, List.length_singleton]
          omega
        | some k =>
          obtain ⟨ks, g4, g5, g6⟩ := Vec.emplaceBack_room h.keys k (by omega)
          rw [put, g1]
          simp only [g4]
          refine ⟨trivial, ⟨g5, g2, ?_⟩, by rw [g6]; exact hk, by rw [g3]; exact hv⟩
          have := h.le
          simp only [List.length_append, List.length_singleton]
          omega

section
variable [DecidableEq K]

theorem findLoop_lists (values : List (Option V)) (key : K) (vs : List V) (ks : List K) : ∀ i,
    (∀ j, j < ks.length → values[i + j]? = some (vs[i + j]?) ∧ i + j < vs.length) →
    findLoop values key (ks.map some) i = .ok (if key ∈ ks then vs[i + ks.idxOf key]? else none) := by
  induction ks with
  | nil => intro i _; rfl
  | cons k ks ih =>
    intro i h
    rw [List.map_cons, findLoop]
    by_cases hk : k = key
    · subst hk
      obtain ⟨h1, h2⟩ := h 0 (by simp)
      rw [Nat.add_zero] at h1 h2
      rw [if_pos rfl, h1, List.getElem?_eq_getElem h2, if_pos List.mem_cons_self, List.idxOf_cons_self, Nat.add_zero,
        List.getElem?_eq_getElem h2]
    · rw [if_neg hk, ih (i + 1) (fun j hj => by
        have := h (j + 1) (by simpa using hj)
        rwa [show i + (j + 1) = i + 1 + j by omega] at this)]
      have hb : (k == key) = false := beq_false_of_ne hk
      rw [List.idxOf_cons, hb]
      simp only [List.mem_cons, show ¬(key = k) from fun h => hk h.symm, false_or, cond_false]
      rw [show i + (ks.idxOf key + 1) = i + 1 + ks.idxOf key by omega]

theorem find_lists {szK szV : Nat} {d : Dict K V} {s : Lists K V} (h : HoldsLists szK szV d s) (key : K) :
    find szK d key = .ok (if key ∈ s.keys then s.values[s.keys.idxOf key]? else none) := by
  have hk : d.lookup.cells.take (Vec.viewSize szK d.lookup) = s.keys.map some := by rw [h.keys.viewSize_eq, h.keys.content]
  rw [find, hk, findLoop_lists _ key s.values s.keys 0 (fun j hj => ?_)]
  · simp only [Nat.zero_add]
  · have hlt : j < s.values.length := Nat.lt_of_lt_of_le hj h.le
    have := congrArg (·[j]?) h.values.content
    refine ⟨?_, by omega⟩
    simp only [Nat.zero_add]
    simpa [List.getElem?_take, hlt] using this

theorem contains_lists {szK szV : Nat} {d : Dict K V} {s : Lists K V} (h : HoldsLists szK szV d s) (key : K) :
    contains szK d key = .ok (decide (key ∈ s.keys)) := by
  have hk : d.lookup.cells.take (Vec.viewSize szK d.lookup) = s.keys.map some := by rw [h.keys.viewSize_eq, h.keys.content]
  rw [contains, hk]
  generalize s.keys = ks
  induction ks with
  | nil => rfl
  | cons k ks ih =>
    rw [List.map_cons, containsLoop]
    by_cases hk : key = k
    · rw [if_pos hk, hk]; simp
    · rw [if_neg hk, ih]; simp [hk]

omit [DecidableEq K] in
theorem tryPuts_lists {szK szV nk nv : Nat} (ps : List (Option K × Option V)) : ∀ {d : Dict K V} {s : Lists K V},
    HoldsLists szK szV d s → d.lookup.bytes / szK = nk → d.values.bytes / szV = nv →
    (tryPuts szK szV d ps).2 = (specPuts nk nv s ps).2 ∧ HoldsLists szK szV (tryPuts szK szV d ps).1 (specPuts nk nv s ps).1 := by
  induction ps with
  | nil => intro d s h _ _; exact ⟨rfl, h⟩
  | cons p ps ih =>
    intro d s h hk hv
    obtain ⟨h1, h2, h3, h4⟩ := put_lists h hk hv p.1 p.2
    obtain ⟨h5, h6⟩ := ih h2 h3 h4
    rw [tryPuts, specPuts]
    exact ⟨by rw [h1, h5], h6⟩

/-- **C47** for every history, constructors that throw included: the dictionary is a list of keys and a list of values;
`find` gives the value at the position of the first equal key, so each key constructor that threw moves the values of the
later keys by one. No history leads to undefined behaviour. -/
theorem C47_with_exceptions (szK szV kb vb : Nat) (hK : 0 < szK) (hV : 0 < szV) (hkb : kb < 2 ^ 64) (hvb : vb < 2 ^ 64)
    (ps : List (Option K × Option V)) (k : K) :
    let s := (specPuts (kb / szK) (vb / szV) (⟨[], []⟩ : Lists K V) ps).1
    (tryPuts szK szV (ofBytes szK szV kb vb) ps).2 = (specPuts (kb / szK) (vb / szV) ⟨[], []⟩ ps).2 ∧
    find szK (tryPuts szK szV (ofBytes szK szV kb vb) ps).1 k = .ok (if k ∈ s.keys then s.values[s.keys.idxOf k]? else none) ∧
    contains szK (tryPuts szK szV (ofBytes szK szV kb vb) ps).1 k = .ok (decide (k ∈ s.keys)) ∧
    s.keys.length ≤ s.values.length ∧ (k ∈ s.keys → s.keys.idxOf k < s.values.length) := by
  have h0 : HoldsLists szK szV (ofBytes szK szV kb vb : Dict K V) ⟨[], []⟩ :=
    ⟨holds_ofBytes szK kb hK hkb, holds_ofBytes szV vb hV hvb, Nat.le_refl _⟩
  obtain ⟨h1, h2⟩ := tryPuts_lists ps h0 (nk := kb / szK) (nv := vb / szV) rfl rfl
  refine ⟨h1, find_lists h2 k, contains_lists h2 k, h2.le, fun hk => ?_⟩
  exact Nat.lt_of_lt_of_le (List.idxOf_lt_length_of_mem hk) h2.le

/-- A key constructor throws at the second put: from then on the values are one off. -/
example : (specPuts 8 8 (⟨[], []⟩ : Lists Nat Nat) [(some 1, some 10), (none, some 20), (some 3, some 30)]).1.values =
    [10, 20, 30] ∧
    (specPuts 8 8 (⟨[], []⟩ : Lists Nat Nat) [(some 1, some 10), (none, some 20), (some 3, some 30)]).1.keys = [1, 3] := by
  decide

/-- **C47**, exactly for which key it holds after puts that do not throw: the first and the last successful put of the key
gave the same value. -/
theorem C47_iff (szK szV kb vb : Nat) (hK : 0 < szK) (hV : 0 < szV) (hkb : kb < 2 ^ 64) (hvb : vb < 2 ^ 64)
    (ps : List (Put K V)) (k : K) :
    find szK (runPuts szK szV (ofBytes szK szV kb vb) ps).1 k = .ok (latest (ps.take (min (kb / szK) (vb / szV))) k) ↔
      earliest (ps.take (min (kb / szK) (vb / szV))) k = latest (ps.take (min (kb / szK) (vb / szV))) k := by
  rw [(C47_first_put szK szV kb vb hK hV hkb hvb ps k).2.1]
  exact ⟨fun h => Outcome.ok.inj h, fun h => by rw [h]⟩

end
end Dict

namespace Path
open Strings StringView Str

theorem isSplit_separable (d : List Byte) (cs : List (List Byte)) : ∀ s, IsSplit d s cs → Separable d cs := by
  induction cs with
  | nil => intro s h; exact absurd h (by simp [IsSplit])
  | cons c cs ih =>
    intro s h
    match cs, ih, h with
    | [], _, h => exact h.2
    | q :: qs, ih, h =>
      obtain ⟨t, _, h2, h3⟩ := h
      exact ⟨h2, ih t h3⟩

/-- **C48**, exactly the paths that are read back (memory available): the root, and the paths whose text is shorter than
65536, which do not end with an empty component and whose components are separable by the delimiter. -/
theorem C48_iff {alloc : Nat → Except Err MutView} {vec : Nat → Except Err Unit} (h : Plenty alloc vec) (d : List Byte)
    (hd : d ≠ []) (cs : List (List Byte)) (hne : cs ≠ []) (hd16 : d.length < 2 ^ 16) (hn : cs.length < 2 ^ 64) (fuel : Nat)
    (hf : 2 ^ 16 ≤ fuel) :
    (∃ t, toString alloc ⟨false, cs⟩ d = .ok t ∧ parse alloc vec fuel t d = some (.ok ⟨false, cs⟩)) ↔
      cs = [[]] ∨ ((d.intercalate cs).length < 2 ^ 16 ∧ cs.getLast? ≠ some [] ∧ Separable d cs) := by
  constructor
  · rintro ⟨t, ht, hp⟩
    by_cases hr : cs = [[]]
    · exact .inl hr
    · refine .inr ?_
      have hm : meant d cs = d.intercalate cs := by rw [meant, if_neg hr]
      rw [toString_eq h d cs hne hn hd16, hm] at ht
      have ht := Outcome.ok.inj ht
      have hempty : t ≠ [] := by
        rintro rfl
        have hs : scan d [] [] = [[]] := by rw [scan_nil _ _ hd]
        rw [parse_plenty h [] d hd (by simp) fuel (by simp; omega) (by rw [hs]; simp), hs] at hp
        exact hr (congrArg Path.comps (Except.ok.inj (Option.some.inj hp))).symm
      by_cases hl : (d.intercalate cs).length < 2 ^ 16
      · rw [if_pos hl] at ht
        subst ht
        have hx : ∀ c, d = [c] → d.intercalate cs ≠ List.replicate 65535 c := by
          rintro c rfl he
          rw [he, (C49_all_delimiters h c fuel (by omega)).1] at hp
          exact hne (congrArg Path.comps (Except.ok.inj (Option.some.inj hp))).symm
        have hpl := pieces_lt _ d hd hl hx
        rw [parse_plenty h _ d hd hl fuel (by omega) hpl] at hp
        have hk : kept (scan d [] (d.intercalate cs)) = cs := congrArg Path.comps (Except.ok.inj (Option.some.inj hp))
        have hsp := scan_spec d (d.intercalate cs) hd
        obtain ⟨k1, k2, k3⟩ := meant_kept d _ hd _ hsp
        rw [hk] at k1 k2 k3
        have hnd : d.intercalate cs ≠ d := by
          intro e
          rw [e, scan_root d hd] at hk
          exact hr hk.symm
        have hlast : (scan d [] (d.intercalate cs)).getLast? ≠ some [] := by
          intro e
          have := congrArg List.length (k2 hempty hnd e)
          rw [hm, List.length_append] at this
          have := List.length_pos_iff.mpr hd
          omega
        have hne' : scan d [] (d.intercalate cs) ≠ [] := scan_ne_nil _ _ _ hd
        rw [kept_of_last _ hne' hlast] at hk
        rw [hk] at hlast
        rw [hk] at hsp
        exact ⟨hl, hlast, isSplit_separable d cs _ hsp⟩
      · rw [if_neg hl] at ht
        exact absurd ht.symm hempty
  · rintro (hr | ⟨h1, h2, h3⟩)
    · exact C48_parse_print_partial h d hd cs hne (.inl hr) (.inl hr) (by rw [meant, if_pos hr]; exact hd16) hd16 hn fuel hf
    · refine C48_parse_print_partial h d hd cs hne (.inr h2) (.inr h3) ?_ hd16 hn fuel hf
      rw [meant]; split <;> assumption

/-- "a", "b" is read back, "a", "" is not. -/
example : Separable [0x2F#8] [[0x61#8], [0x62#8]] ∧ ([[0x61#8], []] : List (List Byte)).getLast? = some [] :=
  ⟨separable_char _ _ (by decide), rfl⟩

end Path
end Solace
