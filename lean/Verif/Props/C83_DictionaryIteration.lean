import Verif.Model.DictionaryIteration
import Verif.Props.C47_Dictionary
/-
C83: going through a dictionary shows every entry once, in the order of the puts; a dictionary holds as many entries as its
capacity.
-/
namespace Solace.Dict
variable {K V : Type}

theorem holds_get {α : Type} {sz : Nat} {v : Vec α} {xs : List α} (h : Vec.Holds sz v xs) (i : Nat) (hi : i < xs.length) :
    v.cells[i]? = some (some xs[i]) := by
  have := congrArg (·[i]?) h.content
  simpa [List.getElem?_take_of_lt hi, hi] using this

/-- From index `i` on, the loop over equally many keys and values gives the remaining pairs. -/
theorem iterateLoop_eq {szK szV : Nat} {d : Dict K V} {es : List (K × V)} (h : Entries szK szV d es) : ∀ fuel i,
    i ≤ es.length → es.length - i < fuel → iterateLoop d (es.length, es.length) fuel (i, i) = some (.ok (es.drop i)) := by
  intro fuel
  induction fuel with
  | zero => intro i _ hf; omega
  | succ fuel ih =>
    intro i hi hf
    by_cases he : i = es.length
    · subst he
      simp [iterateLoop]
    · have hlt : i < es.length := by omega
      have hk := holds_get h.1 i (by simpa using hlt)
      have hv := holds_get h.2 i (by simpa using hlt)
      have hentry : entryAt d (i, i) = .ok es[i] := by
        simp only [entryAt, hk, hv, List.getElem_map]
      rw [iterateLoop, if_pos (.inl he), hentry]
      simp only [ih (i + 1) (by omega) (by omega), Option.map_some, Outcome.bind_ok]
      rw [← List.getElem_cons_drop hlt]

theorem viewSize_holds {α : Type} {sz : Nat} {v : Vec α} {xs : List α} (h : Vec.Holds sz v xs) : Vec.viewSize sz v = xs.length :=
  h.viewSize_eq

theorem iterate_eq {szK szV : Nat} {d : Dict K V} {es : List (K × V)} (h : Entries szK szV d es) (fuel : Nat)
    (hf : es.length < fuel) : iterate fuel szK szV d = some (.ok es) := by
  rw [iterate, viewSize_holds h.1, viewSize_holds h.2, List.length_map, List.length_map,
    iterateLoop_eq h fuel 0 (Nat.zero_le _) (by omega), List.drop_zero]

/-- **C83**, iteration, for every history of puts: every successful put is met once, in order, and nothing else; the number of
entries met is `size()`, and `empty()` tells whether there is any. -/
theorem C83_iterate (szK szV kb vb : Nat) (hK : 0 < szK) (hV : 0 < szV) (hkb : kb < 2 ^ 64) (hvb : vb < 2 ^ 64)
    (ps : List (Put K V)) (fuel : Nat) (hf : ps.length < fuel) :
    let d := (runPuts szK szV (ofBytes szK szV kb vb) ps).1
    let kept := ps.take (min (kb / szK) (vb / szV))
    iterate fuel szK szV d = some (.ok (kept.map fun p => (p.key, p.value))) ∧
      size d = kept.length ∧ (empty d = true ↔ kept = []) := by
  intro d kept
  have h0 : Entries szK szV (ofBytes szK szV kb vb : Dict K V) [] := ⟨holds_ofBytes szK kb hK hkb, holds_ofBytes szV vb hV hvb⟩
  have hr : room szK szV (ofBytes szK szV kb vb : Dict K V) = min (kb / szK) (vb / szV) := rfl
  obtain ⟨h1, -⟩ := runPuts_spec ps h0
  rw [hr, List.length_nil, Nat.sub_zero, List.nil_append] at h1
  have hn : d.values.next = kept.length := by
    rw [h1.2.next, List.length_map, List.length_map]
  refine ⟨iterate_eq h1 fuel ?_, hn, ?_⟩
  · rw [List.length_map, List.length_take]; omega
  · rw [empty, hn, beq_iff_eq, List.length_eq_zero_iff]

/-- **C83**, iteration and search: an entry is found by `find` exactly if it is met by the iteration before any other entry with
that key. -/
theorem C83_find [DecidableEq K] {szK szV : Nat} {d : Dict K V} {es : List (K × V)} (h : Entries szK szV d es) (fuel : Nat)
    (hf : es.length < fuel) (k : K) (v : V) :
    iterate fuel szK szV d = some (.ok es) ∧
    (find szK d k = .ok (some v) ↔ ∃ before after, es = before ++ (k, v) :: after ∧ ∀ e ∈ before, e.1 ≠ k) := by
  refine ⟨iterate_eq h fuel hf, ?_⟩
  rw [find_eq h]
  simp only [Outcome.ok.injEq]
  clear h hf
  induction es with
  | nil => simp [firstIn]
  | cons e es ih =>
    rw [firstIn]
    by_cases he : e.1 = k
    · rw [if_pos he]
      constructor
      · intro hv
        refine ⟨[], es, ?_, by simp⟩
        rw [← he, ← Option.some.inj hv]
        rfl
      · rintro ⟨before, after, h1, h2⟩
        cases before with
        | nil =>
          simp only [List.nil_append, List.cons.injEq] at h1
          rw [h1.1]
        | cons b bs =>
          simp only [List.cons_append, List.cons.injEq] at h1
          exact absurd (h1.1 ▸ he) (h2 b List.mem_cons_self)
    · rw [if_neg he, ih]
      constructor
      · rintro ⟨before, after, h1, h2⟩
        refine ⟨e :: before, after, by rw [h1]; rfl, ?_⟩
        intro x hx
        rcases List.mem_cons.1 hx with hx | hx
        · rw [hx]; exact he
        · exact h2 x hx
      · rintro ⟨before, after, h1, h2⟩
        cases before with
        | nil =>
          simp only [List.nil_append, List.cons.injEq] at h1
          exact absurd (by rw [h1.1]) he
        | cons b bs =>
          simp only [List.cons_append, List.cons.injEq] at h1
          exact ⟨bs, after, h1.2, fun x hx => h2 x (List.mem_cons_of_mem _ hx)⟩

/-- **C83**, creation with a capacity (partial: the sizes in bytes must not exceed 64 bits): if both allocations succeed the
dictionary is empty, has exactly that capacity, and takes exactly that many entries; otherwise an error is returned. -/
theorem C83_make_partial (heapK heapV : Nat → Bool) (szK szV n : Nat) (hK : 0 < szK) (hV : 0 < szV) (hnK : n * szK < 2 ^ 64)
    (hnV : n * szV < 2 ^ 64) :
    if heapK (n * szK) = true ∧ heapV (n * szV) = true then
      ∃ d : Dict K V, make heapK heapV szK szV n = .ok d ∧ empty d = true ∧ size d = 0 ∧ capacity szV d = n ∧
        ∀ ps : List (Put K V), (runPuts szK szV d ps).2 =
          (ps.take n).map (fun _ => .ok (.ok ())) ++ (ps.drop n).map (fun _ => .ok (.error .overflow))
    else make heapK heapV szK szV n = (.error .nomem : Except Err (Dict K V)) := by
  have hwK : wrap64 (n * szK) = n * szK := wrap64_of_lt hnK
  have hwV : wrap64 (n * szV) = n * szV := wrap64_of_lt hnV
  split
  · rename_i h
    refine ⟨ofBytes szK szV (n * szK) (n * szV), ?_, rfl, rfl, Nat.mul_div_cancel _ hV, ?_⟩
    · simp only [make, makeVector, Vec.allocate, hwK, hwV, if_pos h.1, if_pos h.2]
      rfl
    · intro ps
      have h0 : Entries szK szV (ofBytes szK szV (n * szK) (n * szV) : Dict K V) [] :=
        ⟨holds_ofBytes szK _ hK hnK, holds_ofBytes szV _ hV hnV⟩
      have hr : room szK szV (ofBytes szK szV (n * szK) (n * szV) : Dict K V) = n := by
        show min (n * szK / szK) (n * szV / szV) = n
        rw [Nat.mul_div_cancel _ hK, Nat.mul_div_cancel _ hV, Nat.min_self]
      have h2 := (runPuts_spec ps h0).2
      rw [hr, List.length_nil, Nat.sub_zero] at h2
      exact h2
  · rename_i h
    simp only [make, makeVector, Vec.allocate, hwK, hwV]
    by_cases h1 : heapK (n * szK) = true
    · have h2 : ¬heapV (n * szV) = true := fun h2 => h ⟨h1, h2⟩
      simp only [if_pos h1, if_neg h2]
    · simp only [if_neg h1]

/-- **C83, negation**: with memory resources of different sizes `capacity()` is that of the values, and a put below it is refused. -/
theorem C83_capacity_negation :
    capacity 8 (ofBytes 8 8 8 64 : Dict Nat Nat) = 8 ∧
    (runPuts 8 8 (ofBytes 8 8 8 64) [⟨1, 10⟩, ⟨2, 20⟩] : Dict Nat Nat × _).2 = [.ok (.ok ()), .ok (.error .overflow)] := by
  decide +kernel

/-- **C83, negation**: the number of bytes is computed modulo 2^64, so a dictionary for 2^61 entries of 8 bytes is made without
room for any. -/
theorem C83_make_wraps : ∃ d : Dict Nat Nat, make (fun _ => true) (fun _ => true) 8 8 (2 ^ 61) = .ok d ∧ capacity 8 d = 0 := by
  have hw : wrap64 (2 ^ 61 * 8) = 0 := by rw [wrap64_def]
  refine ⟨ofBytes 8 8 0 0, ?_, rfl⟩
  simp only [make, makeVector, Vec.allocate, hw]
  rfl

/-- **C83**, the general case of iteration: keys and values of different number (as left behind by a put whose key cannot be moved)
make the iteration undefined unless it meets objects left behind in the longer buffer. Here: nothing was removed before. -/
theorem C83_iterate_uneven {szK szV : Nat} {d : Dict K V} {ks : List K} {vs : List V} (hk : Vec.Holds szK d.lookup ks)
    (hv : Vec.Holds szV d.values vs) (hne : ks.length ≠ vs.length)
    (hfreshK : ∀ i, ks.length ≤ i → d.lookup.cells[i]?.join = none) (hfreshV : ∀ i, vs.length ≤ i → d.values.cells[i]?.join = none)
    (fuel : Nat) (hf : min ks.length vs.length < fuel) : iterate fuel szK szV d = some .ub := by
  rw [iterate, viewSize_holds hk, viewSize_holds hv]
  have key : ∀ fuel i, i ≤ min ks.length vs.length → min ks.length vs.length - i < fuel →
      iterateLoop d (ks.length, vs.length) fuel (i, i) = some .ub := by
    intro fuel
    induction fuel with
    | zero => intro i _ hf; omega
    | succ fuel ih =>
      intro i hi hf
      have hcond : i ≠ ks.length ∨ i ≠ vs.length := by omega
      rw [iterateLoop, if_pos hcond]
      by_cases he : i < min ks.length vs.length
      · have h1 := holds_get hk i (by omega)
        have h2 := holds_get hv i (by omega)
        simp only [entryAt, h1, h2, ih (i + 1) (by omega) (by omega), Option.map_some]
        rfl
      · have hub : entryAt d (i, i) = .ub := by
          rw [entryAt]
          by_cases hki : ks.length ≤ i
          · have := hfreshK i hki
            cases hc : d.lookup.cells[i]? with
            | none => rfl
            | some c => cases c with
              | none => rfl
              | some c => rw [hc] at this; cases this
          · have := hfreshV i (by omega)
            rw [holds_get hk i (by omega)]
            cases hc : d.values.cells[i]? with
            | none => rfl
            | some c => cases c with
              | none => rfl
              | some c => rw [hc] at this; cases this
        simp only [hub]
  exact key fuel 0 (Nat.zero_le _) (by omega)

/-- **C83, negation**: after a put whose key could not be moved, iteration runs past the end. -/
theorem C83_iterate_negation :
    (put 8 8 (ofBytes 8 8 64 64 : Dict Nat Nat) none (some 10)).2 = .throws ∧
    ∀ fuel, 0 < fuel → iterate fuel 8 8 (put 8 8 (ofBytes 8 8 64 64 : Dict Nat Nat) none (some 10)).1 = some .ub := by
  refine ⟨by decide +kernel, fun fuel hf => ?_⟩
  have e : (put 8 8 (ofBytes 8 8 64 64 : Dict Nat Nat) none (some 10)).1 =
    ⟨.ofBytes 8 64, ⟨64, some 10 :: List.replicate 7 none, 1⟩⟩ := by decide +kernel
  have h1 : Vec.Holds 8 (Vec.ofBytes 8 64 : Vec Nat) [] := holds_ofBytes 8 64 (by omega) (by omega)
  have h2 : Vec.Holds 8 (⟨64, some 10 :: List.replicate 7 none, 1⟩ : Vec Nat) [10] := ⟨by omega, by simp, by simp, by simp, rfl, rfl⟩
  rw [e]
  refine C83_iterate_uneven h1 h2 (by simp) ?_ ?_ fuel (by simpa using hf)
  · intro i _
    simp only [Vec.ofBytes, List.getElem?_replicate]
    split <;> rfl
  · intro i hi
    obtain ⟨j, rfl⟩ : ∃ j, i = j + 1 := ⟨i - 1, by simp at hi; omega⟩
    rw [List.getElem?_cons_succ, List.getElem?_replicate]
    split <;> rfl

example : iterate 5 8 8 (runPuts 8 8 (ofBytes 8 8 64 16) [⟨1, 10⟩, ⟨2, 20⟩, ⟨1, 30⟩] : Dict Nat Nat × _).1 =
    some (.ok [(1, 10), (2, 20)]) := by decide +kernel

end Solace.Dict
