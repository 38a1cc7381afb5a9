import Verif.Model.Dictionary
import Verif.Props.C44_Vector
/-
C47: the dictionary as a map.
-/
namespace Solace.Dict
variable {K V : Type}

/-- The dictionary holds these entries, in the order of the puts. -/
def Entries (szK szV : Nat) (d : Dict K V) (es : List (K × V)) : Prop :=
  Vec.Holds szK d.lookup (es.map Prod.fst) ∧ Vec.Holds szV d.values (es.map Prod.snd)

/-- How many entries there is room for. -/
def room (szK szV : Nat) (d : Dict K V) : Nat := min (Vec.capacity szK d.lookup) (Vec.capacity szV d.values)

/-- One call of `put`. -/
structure Put (K V : Type) where
  key : K
  value : V

/-- A map as a function, updated by puts: the last put of a key counts. -/
def latest [DecidableEq K] : List (Put K V) → K → Option V
  | [], _ => none
  | p :: ps, k => (latest ps k).orElse fun _ => if p.key = k then some p.value else none

/-- The first put of a key. -/
def earliest [DecidableEq K] : List (Put K V) → K → Option V
  | [], _ => none
  | p :: ps, k => if p.key = k then some p.value else earliest ps k

/-- The puts that fit. -/
def runPuts (szK szV : Nat) : Dict K V → List (Put K V) → Dict K V × List (Outcome (Except Err Unit))
  | d, [] => (d, [])
  | d, p :: ps =>
    ((runPuts szK szV (put szK szV d (some p.key) (some p.value)).1 ps).1,
      (put szK szV d (some p.key) (some p.value)).2 :: (runPuts szK szV (put szK szV d (some p.key) (some p.value)).1 ps).2)

theorem holds_ofBytes {α : Type} (sz bytes : Nat) (hsz : 0 < sz) (hb : bytes < 2 ^ 64) :
    Vec.Holds sz (Vec.ofBytes sz bytes : Vec α) [] where
  sz_pos := hsz
  machine := hb
  cells := by simp [Vec.ofBytes]
  fits := Nat.zero_le _
  next := rfl
  content := rfl

theorem put_room {szK szV : Nat} {d : Dict K V} {es : List (K × V)} (h : Entries szK szV d es) (k : K) (v : V)
    (hr : es.length < room szK szV d) :
    ∃ d', put szK szV d (some k) (some v) = (d', .ok (.ok ())) ∧ Entries szK szV d' (es ++ [(k, v)]) ∧
      room szK szV d' = room szK szV d := by
  rw [room] at hr
  have hK : (es.map Prod.fst).length < d.lookup.bytes / szK := by
    simp only [Vec.capacity] at hr; simp only [List.length_map]; omega
  have hV : (es.map Prod.snd).length < d.values.bytes / szV := by
    simp only [Vec.capacity] at hr; simp only [List.length_map]; omega
  obtain ⟨vs, h1, h2, h3⟩ := Vec.emplaceBack_room h.2 v hV
  obtain ⟨ks, h4, h5, h6⟩ := Vec.emplaceBack_room h.1 k hK
  refine ⟨⟨ks, vs⟩, ?_, ⟨by simpa using h5, by simpa using h2⟩, ?_⟩
  · rw [put, h1]; simp only [h4]
  · simp only [room, Vec.capacity, h3, h6]

theorem put_full {szK szV : Nat} {d : Dict K V} {es : List (K × V)} (h : Entries szK szV d es) (k : Option K) (v : V)
    (hr : es.length = room szK szV d) :
    ∃ d', put szK szV d k (some v) = (d', .ok (.error .overflow)) ∧ Entries szK szV d' es ∧
      room szK szV d' = room szK szV d := by
  rw [room] at hr
  have hfV := h.2.fits
  have hfK := h.1.fits
  simp only [Vec.capacity] at hr
  by_cases hV : (es.map Prod.snd).length < d.values.bytes / szV
  · have hK : (es.map Prod.fst).length = d.lookup.bytes / szK := by
      simp only [List.length_map] at *; omega
    obtain ⟨vs, h1, h2, h3⟩ := Vec.emplaceBack_room h.2 v hV
    have h4 := Vec.emplaceBack_full h.1 k hK
    obtain ⟨vs', h5, h6, h7⟩ := Vec.popBack_concat h2
    refine ⟨⟨d.lookup, vs'⟩, ?_, ⟨h.1, h6⟩, ?_⟩
    · rw [put, h1]; simp only [h4, h5]
    · simp only [room, Vec.capacity, h3, h7]
  · have h1 := Vec.emplaceBack_full h.2 (some v) (by omega)
    refine ⟨d, ?_, h, rfl⟩
    rw [put, h1]

theorem fits_room {szK szV : Nat} {d : Dict K V} {es : List (K × V)} (h : Entries szK szV d es) :
    es.length ≤ room szK szV d := by
  have h1 := h.1.fits
  have h2 := h.2.fits
  simp only [List.length_map] at h1 h2
  rw [room, Vec.capacity, Vec.capacity]
  omega

section
variable [DecidableEq K]

/-- First entry of a key in a list of entries. -/
def firstIn : List (K × V) → K → Option V
  | [], _ => none
  | e :: es, k => if e.1 = k then some e.2 else firstIn es k

theorem findLoop_eq (values : List (Option V)) (key : K) (es : List (K × V)) : ∀ i,
    (∀ j, j < es.length → values[i + j]? = some (es[j]?.map Prod.snd)) →
    findLoop values key (es.map fun e => some e.1) i = .ok (firstIn es key) := by
  induction es with
  | nil => intro i _; rfl
  | cons e es ih =>
    intro i h
    rw [List.map_cons, findLoop, firstIn]
    split
    · have := h 0 (by simp)
      rw [Nat.add_zero] at this
      rw [this]
      rfl
    · refine ih (i + 1) fun j hj => ?_
      have := h (j + 1) (by simpa using hj)
      rw [Nat.add_assoc, Nat.add_comm 1 j, this]
      simp

theorem find_eq {szK szV : Nat} {d : Dict K V} {es : List (K × V)} (h : Entries szK szV d es) (key : K) :
    find szK d key = .ok (firstIn es key) := by
  have hk : d.lookup.cells.take (Vec.viewSize szK d.lookup) = es.map fun e => some e.1 := by
    rw [h.1.viewSize_eq, h.1.content, List.map_map]; rfl
  rw [find, hk]
  refine findLoop_eq _ key es 0 fun j hj => ?_
  have := congrArg (·[j]?) h.2.content
  simpa [List.getElem?_take, hj] using this

theorem containsLoop_eq (key : K) (es : List (K × V)) :
    containsLoop key (es.map fun e => some e.1) = .ok (firstIn es key).isSome := by
  induction es with
  | nil => rfl
  | cons e es ih =>
    rw [List.map_cons, containsLoop, firstIn]
    by_cases h : e.1 = key
    · rw [if_pos h.symm, if_pos h]; rfl
    · rw [if_neg (fun hc => h hc.symm), if_neg h, ih]

theorem contains_eq {szK szV : Nat} {d : Dict K V} {es : List (K × V)} (h : Entries szK szV d es) (key : K) :
    contains szK d key = .ok (firstIn es key).isSome := by
  have hk : d.lookup.cells.take (Vec.viewSize szK d.lookup) = es.map fun e => some e.1 := by
    rw [h.1.viewSize_eq, h.1.content, List.map_map]; rfl
  rw [contains, hk, containsLoop_eq]

theorem firstIn_append (es fs : List (K × V)) (k : K) : firstIn (es ++ fs) k = (firstIn es k).orElse fun _ => firstIn fs k := by
  induction es with
  | nil => rfl
  | cons e es ih =>
    rw [List.cons_append, firstIn, firstIn]
    split
    · rfl
    · exact ih

omit [DecidableEq K] in
theorem runPuts_spec {szK szV : Nat} (ps : List (Put K V)) : ∀ {d : Dict K V} {es : List (K × V)}, Entries szK szV d es →
    Entries szK szV (runPuts szK szV d ps).1 (es ++ (ps.take (room szK szV d - es.length)).map fun p => (p.key, p.value)) ∧
    (runPuts szK szV d ps).2 = (ps.take (room szK szV d - es.length)).map (fun _ => .ok (.ok ())) ++
      (ps.drop (room szK szV d - es.length)).map (fun _ => .ok (.error .overflow)) := by
  induction ps with
  | nil => intro d es h; simpa [runPuts] using h
  | cons p ps ih =>
    intro d es h
    have hfit := fits_room h
    rw [runPuts]
    by_cases hr : es.length < room szK szV d
    · obtain ⟨d', h1, h2, h3⟩ := put_room h p.key p.value hr
      rw [h1]
      obtain ⟨g1, g2⟩ := ih h2
      have hk : room szK szV d - es.length = (room szK szV d - (es.length + 1)) + 1 := by omega
      simp only [h3, List.length_append, List.length_singleton] at g1 g2
      rw [hk, List.take_succ_cons, List.drop_succ_cons]
      refine ⟨?_, ?_⟩
      · simpa using g1
      · simp [g2]
    · have hr' : es.length = room szK szV d := by omega
      obtain ⟨d', h1, h2, h3⟩ := put_full h (some p.key) p.value hr'
      rw [h1]
      obtain ⟨g1, g2⟩ := ih h2
      simp only [h3, hr', Nat.sub_self, List.take_zero, List.map_nil, List.append_nil, List.nil_append, List.drop_zero] at g1 g2 ⊢
      exact ⟨g1, by simp [g2]⟩

theorem firstIn_map (ps : List (Put K V)) (k : K) : firstIn (ps.map fun p => (p.key, p.value)) k = earliest ps k := by
  induction ps with
  | nil => rfl
  | cons p ps ih => rw [List.map_cons, firstIn, earliest, ih]

theorem earliest_eq_latest (ps : List (Put K V)) (h : (ps.map Put.key).Nodup) (k : K) : earliest ps k = latest ps k := by
  induction ps with
  | nil => rfl
  | cons p ps ih =>
    rw [List.map_cons, List.nodup_cons] at h
    rw [earliest, latest, ih h.2]
    by_cases hk : p.key = k
    · have hnone : latest ps k = none := by
        have hmem := h.1
        rw [hk] at hmem
        clear ih h
        induction ps with
        | nil => rfl
        | cons q qs ih =>
          rw [List.map_cons, List.mem_cons, not_or] at hmem
          rw [latest, ih hmem.2, if_neg (fun hc => hmem.1 hc.symm)]
          rfl
      rw [if_pos hk, hnone, if_pos hk]; rfl
    · rw [if_neg hk, if_neg hk]
      cases latest ps k <;> rfl

/-- **C47** (what the code does, for every history): the first `room` puts succeed and the others fail; `find` gives the
value of the *first* successful put of the key, `none` if there is none, and `contains` agrees. -/
theorem C47_first_put (szK szV kb vb : Nat) (hK : 0 < szK) (hV : 0 < szV) (hkb : kb < 2 ^ 64) (hvb : vb < 2 ^ 64)
    (ps : List (Put K V)) (k : K) :
    (runPuts szK szV (ofBytes szK szV kb vb) ps).2 =
      (ps.take (min (kb / szK) (vb / szV))).map (fun _ => .ok (.ok ())) ++
      (ps.drop (min (kb / szK) (vb / szV))).map (fun _ => .ok (.error .overflow)) ∧
    find szK (runPuts szK szV (ofBytes szK szV kb vb) ps).1 k = .ok (earliest (ps.take (min (kb / szK) (vb / szV))) k) ∧
    contains szK (runPuts szK szV (ofBytes szK szV kb vb) ps).1 k =
      .ok (earliest (ps.take (min (kb / szK) (vb / szV))) k).isSome := by
  have h0 : Entries szK szV (ofBytes szK szV kb vb : Dict K V) [] := ⟨holds_ofBytes szK kb hK hkb, holds_ofBytes szV vb hV hvb⟩
  have hr : room szK szV (ofBytes szK szV kb vb : Dict K V) = min (kb / szK) (vb / szV) := rfl
  obtain ⟨h1, h2⟩ := runPuts_spec ps h0
  rw [hr, List.length_nil, Nat.sub_zero] at h1 h2
  rw [List.nil_append] at h1
  refine ⟨h2, ?_, ?_⟩
  · rw [find_eq h1, firstIn_map]
  · rw [contains_eq h1, firstIn_map]

/-- **C47** (partial: no key is put twice): `find` gives the value of the latest successful put of the key. -/
theorem C47_map_partial (szK szV kb vb : Nat) (hK : 0 < szK) (hV : 0 < szV) (hkb : kb < 2 ^ 64) (hvb : vb < 2 ^ 64)
    (ps : List (Put K V)) (hnodup : (ps.map Put.key).Nodup) (k : K) :
    find szK (runPuts szK szV (ofBytes szK szV kb vb) ps).1 k = .ok (latest (ps.take (min (kb / szK) (vb / szV))) k) ∧
    contains szK (runPuts szK szV (ofBytes szK szV kb vb) ps).1 k =
      .ok (latest (ps.take (min (kb / szK) (vb / szV))) k).isSome := by
  obtain ⟨-, h2, h3⟩ := C47_first_put szK szV kb vb hK hV hkb hvb ps k
  have hn : ((ps.take (min (kb / szK) (vb / szV))).map Put.key).Nodup := by
    rw [List.map_take]
    exact hnodup.sublist (List.take_sublist _ _)
  rw [earliest_eq_latest _ hn] at h2 h3
  exact ⟨h2, h3⟩

/-- **C47**, failed put: an overflow changes nothing one can observe, whatever was put before. -/
theorem C47_failed_put {szK szV : Nat} {d : Dict K V} {es : List (K × V)} (h : Entries szK szV d es) (k : K) (v : V)
    (hfail : (put szK szV d (some k) (some v)).2 ≠ .ok (.ok ())) :
    (put szK szV d (some k) (some v)).2 = .ok (.error .overflow) ∧
    Entries szK szV (put szK szV d (some k) (some v)).1 es ∧
    ∀ k', find szK (put szK szV d (some k) (some v)).1 k' = find szK d k' := by
  have hfit := fits_room h
  by_cases hr : es.length < room szK szV d
  · obtain ⟨d', h1, -, -⟩ := put_room h k v hr
    rw [h1] at hfail
    exact absurd rfl hfail
  · obtain ⟨d', h1, h2, -⟩ := put_full h (some k) v (by omega)
    rw [h1]
    exact ⟨rfl, h2, fun k' => by rw [find_eq h2, find_eq h]⟩

/-- **C47** fails for a key that is put again: the second put succeeds and `find` still gives the first value. -/
theorem C47_second_put_ignored :
    (runPuts 8 8 (ofBytes 8 8 64 64) [⟨1, 10⟩, ⟨1, 20⟩] : Dict Nat Nat × _).2 = [.ok (.ok ()), .ok (.ok ())] ∧
    find 8 (runPuts 8 8 (ofBytes 8 8 64 64) [⟨1, 10⟩, ⟨1, 20⟩] : Dict Nat Nat × _).1 1 = .ok (some 10) ∧
    latest ([⟨1, 10⟩, ⟨1, 20⟩] : List (Put Nat Nat)) 1 = some 20 := by decide +kernel

end

/-- **C47** fails when the key's move constructor throws: the value stays behind, and from then on every key finds the value
of an earlier put. -/
theorem C47_key_throws :
    (put 8 8 (ofBytes 8 8 64 64 : Dict Nat Nat) none (some 10)).2 = .throws ∧
    find 8 (put 8 8 (put 8 8 (ofBytes 8 8 64 64 : Dict Nat Nat) none (some 10)).1 (some 2) (some 20)).1 2 = .ok (some 10) := by
  decide +kernel

example : ([⟨1, 10⟩, ⟨2, 20⟩, ⟨3, 30⟩] : List (Put Nat Nat)).map Put.key |>.Nodup := by decide
example : (runPuts 8 8 (ofBytes 8 8 64 16) [⟨1, 10⟩, ⟨2, 20⟩, ⟨3, 30⟩] : Dict Nat Nat × _).2 =
    [.ok (.ok ()), .ok (.ok ()), .ok (.error .overflow)] := by decide +kernel

end Solace.Dict
