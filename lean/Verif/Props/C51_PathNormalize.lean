import Verif.Props.C48_C50_PathText
/-
C51: normalisation of paths.
-/
namespace Solace.Path
open Strings StringView Str

variable {alloc : Nat → Except Err MutView} {vec : Nat → Except Err Unit}

/-- Normal form: no "." and no ".." except in front. -/
structure Normal (cs : List (List Byte)) : Prop where
  noSelf : [0x2E#8] ∉ cs
  noParent : [0x2E#8, 0x2E#8] ∉ cs.tail

theorem mem_dropLast {a : List Byte} {l : List (List Byte)} (h : a ∈ l.dropLast) : a ∈ l := (List.dropLast_sublist l).mem h

theorem Normal.nil : Normal [] := ⟨List.not_mem_nil, List.not_mem_nil⟩

theorem Normal.dropLast {cs : List (List Byte)} (h : Normal cs) : Normal cs.dropLast := by
  refine ⟨fun hm => h.noSelf (mem_dropLast hm), fun hm => h.noParent ?_⟩
  rw [List.tail_dropLast] at hm
  exact mem_dropLast hm

theorem Normal.push {cs : List (List Byte)} {c : List Byte} (h : Normal cs) (h1 : c ≠ selfRef) (h2 : c = parentRef → cs = []) :
    Normal (cs ++ [c]) := by
  refine ⟨?_, ?_⟩
  · rw [List.mem_append, List.mem_singleton]
    rintro (hm | hm)
    · exact h.noSelf hm
    · exact h1 hm.symm
  · match cs, h, h2 with
    | [], _, _ => exact List.not_mem_nil
    | x :: cs, h, h2 =>
      rw [List.cons_append, List.tail_cons, List.mem_append, List.mem_singleton]
      rintro (hm | hm)
      · exact h.noParent hm
      · exact absurd (h2 hm.symm) (List.cons_ne_nil _ _)

theorem normalizeLoop_self (cap : Nat) (acc cs : List (List Byte)) :
    normalizeLoop alloc cap acc (selfRef :: cs) = normalizeLoop alloc cap acc cs := by
  rw [normalizeLoop, if_pos (equals_self _)]

theorem normalizeLoop_parent (cap : Nat) (acc cs : List (List Byte)) (h : acc ≠ []) :
    normalizeLoop alloc cap acc (parentRef :: cs) = normalizeLoop alloc cap acc.dropLast cs := by
  have hp : StringView.equals parentRef selfRef = false := by decide
  have := List.length_pos_iff.mpr h
  rw [normalizeLoop, hp, if_neg (by simp), if_pos (by rw [equals_self, Bool.true_and]; simpa using this)]

theorem normalizeLoop_push (cap : Nat) (acc cs : List (List Byte)) (c : List Byte) (h1 : c ≠ selfRef) (h2 : c = parentRef → acc = []) :
    normalizeLoop alloc cap acc (c :: cs) = normalizeLoop alloc cap (copyTo alloc cap acc c) cs := by
  rw [normalizeLoop, if_neg (fun h => h1 ((equals_iff _ _).mp h)), if_neg]
  intro h
  rw [Bool.and_eq_true, equals_iff, decide_eq_true_eq] at h
  rw [h2 h.1] at h
  exact absurd h.2 (by simp)

theorem normalizeLoop_normal (ha : AllocOk alloc) (cap : Nat) (cs : List (List Byte)) : ∀ acc, Normal acc →
    Normal (normalizeLoop alloc cap acc cs) := by
  induction cs with
  | nil => intro acc h; exact h
  | cons c cs ih =>
    intro acc h
    by_cases h1 : c = selfRef
    · rw [h1, normalizeLoop_self]; exact ih acc h
    · by_cases h2 : c = parentRef ∧ acc ≠ []
      · rw [h2.1, normalizeLoop_parent _ _ _ h2.2]; exact ih _ h.dropLast
      · have h3 : c = parentRef → acc = [] := fun e => Classical.byContradiction fun hn => h2 ⟨e, hn⟩
        rw [normalizeLoop_push _ _ _ _ h1 h3]
        apply ih
        rcases copyTo_cases ha cap acc c with e | e
        · rw [e]; exact h
        · rw [e]; exact h.push h1 h3

/-- **C51** (full): whatever memory is available, the result has no "." and no ".." except as its first component - in
particular none after an ordinary component. -/
theorem C51_normal (ha : AllocOk alloc) (p : Path) :
    selfRef ∉ (normalize alloc vec p).comps ∧ ∀ i : Nat, (normalize alloc vec p).comps[i + 1]? ≠ some parentRef := by
  have h : Normal (normalize alloc vec p).comps := by
    rw [normalize]
    split
    · exact .nil
    · exact normalizeLoop_normal ha _ _ _ .nil
  refine ⟨h.noSelf, fun i hi => h.noParent ?_⟩
  rw [← List.getElem?_tail] at hi
  exact List.mem_iff_getElem?.mpr ⟨i, hi⟩

theorem normalizeLoop_id (h : Plenty alloc vec) (cap : Nat) (cs : List (List Byte)) : ∀ acc, Normal (acc ++ cs) →
    acc.length + cs.length ≤ cap → normalizeLoop alloc cap acc cs = acc ++ cs := by
  induction cs with
  | nil => intro acc _ _; rw [normalizeLoop, List.append_nil]
  | cons c cs ih =>
    intro acc hn hl
    rw [List.length_cons] at hl
    rw [normalizeLoop_push _ _ _ _ (fun e => hn.noSelf (by simp [e, selfRef])), copyTo_plenty h cap acc c (by omega), ih]
    · rw [List.append_assoc]; rfl
    · rw [List.append_assoc]; exact hn
    · rw [List.length_append, List.length_singleton]; omega
    · intro e
      match acc, hn with
      | [], _ => rfl
      | a :: acc, hn => exact absurd (by simp [e, parentRef]) hn.noParent

/-- **C51** (full; memory available): normalising twice gives the components of normalising once, and the very same path
unless no component is left. -/
theorem C51_idempotent (h : Plenty alloc vec) (p : Path) :
    (normalize alloc vec (normalize alloc vec p)).comps = (normalize alloc vec p).comps ∧
    equals (normalize alloc vec (normalize alloc vec p)) (normalize alloc vec p) = true ∧
    ((normalize alloc vec p).comps ≠ [] → normalize alloc vec (normalize alloc vec p) = normalize alloc vec p) := by
  have hc : (normalize alloc vec (normalize alloc vec p)).comps = (normalize alloc vec p).comps := by
    have hn : Normal (normalize alloc vec p).comps := by
      rw [normalize, h.vec]
      exact normalizeLoop_normal h.ok _ _ _ .nil
    conv => lhs; rw [normalize, h.vec]
    simp only [ofVector]
    rw [normalizeLoop_id h _ _ [] hn (by simp), List.nil_append]
  refine ⟨hc, ?_, ?_⟩
  · exact (equals_iff_comps _ _).mpr hc
  · intro hne
    have hb : ∀ q : Path, (normalize alloc vec q).noBuffer = (q.comps.length == 0) := by
      intro q; rw [normalize, h.vec]; rfl
    have hp : p.comps ≠ [] := by
      intro e
      apply hne
      rw [normalize, h.vec, e]
      rfl
    have e1 : (normalize alloc vec p).noBuffer = false := by
      rw [hb, beq_eq_false_iff_ne]
      exact fun e => hp (List.length_eq_zero_iff.mp e)
    have e2 : (normalize alloc vec (normalize alloc vec p)).noBuffer = false := by
      rw [hb, beq_eq_false_iff_ne]
      exact fun e => hne (List.length_eq_zero_iff.mp e)
    generalize normalize alloc vec (normalize alloc vec p) = x at *
    generalize normalize alloc vec p = y at *
    obtain ⟨xb, xc⟩ := x
    obtain ⟨yb, yc⟩ := y
    simp only at *
    rw [e1, e2, hc]

/-- Where a sequence of names leads from a place given by the names below the starting point: "." stays, ".." goes up, any
other name goes down. -/
def resolve : List (List Byte) → List (List Byte) → List (List Byte)
  | place, [] => place
  | place, c :: cs => if c = selfRef then resolve place cs else if c = parentRef then resolve place.dropLast cs else resolve (place ++ [c]) cs

/-- A name that goes down. -/
def ordinary (c : List Byte) : Bool := decide (c ≠ selfRef ∧ c ≠ parentRef)

/-- The names never lead above a starting point that is `n` names deep. -/
def StaysBelow (n : Nat) (cs : List (List Byte)) : Prop := ∀ k, (cs.take k).count parentRef ≤ n + (cs.take k).countP ordinary

theorem StaysBelow.tail {n m : Nat} {c : List Byte} {cs : List (List Byte)} (h : StaysBelow n (c :: cs))
    (he : n + [c].countP ordinary ≤ m + [c].count parentRef) : StaysBelow m cs := by
  intro k
  have := h (k + 1)
  rw [List.take_succ_cons, ← List.singleton_append, List.count_append, List.countP_append] at this
  omega

theorem normalizeLoop_resolve (h : Plenty alloc vec) (cap : Nat) (cs : List (List Byte)) : ∀ acc, StaysBelow acc.length cs →
    acc.length + cs.length ≤ cap → normalizeLoop alloc cap acc cs = resolve acc cs := by
  induction cs with
  | nil => intro acc _ _; rfl
  | cons c cs ih =>
    intro acc hs hl
    rw [List.length_cons] at hl
    rw [resolve]
    have c1 : ordinary selfRef = false := by decide
    have c2 : ordinary parentRef = false := by decide
    have c3 : selfRef ≠ parentRef := by decide
    by_cases h1 : c = selfRef
    · subst h1
      rw [if_pos rfl, normalizeLoop_self]
      exact ih acc (hs.tail (by simp [c1])) (by omega)
    · rw [if_neg h1]
      by_cases h2 : c = parentRef
      · subst h2
        have hpos : 1 ≤ acc.length := by
          have := hs 1
          simpa [c2] using this
        rw [if_pos rfl, normalizeLoop_parent _ _ _ (List.length_pos_iff.mp hpos)]
        refine ih _ (hs.tail ?_) (by rw [List.length_dropLast]; omega)
        simp [c2]
        omega
      · have c4 : ordinary c = true := by simp [ordinary, h1, h2]
        rw [if_neg h2, normalizeLoop_push _ _ _ _ h1 (fun e => absurd e h2), copyTo_plenty h cap acc c (by omega)]
        refine ih _ (hs.tail ?_) (by simp; omega)
        simp [c4]

theorem resolve_root (cs : List (List Byte)) : ∀ (r : List Byte) (acc : List (List Byte)), StaysBelow acc.length cs →
    resolve (r :: acc) cs = r :: resolve acc cs := by
  induction cs with
  | nil => intro r acc _; rfl
  | cons c cs ih =>
    intro r acc hs
    have c1 : ordinary selfRef = false := by decide
    have c2 : ordinary parentRef = false := by decide
    rw [resolve, resolve]
    by_cases h1 : c = selfRef
    · subst h1
      rw [if_pos rfl, if_pos rfl]
      exact ih r acc (hs.tail (by simp [c1]))
    · rw [if_neg h1, if_neg h1]
      by_cases h2 : c = parentRef
      · subst h2
        have hpos : 1 ≤ acc.length := by
          have := hs 1
          simpa [c2] using this
        rw [if_pos rfl, if_pos rfl, List.dropLast_cons_of_ne_nil (List.length_pos_iff.mp hpos)]
        refine ih r _ (hs.tail ?_)
        simp [c2]
        omega
      · have c4 : ordinary c = true := by simp [ordinary, h1, h2]
        rw [if_neg h2, if_neg h2, List.cons_append]
        refine ih r _ (hs.tail ?_)
        simp [c4]

/-- **C51** (partial: the path never leads above its root; memory available). An absolute path stays absolute, can be
printed and queried, and leads to the same place. Missing: paths with more ".." than names before them, where the property
fails (`C51_not_absolute`). -/
theorem C51_absolute_partial (h : Plenty alloc vec) (b : Bool) (cs : List (List Byte)) (hs : StaysBelow 0 cs) :
    normalize alloc vec ⟨b, [] :: cs⟩ = ⟨false, [] :: resolve [] cs⟩ ∧
    isAbsolute (normalize alloc vec ⟨b, [] :: cs⟩) = .ok true := by
  have e : normalize alloc vec ⟨b, [] :: cs⟩ = ⟨false, [] :: resolve [] cs⟩ := by
    rw [normalize, h.vec]
    simp only
    rw [normalizeLoop_push _ _ _ _ (by decide) (fun e => (by cases e)), copyTo_plenty h _ _ _ (by simp), List.nil_append,
      normalizeLoop_resolve h _ _ [[]] (fun k => by have := hs k; simp; omega) (by simp; omega), resolve_root cs [] [] hs]
    rfl
  exact ⟨e, by rw [e]; rfl⟩

/-- **C51**, relative paths (partial: the path never leads above its start, memory available): the result leads to the same
place. -/
theorem C51_relative_partial (h : Plenty alloc vec) (p : Path) (hs : StaysBelow 0 p.comps) :
    (normalize alloc vec p).comps = resolve [] p.comps := by
  rw [normalize, h.vec]
  simp only [ofVector]
  rw [normalizeLoop_resolve h _ _ [] hs (by simp)]

/-- **C51** (partial: a component is left; memory available): the result can be queried and printed. Missing: results
without components, where the property fails (`C51_hollow`). -/
theorem C51_query_partial (h : Plenty alloc vec) (p : Path) (d : List Byte) (hd : d.length < 2 ^ 16)
    (hn : (normalize alloc vec p).comps.length < 2 ^ 64) (hne : (normalize alloc vec p).comps ≠ []) :
    (∃ b, isAbsolute (normalize alloc vec p) = .ok b) ∧ ∃ t, toString alloc (normalize alloc vec p) d = .ok t := by
  have hb : (normalize alloc vec p).noBuffer = false := by
    have : (normalize alloc vec p).noBuffer = (p.comps.length == 0) := by rw [normalize, h.vec]; rfl
    rw [this, beq_eq_false_iff_ne]
    intro e
    apply hne
    rw [normalize, h.vec, List.length_eq_zero_iff.mp e]
    rfl
  generalize normalize alloc vec p = x at *
  obtain ⟨xb, xc⟩ := x
  simp only at hb hne hn
  subst hb
  refine ⟨?_, _, toString_eq h d xc hne hn hd⟩
  match xc, hne with
  | c :: cs, _ => exact ⟨_, isAbsolute_cons c cs⟩

example : StaysBelow 0 [[0x61#8], parentRef, selfRef, [0x62#8]] := by
  intro k
  match k with
  | 0 | 1 | 2 | 3 => decide
  | k + 4 =>
    rw [List.take_of_length_le (by simp)]
    decide
example : normalize mem7 (fun _ => .ok ()) ⟨false, [[], [0x61#8], parentRef, selfRef, [0x62#8]]⟩ = ⟨false, [[], [0x62#8]]⟩ := by
  decide +kernel

/-- **C51, negation**: "/../a" becomes the relative path "a". -/
theorem C51_not_absolute :
    isAbsolute ⟨false, [[], parentRef, [0x61#8]]⟩ = .ok true ∧
    normalize mem7 (fun _ => .ok ()) ⟨false, [[], parentRef, [0x61#8]]⟩ = ⟨false, [[0x61#8]]⟩ ∧
    isAbsolute (normalize mem7 (fun _ => .ok ()) ⟨false, [[], parentRef, [0x61#8]]⟩) = .ok false := by decide +kernel

/-- **C51, negation**: "a/.." becomes a path that terminates the program when asked whether it is absolute, or printed. -/
theorem C51_hollow :
    normalize mem7 (fun _ => .ok ()) ⟨false, [[0x61#8], parentRef]⟩ = ⟨false, []⟩ ∧
    isAbsolute (normalize mem7 (fun _ => .ok ()) ⟨false, [[0x61#8], parentRef]⟩) = .terminate ∧
    toString mem7 (normalize mem7 (fun _ => .ok ()) ⟨false, [[0x61#8], parentRef]⟩) [0x2F#8] = .terminate := by decide +kernel

/-- **C51, negation** of "leads to the same place" for paths that lead above their start: "../.." becomes the path without
components. -/
theorem C51_parent_of_parent :
    normalize mem7 (fun _ => .ok ()) ⟨false, [parentRef, parentRef]⟩ = ⟨false, []⟩ := by decide +kernel

end Solace.Path
