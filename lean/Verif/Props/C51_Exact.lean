import Verif.Props.C51_PathNormalize
/-! C51: exactly when normalisation keeps the meaning of a path. -/
namespace Solace.Path
open Strings StringView Str

variable {alloc : Nat → Except Err MutView} {vec : Nat → Except Err Unit}

/-- Where a sequence of names leads from a place given by the number of steps above the starting point and the names below
it: "." stays, ".." goes up, also above the starting point, any other name goes down. -/
def normalWalk : Nat → List (List Byte) → List (List Byte) → Nat × List (List Byte)
  | ups, place, [] => (ups, place)
  | ups, place, c :: cs =>
    if c = selfRef then normalWalk ups place cs
    else if c = parentRef then
      if place = [] then normalWalk (ups + 1) [] cs else normalWalk ups place.dropLast cs
    else normalWalk ups (place ++ [c]) cs

/-- The shortest way there. -/
def canonical (cs : List (List Byte)) : List (List Byte) :=
  List.replicate (normalWalk 0 [] cs).1 parentRef ++ (normalWalk 0 [] cs).2

theorem ordinary_self : ordinary selfRef = false := by decide
theorem ordinary_parent : ordinary parentRef = false := by decide

theorem normalWalk_ups (cs : List (List Byte)) : ∀ ups place, ups ≤ (normalWalk ups place cs).1 := by
  induction cs with
  | nil => intro ups place; exact Nat.le_refl _
  | cons c cs ih =>
    intro ups place
    rw [normalWalk]
    split
    · exact ih _ _
    · split
      · split
        · exact Nat.le_trans (Nat.le_succ _) (ih _ _)
        · exact ih _ _
      · exact ih _ _

theorem StaysBelow.cons {n m : Nat} {c : List Byte} {cs : List (List Byte)} (h : StaysBelow m cs)
    (he : m + [c].count parentRef ≤ n + [c].countP ordinary) :
    StaysBelow n (c :: cs) := by
  intro k
  cases k with
  | zero => simp
  | succ k =>
    have := h k
    rw [List.take_succ_cons, ← List.singleton_append, List.count_append, List.countP_append]
    omega

theorem staysBelow_of_walk (cs : List (List Byte)) : ∀ ups place, ups ≤ 1 → (normalWalk ups place cs).1 ≤ 1 →
    StaysBelow (1 - ups + place.length) cs := by
  induction cs with
  | nil => intro ups place _ _ k; simp
  | cons c cs ih =>
    intro ups place hu hw
    rw [normalWalk] at hw
    by_cases h1 : c = selfRef
    · subst h1
      rw [if_pos rfl] at hw
      have c3 : selfRef ≠ parentRef := by decide
      exact (ih ups place hu hw).cons (by simp [c3, ordinary_self])
    · rw [if_neg h1] at hw
      by_cases h2 : c = parentRef
      · subst h2
        rw [if_pos rfl] at hw
        by_cases h3 : place = []
        · subst h3
          rw [if_pos rfl] at hw
          have hu1 := Nat.le_trans (normalWalk_ups cs (ups + 1) []) hw
          have := ih (ups + 1) [] (by omega) hw
          refine this.cons ?_
          simp [ordinary_parent] <;> omega
        · rw [if_neg h3] at hw
          have hpos := List.length_pos_iff.mpr h3
          have := ih ups place.dropLast hu hw
          rw [List.length_dropLast] at this
          refine this.cons ?_
          simp [ordinary_parent] <;> omega
      · rw [if_neg h2] at hw
        have c4 : ordinary c = true := by simp [ordinary, h1, h2]
        have := ih ups (place ++ [c]) hu hw
        rw [List.length_append, List.length_singleton] at this
        refine this.cons ?_
        simp [c4, h2]
        omega

theorem normalizeLoop_walk (h : Plenty alloc vec) (cap : Nat) (cs : List (List Byte)) : ∀ ups place, ups ≤ 1 →
    StaysBelow (1 - ups + place.length) cs → ups + place.length + cs.length ≤ cap →
    normalizeLoop alloc cap (List.replicate ups parentRef ++ place) cs =
      List.replicate (normalWalk ups place cs).1 parentRef ++ (normalWalk ups place cs).2 := by
  induction cs with
  | nil => intro ups place _ _ _; rfl
  | cons c cs ih =>
    intro ups place hu hs hl
    rw [List.length_cons] at hl
    rw [normalWalk]
    by_cases h1 : c = selfRef
    · subst h1
      rw [if_pos rfl, normalizeLoop_self]
      exact ih ups place hu (hs.tail (by simp [ordinary_self])) (by omega)
    · rw [if_neg h1]
      by_cases h2 : c = parentRef
      · subst h2
        rw [if_pos rfl]
        have hpos : 1 ≤ 1 - ups + place.length := by
          have := hs 1
          simpa [ordinary_parent] using this
        by_cases h3 : place = []
        · subst h3
          have hu0 : ups = 0 := by simp at hpos; omega
          subst hu0
          rw [if_pos rfl, List.append_nil, List.replicate_zero, normalizeLoop_push _ _ _ _ h1 (fun _ => rfl), copyTo_plenty h cap _ _ (by simp; omega)]
          refine ih 1 [] (Nat.le_refl _) (hs.tail ?_) (by simp; omega)
          simp [ordinary_parent]
        · rw [if_neg h3, normalizeLoop_parent _ _ _ (by simp [h3]), List.dropLast_append_of_ne_nil h3]
          have := List.length_pos_iff.mpr h3
          refine ih ups place.dropLast hu (hs.tail ?_) (by rw [List.length_dropLast]; omega)
          simp [ordinary_parent]
          omega
      · have c4 : ordinary c = true := by simp [ordinary, h1, h2]
        rw [if_neg h2, normalizeLoop_push _ _ _ _ h1 (fun e => absurd e h2), copyTo_plenty h cap _ c (by simp; omega),
          List.append_assoc]
        refine ih ups (place ++ [c]) hu (hs.tail ?_) (by simp; omega)
        simp [c4]
        omega

/-- **C51**, exactly when normalising a path (its root, if any, taken as a name) keeps where it leads: if the path never
leads more than one step above its start (memory available). -/
theorem C51_meaning_iff (h : Plenty alloc vec) (p : Path) :
    (normalize alloc vec p).comps = canonical p.comps ↔ StaysBelow 1 p.comps := by
  constructor
  · intro he
    refine staysBelow_of_walk p.comps 0 [] (Nat.zero_le _) ?_
    refine Classical.byContradiction fun hn => ?_
    have h2 := (C51_normal (vec := vec) h.ok p).2 0
    rw [he, canonical] at h2
    apply h2
    rw [List.getElem?_append_left (by rw [List.length_replicate]; omega), List.getElem?_replicate, if_pos (by omega)]
  · intro hs
    rw [normalize, h.vec]
    exact normalizeLoop_walk h _ _ 0 [] (Nat.zero_le _) hs (by simp)

theorem normalizeLoop_lost (h : Plenty alloc vec) (cap : Nat) (cs : List (List Byte)) : ∀ acc place,
    acc = place ∨ acc = parentRef :: place → acc.length + cs.length ≤ cap →
    normalizeLoop alloc cap acc cs = resolve place cs ∨ normalizeLoop alloc cap acc cs = parentRef :: resolve place cs := by
  induction cs with
  | nil => intro acc place ha _; exact ha
  | cons c cs ih =>
    intro acc place ha hl
    rw [List.length_cons] at hl
    rw [resolve]
    by_cases h1 : c = selfRef
    · subst h1
      rw [if_pos rfl, normalizeLoop_self]
      exact ih acc place ha (by omega)
    · rw [if_neg h1]
      by_cases h2 : c = parentRef
      · subst h2
        rw [if_pos rfl]
        by_cases h3 : place = []
        · subst h3
          rcases ha with rfl | rfl
          · rw [normalizeLoop_push _ _ _ _ h1 (fun _ => rfl), copyTo_plenty h cap _ _ (by simp at hl ⊢; omega)]
            exact ih _ [] (.inr rfl) (by simp at hl ⊢; omega)
          · rw [normalizeLoop_parent _ _ _ (by simp)]
            exact ih _ [] (.inl rfl) (by simp at hl ⊢; omega)
        · have hne : acc ≠ [] := by rcases ha with rfl | rfl <;> simp [h3]
          rw [normalizeLoop_parent _ _ _ hne]
          refine ih _ _ ?_ (by rw [List.length_dropLast]; omega)
          rcases ha with rfl | rfl
          · exact .inl rfl
          · exact .inr (List.dropLast_cons_of_ne_nil h3)
      · rw [if_neg h2, normalizeLoop_push _ _ _ _ h1 (fun e => absurd e h2), copyTo_plenty h cap _ c (by omega)]
        refine ih _ _ ?_ (by simp; omega)
        rcases ha with rfl | rfl
        · exact .inl rfl
        · exact .inr rfl

theorem normalizeLoop_loses (h : Plenty alloc vec) (cap : Nat) (cs : List (List Byte)) : ∀ place,
    ¬StaysBelow place.length cs → place.length + 1 + cs.length ≤ cap →
    normalizeLoop alloc cap ([] :: place) cs = resolve place cs ∨
      normalizeLoop alloc cap ([] :: place) cs = parentRef :: resolve place cs := by
  induction cs with
  | nil => intro place hs _; exact absurd (fun k => by simp) hs
  | cons c cs ih =>
    intro place hs hl
    rw [List.length_cons] at hl
    rw [resolve]
    have c3 : selfRef ≠ parentRef := by decide
    by_cases h1 : c = selfRef
    · subst h1
      rw [if_pos rfl, normalizeLoop_self]
      exact ih place (fun hb => hs (hb.cons (by simp [c3, ordinary_self]))) (by omega)
    · rw [if_neg h1]
      by_cases h2 : c = parentRef
      · subst h2
        rw [if_pos rfl, normalizeLoop_parent _ _ _ (by simp)]
        by_cases h3 : place = []
        · subst h3
          exact normalizeLoop_lost h cap cs [] [] (.inl rfl) (by simp; omega)
        · have := List.length_pos_iff.mpr h3
          rw [List.dropLast_cons_of_ne_nil h3]
          refine ih _ (fun hb => hs ?_) (by rw [List.length_dropLast]; omega)
          rw [List.length_dropLast] at hb
          refine hb.cons ?_
          simp [ordinary_parent] <;> omega
      · have c4 : ordinary c = true := by simp [ordinary, h1, h2]
        rw [if_neg h2, normalizeLoop_push _ _ _ _ h1 (fun e => absurd e h2), copyTo_plenty h cap _ c (by simp; omega)]
        refine ih (place ++ [c]) (fun hb => hs ?_) (by simp; omega)
        rw [List.length_append, List.length_singleton] at hb
        refine hb.cons ?_
        simp [c4, h2]

/-- **C51**, exactly when an absolute path keeps its meaning, ".." at the root staying there: if it never leads above its
root. Otherwise the root is lost: what is left are the names without it, or behind a "..". -/
theorem C51_absolute_iff (h : Plenty alloc vec) (b : Bool) (cs : List (List Byte)) :
    (normalize alloc vec ⟨b, [] :: cs⟩ = ⟨false, [] :: resolve [] cs⟩ ↔ StaysBelow 0 cs) ∧
    (¬StaysBelow 0 cs → (normalize alloc vec ⟨b, [] :: cs⟩).comps = resolve [] cs ∨
      (normalize alloc vec ⟨b, [] :: cs⟩).comps = parentRef :: resolve [] cs) := by
  have hbad : ¬StaysBelow 0 cs → (normalize alloc vec ⟨b, [] :: cs⟩).comps = resolve [] cs ∨
      (normalize alloc vec ⟨b, [] :: cs⟩).comps = parentRef :: resolve [] cs := by
    intro hs
    rw [normalize, h.vec]
    simp only [ofVector]
    rw [normalizeLoop_push _ _ _ _ (by decide) (fun e => (by cases e)), copyTo_plenty h _ _ _ (by simp), List.nil_append]
    exact normalizeLoop_loses h _ cs [] hs (by simp; omega)
  refine ⟨⟨fun he => Classical.byContradiction fun hs => ?_, fun hs => (C51_absolute_partial h b cs hs).1⟩, hbad⟩
  rcases hbad hs with e | e
  · rw [he] at e
    exact absurd (congrArg List.length e) (by simp)
  · rw [he] at e
    exact absurd (List.cons.inj e).1 (by decide)

/-- **C51**, exactly when the result can be queried: if a component is left, or there was none (memory available). -/
theorem C51_query_iff (h : Plenty alloc vec) (p : Path) :
    (isAbsolute (normalize alloc vec p) = .terminate ↔ p.comps ≠ [] ∧ (normalize alloc vec p).comps = []) ∧
    (isAbsolute (normalize alloc vec p) ≠ .terminate → ∃ b, isAbsolute (normalize alloc vec p) = .ok b) := by
  have hb : (normalize alloc vec p).noBuffer = (p.comps.length == 0) := by rw [normalize, h.vec]; rfl
  have h0 : p.comps = [] → (normalize alloc vec p).comps = [] := by
    intro e; rw [normalize, h.vec, e]; rfl
  generalize normalize alloc vec p = x at *
  obtain ⟨xb, xc⟩ := x
  simp only at hb h0 ⊢
  by_cases hp : p.comps = []
  · have : xb = true := by rw [hb, hp]; rfl
    rw [this, isAbsolute_none]
    exact ⟨⟨fun h => (by cases h), fun h => absurd hp h.1⟩, fun _ => ⟨_, rfl⟩⟩
  · have : xb = false := by
      rw [hb, beq_eq_false_iff_ne]
      exact fun e => hp (List.length_eq_zero_iff.mp e)
    rw [this]
    cases xc with
    | nil => exact ⟨⟨fun _ => ⟨hp, rfl⟩, fun _ => isAbsolute_hollow⟩, fun hn => absurd isAbsolute_hollow hn⟩
    | cons c cs =>
      rw [isAbsolute_cons]
      exact ⟨⟨fun h => (by cases h), fun h => (by cases h.2)⟩, fun _ => ⟨_, rfl⟩⟩

/-- "../a/.." never leads more than one step above its start, "../.." does; "/.." leads above its root. -/
example : StaysBelow 1 [parentRef, [0x61#8], parentRef] ∧ ¬StaysBelow 1 [parentRef, parentRef] ∧ ¬StaysBelow 0 [parentRef] ∧
    canonical [parentRef, parentRef] = [parentRef, parentRef] := by
  refine ⟨fun k => ?_, fun h => absurd (h 2) (by decide), fun h => absurd (h 1) (by decide), by decide⟩
  match k with
  | 0 | 1 | 2 => decide
  | k + 3 => rw [List.take_of_length_le (by simp)]; decide

end Solace.Path
