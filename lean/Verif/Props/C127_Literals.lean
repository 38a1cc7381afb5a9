import Verif.Lemmas.LiteralWorld

/-
C127: strings, error tags and versions made from literals.
-/
namespace Solace.Literal

/-- **C127** (exact), one statement: in a program that kept the promise so far, a statement breaks it exactly if it makes a `StringLiteral`
of an array that is no literal, or exchanges a `StringLiteral` with a `StringView` of such an array. -/
theorem C127_step (ops : List Op) (op : Op) (h : Promise (run World.empty ops)) :
    Promise (step (run World.empty ops) op) ↔ ¬Breaks (run World.empty ops) op := by
  have hi := run_inv inv_empty ops
  generalize run World.empty ops = w at h hi ⊢
  have he := step_ext w op
  have hold : ∀ u ∈ w.vars, u.literal = true → Lasting (step w op) u.view := fun u hu hl => (h u hu hl).ext he
  cases op with
  | array bytes s => simp only [Breaks, not_false_eq_true, iff_true]; exact hold
  | leave i =>
    simp only [Breaks, not_false_eq_true, iff_true]
    intro u hu
    have : (step w (.leave i)).vars = w.vars := by simp only [step]; split <;> (try split) <;> rfl
    rw [this] at hu
    exact hold u hu
  | write i j b =>
    simp only [Breaks, not_false_eq_true, iff_true]
    intro u hu
    have : (step w (.write i j b)).vars = w.vars := by simp only [step]; split <;> (try split) <;> rfl
    rw [this] at hu
    exact hold u hu
  | default l =>
    simp only [Breaks, not_false_eq_true, iff_true]
    intro u hu hl
    simp only [step, List.mem_append, List.mem_singleton] at hu
    rcases hu with hu | rfl
    · exact hold u hu hl
    · intro i off hd; simp at hd
  | literal i =>
    cases hx : w.arrs[i]? with
    | none => simpa [step, hx, Breaks] using h
    | some a =>
      by_cases hl : a.live = true
      · simp only [step, hx, hl, if_true, Breaks] at hold ⊢
        constructor
        · rintro hp ⟨b, hb, _, hs⟩
          have hb : a = b := by simpa using hb
          subst hb
          obtain ⟨c, hc, hs'⟩ := hp ⟨true, ⟨some (i, 0), a.bytes.length - 1⟩⟩ (by simp) rfl i 0 rfl
          rw [show ({ w with vars := w.vars ++ [⟨true, ⟨some (i, 0), a.bytes.length - 1⟩⟩] } : World).arrs[i]? = some a from hx] at hc
          cases hc
          exact hs hs'
        · intro hn u hu hul
          simp only [List.mem_append, List.mem_singleton] at hu
          rcases hu with hu | rfl
          · exact hold u hu hul
          · intro j off hd
            simp only [Option.some.injEq, Prod.mk.injEq] at hd
            obtain ⟨rfl, rfl⟩ := hd
            refine ⟨a, hx, ?_⟩
            apply Classical.byContradiction
            intro hs
            exact hn ⟨a, rfl, hl, hs⟩
      · simp only [step, hx, hl, Breaks]
        simpa [hl] using h
  | view i off n =>
    simp only [Breaks, not_false_eq_true, iff_true]
    intro u hu hl
    have hm : u ∈ w.vars := by
      simp only [step] at hu
      split at hu
      · split at hu
        · simp only [List.mem_append, List.mem_singleton] at hu
          rcases hu with hu | rfl
          · exact hu
          · simp at hl
        · exact hu
      · exact hu
    exact hold u hm hl
  | sub x a b =>
    simp only [Breaks, not_false_eq_true, iff_true]
    intro u hu hl
    have hm : u ∈ w.vars := by
      simp only [step] at hu
      split at hu
      · simp only [List.mem_append, List.mem_singleton] at hu
        rcases hu with hu | rfl
        · exact hu
        · simp at hl
      · exact hu
    exact hold u hm hl
  | assign x y =>
    simp only [Breaks, not_false_eq_true, iff_true]
    intro z hz hl
    cases hx : w.vars[x]? with
    | none => simp only [step, hx] at hz hold; exact (hold z hz hl).ext (step_ext w _)
    | some u =>
      cases hy : w.vars[y]? with
      | none => simp only [step, hx, hy] at hz hold; exact (hold z hz hl).ext (step_ext w _)
      | some v =>
        by_cases hc : u.literal ∧ ¬v.literal
        · have hs : step w (.assign x y) = w := by simp only [step, hx, hy]; exact if_pos hc
          rw [hs] at hz
          exact hold z hz hl
        · have hs : (step w (.assign x y)).vars = w.vars.set x { u with view := v.view } := by
            simp only [step, hx, hy]; rw [if_neg hc]
          rw [hs] at hz
          rcases mem_set hz with hz | rfl
          · exact hold z hz hl
          · have hul : u.literal = true := hl
            have hvl : v.literal = true := by
              cases hv : v.literal with
              | true => rfl
              | false => exact absurd ⟨hul, by simp [hv]⟩ hc
            exact hold v (mem_of_get hy) hvl
  | swap x y =>
    cases hx : w.vars[x]? with
    | none => simpa [step, hx, Breaks] using h
    | some u =>
      cases hy : w.vars[y]? with
      | none => simpa [step, hx, hy, Breaks] using h
      | some v =>
        have hxl : x < w.vars.length := (List.getElem?_eq_some_iff.1 hx).1
        have hyl : y < w.vars.length := (List.getElem?_eq_some_iff.1 hy).1
        have hvu := hi.vars u (mem_of_get hx)
        have hvv := hi.vars v (mem_of_get hy)
        have hs : (step w (.swap x y)).vars = (w.vars.set x { u with view := v.view }).set y { v with view := u.view } := by
          simp only [step, hx, hy]
        constructor
        · rintro hp ⟨u', v', hu', hv', hb⟩
          rw [hx] at hu'; rw [hy] at hv'
          cases hu'; cases hv'
          have hxy : x ≠ y := by
            rintro rfl
            rw [hx] at hy
            cases hy
            rcases hb with ⟨a, b, _⟩ | ⟨a, b, _⟩ <;> simp [a] at b
          rcases hb with ⟨h1, _, h3⟩ | ⟨_, h2, h3⟩
          · refine h3 ((lasting_iff hvv he).1 (hp { u with view := v.view } ?_ h1))
            rw [hs]
            apply List.mem_of_getElem? (i := x)
            rw [List.getElem?_set_ne (Ne.symm hxy)]
            simp [hxl]
          · refine h3 ((lasting_iff hvu he).1 (hp { v with view := u.view } ?_ h2))
            rw [hs]
            apply List.mem_of_getElem? (i := y)
            simp [hyl]
        · intro hn z hz hl
          rw [hs] at hz
          rcases mem_set hz with hz | rfl
          · rcases mem_set hz with hz | rfl
            · exact hold z hz hl
            · have hul : u.literal = true := hl
              show Lasting _ v.view
              cases hv : v.literal with
              | true => exact hold v (mem_of_get hy) hv
              | false =>
                apply (lasting_iff hvv he).2
                apply Classical.byContradiction
                intro hc
                exact hn ⟨u, v, hx, hy, .inl ⟨hul, hv, hc⟩⟩
          · have hvl : v.literal = true := hl
            show Lasting _ u.view
            cases hu : u.literal with
            | true => exact hold u (mem_of_get hx) hu
            | false =>
              apply (lasting_iff hvu he).2
              apply Classical.byContradiction
              intro hc
              exact hn ⟨u, v, hx, hy, .inr ⟨hu, hvl, hc⟩⟩
  | keep x =>
    simp only [Breaks, not_false_eq_true, iff_true]
    intro u hu
    have : (step w (.keep x)).vars = w.vars := by simp only [step]; split <;> (try split) <;> rfl
    rw [this] at hu
    exact hold u hu

example : Promise (run World.empty [.array [104#8] .literal, .literal 0, .array [105#8] .automatic, .view 1 0 1]) ∧
    Breaks (run World.empty [.array [104#8] .literal, .literal 0, .array [105#8] .automatic, .view 1 0 1]) (.swap 0 1) := by
  constructor
  · intro u hu hl i off hd
    simp [run, step, World.empty] at hu
    rcases hu with rfl | rfl
    · simp at hd
      exact ⟨⟨[104#8, 0#8], .literal, true⟩, by simp [run, step, World.empty, ← hd.1], rfl⟩
    · simp at hl
  · refine ⟨⟨true, ⟨some (0, 0), 1⟩⟩, ⟨false, ⟨some (1, 0), 1⟩⟩, by decide +kernel, by decide +kernel, .inl ⟨rfl, rfl, fun h => ?_⟩⟩
    obtain ⟨a, ha, hs⟩ := h 1 0 rfl
    simp [run, step, World.empty] at ha
    subst ha
    simp at hs

/-- Made from a literal, and all that is kept lasts. -/
def AllLast (w : World) : Prop := Promise w ∧ ∀ v ∈ w.kept, Lasting w v

theorem allLast_step (ops : List Op) (op : Op) (h : AllLast (run World.empty ops)) (hb : ¬Breaks (run World.empty ops) op) :
    AllLast (step (run World.empty ops) op) := by
  refine ⟨(C127_step ops op h.1).2 hb, ?_⟩
  have he := step_ext (run World.empty ops) op
  intro v hv
  obtain ⟨hp, hk⟩ := h
  generalize run World.empty ops = w at *
  have hmem : v ∈ w.kept ∨ ∃ u ∈ w.vars, u.literal = true ∧ v = u.view := by
    cases op with
    | keep x =>
      simp only [step] at hv
      split at hv
      · rename_i u hu
        split at hv
        · rename_i hl
          simp only [List.mem_append, List.mem_singleton] at hv
          rcases hv with hv | rfl
          · exact .inl hv
          · exact .inr ⟨u, mem_of_get hu, hl, rfl⟩
        · exact .inl hv
      · exact .inl hv
    | array bytes s => exact .inl hv
    | default l => exact .inl hv
    | leave i => left; simp only [step] at hv; split at hv <;> (try split at hv) <;> exact hv
    | write i j b => left; simp only [step] at hv; split at hv <;> (try split at hv) <;> exact hv
    | literal i => left; simp only [step] at hv; split at hv <;> (try split at hv) <;> exact hv
    | view i off n => left; simp only [step] at hv; split at hv <;> (try split at hv) <;> exact hv
    | sub x a b => left; simp only [step] at hv; split at hv <;> exact hv
    | assign x y => left; simp only [step] at hv; split at hv <;> (try split at hv) <;> exact hv
    | swap x y => left; simp only [step] at hv; split at hv <;> exact hv
  rcases hmem with hm | ⟨u, hu, hl, rfl⟩
  · exact (hk v hm).ext he
  · exact (hp u hu hl).ext he

theorem allLast_run (pre ops : List Op) (h : AllLast (run World.empty pre)) (hc : Clean (run World.empty pre) ops) :
    AllLast (run World.empty (pre ++ ops)) := by
  induction ops generalizing pre with
  | nil => simpa using h
  | cons op rest ih =>
    have e : run World.empty (pre ++ [op]) = step (run World.empty pre) op := by simp [run]
    have := ih (pre ++ [op]) (by rw [e]; exact allLast_step pre op h hc.1) (by rw [e]; exact hc.2)
    simpa using this

/-- **C127** (partial: for programs none of whose statements breaks the promise before the string is made; missing: the compiler accepts the
others too): what a string, an error tag or a version made from a literal shows is defined, and stays the same whatever the program does
later — even if it breaks the promise then. -/
theorem C127_kept_partial (before later : List Op) (hc : Clean World.empty before) (v : View) (hv : v ∈ (run World.empty before).kept) :
    read (run (run World.empty before) later) v = read (run World.empty before) v ∧ ∃ s, read (run World.empty before) v = .ok s := by
  have hi := run_inv inv_empty before
  have ha : AllLast (run World.empty ([] ++ before)) := allLast_run [] before
    ⟨fun u hu => by simp [run, World.empty] at hu, fun u hu => by simp [run, World.empty] at hu⟩ hc
  rw [List.nil_append] at ha
  exact read_lasting hi (hi.kept v hv) (ha.2 v hv) (run_ext _ later)

/-- **C127** (partial, as above): the same for the variables of type `StringLiteral`. -/
theorem C127_literals_partial (before later : List Op) (hc : Clean World.empty before) (u : Var) (hu : u ∈ (run World.empty before).vars)
    (hl : u.literal = true) :
    read (run (run World.empty before) later) u.view = read (run World.empty before) u.view ∧
      ∃ s, read (run World.empty before) u.view = .ok s := by
  have hi := run_inv inv_empty before
  have ha : AllLast (run World.empty ([] ++ before)) := allLast_run [] before
    ⟨fun u hu => by simp [run, World.empty] at hu, fun u hu => by simp [run, World.empty] at hu⟩ hc
  rw [List.nil_append] at ha
  exact read_lasting hi (hi.vars u hu) (ha.1 u hu hl) (run_ext _ later)

/-- A program for the examples: a literal `hi`, a view of an array on the stack, a string made from the literal. -/
private def tidy : List Op :=
  [.array [104#8, 105#8] .literal, .array [120#8] .automatic, .literal 0, .view 1 0 1, .default true, .swap 0 2, .assign 0 2, .keep 0,
   .leave 1]

example : Clean World.empty tidy ∧ (run World.empty tidy).kept = [⟨some (0, 0), 2⟩] ∧
    read (run World.empty tidy) ⟨some (0, 0), 2⟩ = .ok [104#8, 105#8] := by
  refine ⟨?_, by decide +kernel, by decide +kernel⟩
  simp [tidy, Clean, Breaks, step, World.empty]

/-- **C127** (exact): in every program, what is kept is safe from all that may follow exactly if it is empty or refers to a literal. -/
theorem C127_exact (ops : List Op) (v : View) (hv : v ∈ (run World.empty ops).kept) :
    (∀ later, read (run (run World.empty ops) later) v = read (run World.empty ops) v ∧ ∃ s, read (run World.empty ops) v = .ok s) ↔
      v.size = 0 ∨ Lasting (run World.empty ops) v := by
  have hi := run_inv inv_empty ops
  generalize run World.empty ops = w at hv hi ⊢
  have hin := hi.kept v hv
  constructor
  · intro h
    apply Classical.byContradiction
    intro hn
    have h0 : v.size ≠ 0 := fun h => hn (.inl h)
    apply hn
    right
    intro i off hd
    obtain ⟨a, ha, hl⟩ := hin.2 i off hd
    refine ⟨a, ha, ?_⟩
    have hlt : i < w.arrs.length := (List.getElem?_eq_some_iff.1 ha).1
    have hread : ∀ w' : World, read w' v = match w'.arrs[i]? with
        | none => .ub
        | some a => if a.live ∧ off + v.size ≤ a.bytes.length then .ok ((a.bytes.drop off).take v.size) else .ub := by
      intro w'
      unfold read
      rw [if_neg h0, hd]
      dsimp only
      cases w'.arrs[i]? <;> rfl
    have hlive : a.live = true := by
      apply Classical.byContradiction
      intro hc
      obtain ⟨_, s, hs⟩ := h []
      rw [hread, ha] at hs
      dsimp only at hs
      rw [if_neg (fun x => hc x.1)] at hs
      cases hs
    have hnow : read w v = .ok ((a.bytes.drop off).take v.size) := by
      rw [hread, ha]
      dsimp only
      rw [if_pos ⟨hlive, hl⟩]
    cases hs : a.storage with
    | literal => rfl
    | automatic =>
      exfalso
      obtain ⟨h1, _⟩ := h [.leave i]
      have e : (run w [.leave i]).arrs[i]? = some { a with live := false } := by
        show (step w (.leave i)).arrs[i]? = _
        simp only [step, ha, hs, if_true]
        rw [List.getElem?_set_self hlt]
      rw [hread (run w [.leave i]), e, hnow] at h1
      simp at h1
    | static =>
      exfalso
      have hlt2 : off < a.bytes.length := by omega
      obtain ⟨h1, _⟩ := h [.write i off (a.bytes[off] + 1#8)]
      have e : (run w [.write i off (a.bytes[off] + 1#8)]).arrs[i]? = some { a with bytes := a.bytes.set off (a.bytes[off] + 1#8) } := by
        show (step w (.write i off _)).arrs[i]? = _
        simp only [step, ha]
        rw [if_pos ⟨by rw [hs]; decide, hlive⟩]
        simp only
        rw [List.getElem?_set_self hlt]
      rw [hread (run w [.write i off (a.bytes[off] + 1#8)]), e, hnow] at h1
      dsimp only at h1
      rw [if_pos ⟨hlive, by simpa using hl⟩] at h1
      have h2 := Outcome.ok.inj h1
      have h3 := congrArg (fun l : List Byte => l[0]?) h2
      have hpos : 0 < v.size := by omega
      simp only [List.getElem?_take, hpos, if_true, List.getElem?_drop, Nat.add_zero] at h3
      rw [List.getElem?_set_self hlt2, List.getElem?_eq_getElem hlt2] at h3
      have h4 := Option.some.inj h3
      have h5 := congrArg BitVec.toNat h4
      have hb := (a.bytes[off]).isLt
      simp only [BitVec.toNat_add, BitVec.toNat_ofNat] at h5
      omega
  · rintro (h0 | hl) later
    · simp [read, h0]
    · exact read_lasting hi hin hl (run_ext _ later)

example : (⟨some (0, 0), 2⟩ : View) ∈ (run World.empty tidy).kept := by decide +kernel

/-- **C127, disagreement**: three programs the compiler accepts in which a string made from a `StringLiteral` dangles or changes: the
literal made of an array on the stack, of a buffer that is written later, and a literal exchanged with a view. -/
theorem C127_dangles :
    (∃ ops v, v ∈ (run World.empty ops).kept ∧ read (run World.empty ops) v = .ok [104#8, 105#8] ∧
      (∀ op ∈ ops, ∀ x y, op ≠ .swap x y) ∧ read (step (run World.empty ops) (.leave 0)) v = .ub) ∧
    (∃ ops v, v ∈ (run World.empty ops).kept ∧ read (run World.empty ops) v = .ok [104#8, 105#8] ∧
      (∀ op ∈ ops, ∀ x y, op ≠ .swap x y) ∧ read (step (run World.empty ops) (.write 0 0 111#8)) v = .ok [111#8, 105#8]) ∧
    (∃ ops v, v ∈ (run World.empty ops).kept ∧ read (run World.empty ops) v = .ok [104#8, 105#8] ∧
      (∀ op ∈ ops, ∀ i, op = .literal i → i = 1) ∧ (run World.empty ops).arrs[1]?.map (·.storage) = some .literal ∧
      read (step (run World.empty ops) (.leave 0)) v = .ub) := by
  refine ⟨⟨[.array [104#8, 105#8] .automatic, .literal 0, .keep 0], ⟨some (0, 0), 2⟩, by decide +kernel, by decide +kernel, ?_,
      by decide +kernel⟩,
    ⟨[.array [104#8, 105#8] .static, .literal 0, .keep 0], ⟨some (0, 0), 2⟩, by decide +kernel, by decide +kernel, ?_, by decide +kernel⟩,
    ⟨[.array [104#8, 105#8] .automatic, .array [120#8] .literal, .literal 1, .view 0 0 2, .swap 0 1, .keep 0], ⟨some (0, 0), 2⟩,
      by decide +kernel, by decide +kernel, ?_, by decide +kernel, by decide +kernel⟩⟩
  · simp
  · simp
  · simp

end Solace.Literal
