import Verif.Model.OptionalLifetime
import Verif.Lemmas.Lifetime
/-
C57: Optional and Result destroy their payload exactly once.
-/
namespace Solace.Payload
open Lifetime

def heldBy (v : Option Obj) : List Nat := (v.bind payload).toList

def held (vars : List (Option Obj)) : List Nat := vars.flatMap heldBy

theorem held_append (a b : List (Option Obj)) : held (a ++ b) = held a ++ held b := by
  rw [held, held, held, List.flatMap_append]

theorem held_set (x : Option Obj) : ∀ (vars : List (Option Obj)) (v : Nat), v < vars.length →
    (held (vars.set v x)).Perm (heldBy x ++ held (vars.set v none)) := by
  intro vars
  induction vars with
  | nil => intro v h; simp at h
  | cons y ys ih =>
    intro v h
    cases v with
    | zero => simp [held, heldBy]
    | succ n =>
      simp only [held, List.set_cons_succ, List.flatMap_cons] at ih ⊢
      have := (ih n (by simpa using h)).append_left (heldBy y)
      refine this.trans ?_
      rw [← List.append_assoc, ← List.append_assoc]
      exact List.perm_append_comm.append_right _

theorem get_some {w : World} {a : Nat} {o : Obj} (h : w.get a = some o) : ∃ ha : a < w.vars.length, w.vars[a] = some o := by
  rw [World.get] at h
  cases hv : w.vars[a]? with
  | none => rw [hv] at h; cases h
  | some x =>
    rw [hv] at h
    obtain ⟨ha, hx⟩ := List.getElem?_eq_some_iff.mp hv
    exact ⟨ha, by rw [hx]; exact h⟩

theorem held_get {w : World} {a : Nat} {o : Obj} (h : w.get a = some o) :
    (held w.vars).Perm (heldBy (some o) ++ held (w.vars.set a none)) := by
  obtain ⟨ha, hx⟩ := get_some h
  have := held_set (some o) w.vars a ha
  have hself : w.vars.set a (some o) = w.vars := by rw [← hx, List.set_getElem_self]
  rwa [hself] at this

/-- What holds between operations: exactly the payloads of the variables are alive. -/
def Inv (w : World) : Prop := Leaves w.log w.next (held w.vars)

theorem Inv.uses {w : World} (h : Inv w) {a : Nat} {o : Obj} (ha : w.get a = some o) :
    Leaves (w.log ++ useEvents (payload o)) w.next (held w.vars) := by
  cases hp : payload o with
  | none => rw [useEvents, List.append_nil]; exact h
  | some p =>
    rw [useEvents]
    exact h.use ((held_get ha).mem_iff.mpr (by simp [heldBy, hp]))

theorem destroyOld {log : List Event} {next : Nat} {p : Option Nat} {rest : List Nat} (h : Leaves log next (p.toList ++ rest)) :
    Leaves (log ++ destroyEvents p) next rest := by
  cases p with
  | none => simpa [destroyEvents] using h
  | some p => exact Leaves.destroy h

theorem create_inv {w : World} (h : Inv w) (obj : Nat → Obj) (hobj : ∀ n, payload (obj n) = some n) (throws : Bool) :
    Inv (create w obj throws) := by
  rw [create]
  cases throws with
  | true => exact h
  | false =>
    show Leaves _ _ (held (w.vars ++ [some (obj w.next)]))
    refine h.construct.perm ?_
    rw [held_append, held, held]
    simp only [List.flatMap_cons, List.flatMap_nil, List.append_nil, heldBy, Option.bind_some, hobj, Option.toList_some]
    exact (List.perm_append_singleton _ _).symm

theorem append_none {vars : List (Option Obj)} {log : List Event} {next : Nat} (h : Inv ⟨vars, log, next⟩) :
    Inv ⟨vars ++ [some (.opt none)], log, next⟩ := by
  show Leaves _ _ (held (vars ++ _))
  rw [held_append]
  have : held [some (.opt none)] = [] := rfl
  rw [this, List.append_nil]
  exact h

theorem copyFrom_inv {w : World} (h : Inv w) (a : Nat) (throws : Bool) : Inv (copyFrom w a throws) := by
  rw [copyFrom]
  split
  · exact h
  · exact append_none h
  · rename_i p hp
    exact create_inv (w := ⟨w.vars, w.log ++ [Event.use p], w.next⟩) (h.uses hp) _ (fun _ => rfl) _
  · rename_i ok p hp
    exact create_inv (w := ⟨w.vars, w.log ++ [Event.use p], w.next⟩) (h.uses hp) _ (fun _ => rfl) _

theorem assign_inv {w : World} (h : Inv w) {a : Nat} {p source : Option Nat} (ha : w.get a = some (.opt p)) (throws : Bool)
    (hs : ∀ q, source = some q → q ∈ held (w.vars.set a none)) : Inv (assign w a p source throws) := by
  obtain ⟨hlt, hx⟩ := get_some ha
  have h1 : Leaves (w.log ++ destroyEvents p) w.next (held (w.vars.set a none)) :=
    destroyOld (h.perm (held_get ha))
  have h2 : Leaves (w.log ++ destroyEvents p ++ useEvents source) w.next (held (w.vars.set a none)) := by
    cases source with
    | none => simpa [useEvents] using h1
    | some q => exact h1.use (hs q rfl)
  rw [assign]
  cases throws with
  | true => exact h2.perm (held_set (some (.opt none)) _ _ hlt).symm
  | false => exact h2.construct.perm (held_set (some (.opt (some w.next))) _ _ hlt).symm

theorem held_none_other {w : World} {a b : Nat} {o o' : Obj} (ha : w.get a = some o) (hb : w.get b = some o') (hab : a ≠ b) :
    (held w.vars).Perm (heldBy (some o) ++ (heldBy (some o') ++ held ((w.vars.set a none).set b none))) := by
  obtain ⟨hlb, hxb⟩ := get_some hb
  refine (held_get ha).trans (List.Perm.append_left _ ?_)
  have : (⟨w.vars.set a none, [], 0⟩ : World).get b = some o' := by
    rw [World.get]
    simp only
    rw [List.getElem?_set_ne hab]
    exact hb
  exact held_get this

theorem held_two {w : World} {a b : Nat} (x y : Option Obj) (ha : a < w.vars.length) (hb : b < w.vars.length) (hab : a ≠ b) :
    (held ((w.vars.set a x).set b y)).Perm (heldBy x ++ (heldBy y ++ held ((w.vars.set a none).set b none))) := by
  refine (held_set _ _ b (by simpa using hb)).trans ?_
  have h1 : (w.vars.set a x).set b none = (w.vars.set b none).set a x := List.set_comm _ _ hab
  have h2 : (w.vars.set a none).set b none = (w.vars.set b none).set a none := List.set_comm _ _ hab
  rw [h1, h2]
  refine ((held_set x _ a (by simpa using ha)).append_left _).trans ?_
  rw [← List.append_assoc, ← List.append_assoc]
  exact List.perm_append_comm.append_right _

theorem swapOpt_inv {w : World} (h : Inv w) {a b : Nat} {p q : Option Nat} (ha : w.get a = some (.opt p))
    (hb : w.get b = some (.opt q)) : Inv (swapOpt w a b p q) := by
  obtain ⟨hla, hxa⟩ := get_some ha
  obtain ⟨hlb, hxb⟩ := get_some hb
  have hne : ∀ {p q : Option Nat}, w.get a = some (.opt p) → w.get b = some (.opt q) → p ≠ q → a ≠ b := by
    rintro p q h1 h2 hpq rfl
    rw [h1] at h2
    cases h2
    exact hpq rfl
  cases p with
  | none =>
    cases q with
    | none => exact h
    | some q =>
      have hab : a ≠ b := hne ha hb (by simp)
      have hm : q ∈ held w.vars := (held_get hb).mem_iff.mpr (by simp [heldBy, payload])
      show Leaves (w.log ++ [.use q, .construct w.next, .destroy q]) _ (held ((w.vars.set a _).set b _))
      have hsplit : w.log ++ [.use q, .construct w.next, .destroy q] = ((w.log ++ [.use q]) ++ [.construct w.next]) ++ [.destroy q] := by simp
      rw [hsplit]
      refine Leaves.perm (Leaves.destroy ((Leaves.construct (h.use hm)).perm ?_)) (held_two _ _ hla hlb hab).symm
      refine ((held_none_other ha hb hab).cons _).trans ?_
      simp only [heldBy, payload, Option.bind_some, Option.toList_some, Option.toList_none, List.nil_append, List.cons_append]
      exact List.Perm.swap _ _ _
  | some p =>
    have hmp : p ∈ held w.vars := (held_get ha).mem_iff.mpr (by simp [heldBy, payload])
    cases q with
    | none =>
      have hab : a ≠ b := hne ha hb (by simp)
      show Leaves (w.log ++ [.use p, .construct w.next, .destroy p]) _ (held ((w.vars.set b _).set a _))
      have hsplit : w.log ++ [.use p, .construct w.next, .destroy p] = ((w.log ++ [.use p]) ++ [.construct w.next]) ++ [.destroy p] := by simp
      rw [hsplit]
      refine Leaves.perm (Leaves.destroy ((Leaves.construct (h.use hmp)).perm ?_)) (held_two _ _ hlb hla (Ne.symm hab)).symm
      refine ((held_none_other hb ha (Ne.symm hab)).cons _).trans ?_
      simp only [heldBy, payload, Option.bind_some, Option.toList_some, Option.toList_none, List.nil_append, List.cons_append]
      exact List.Perm.swap _ _ _
    | some q =>
      have hmq : q ∈ held w.vars := (held_get hb).mem_iff.mpr (by simp [heldBy, payload])
      show Leaves (w.log ++ [.use q, .construct w.next, .use p, .use q, .use w.next, .use p, .destroy w.next]) _ (held w.vars)
      have hsplit : w.log ++ [.use q, .construct w.next, .use p, .use q, .use w.next, .use p, .destroy w.next] =
          ((((((w.log ++ [.use q]) ++ [.construct w.next]) ++ [.use p]) ++ [.use q]) ++ [.use w.next]) ++ [.use p]) ++
            [.destroy w.next] := by simp
      rw [hsplit]
      exact Leaves.destroy (((((Leaves.construct (h.use hmq)).use (List.mem_cons_of_mem _ hmp)).use
        (List.mem_cons_of_mem _ hmq)).use (List.mem_cons_self ..)).use (List.mem_cons_of_mem _ hmp))

theorem swapRes_inv {w : World} (h : Inv w) {a b : Nat} {ok ok' : Bool} {p q : Nat} (ha : w.get a = some (.res ok p))
    (hb : w.get b = some (.res ok' q)) (hab : a ≠ b) : Inv (swapRes w a b ok p ok' q) := by
  obtain ⟨hla, hxa⟩ := get_some ha
  obtain ⟨hlb, hxb⟩ := get_some hb
  have hpay : payloadAt (w.vars.set a (some (.res ok' (w.next + 1)))) b = some q := by
    rw [payloadAt, List.getElem?_set_ne hab]
    have : (w.vars[b]?).join = some (.res ok' q) := hb
    rw [this]
    rfl
  rw [swapRes]
  simp only [hpay, destroyEvents]
  have hsplit : w.log ++ [.use p, .construct w.next, .destroy p, .use q, .construct (w.next + 1)] ++ [.destroy q] ++
      [.use w.next, .construct (w.next + 2), .destroy w.next] =
      ((((((((w.log ++ [.use p]) ++ [.construct w.next]) ++ [.destroy p]) ++ [.use q]) ++ [.construct (w.next + 1)]) ++
        [.destroy q]) ++ [.use w.next]) ++ [.construct (w.next + 2)]) ++ [.destroy w.next] := by simp
  show Leaves _ _ _
  rw [hsplit]
  generalize hR : held ((w.vars.set a none).set b none) = R
  have h0 : Leaves w.log w.next (p :: q :: R) := by
    refine h.perm ((held_none_other ha hb hab).trans ?_)
    rw [hR]
    simp [heldBy, payload]
  have h1 := (Leaves.construct (h0.use (List.mem_cons_self ..))).perm (List.Perm.swap _ _ _)
  have h2 := (Leaves.destroy h1).use (id := q) (by simp)
  have h3 := (Leaves.construct h2).perm (b := q :: (w.next + 1) :: w.next :: R) (by
    refine List.Perm.trans ?_ (List.Perm.swap _ _ _)
    exact (List.Perm.swap _ _ _).cons _)
  have h4 := (Leaves.destroy h3).use (id := w.next) (by simp)
  have h5 := (Leaves.construct h4).perm (b := w.next :: (w.next + 1) :: (w.next + 2) :: R) (by
    have e1 : ((w.next + 1 + 1) :: (w.next + 1) :: w.next :: R).Perm ((w.next + 1 + 1) :: w.next :: (w.next + 1) :: R) :=
      (List.Perm.swap _ _ _).cons _
    have e2 : ((w.next + 1 + 1) :: w.next :: (w.next + 1) :: R).Perm (w.next :: (w.next + 1 + 1) :: (w.next + 1) :: R) :=
      List.Perm.swap _ _ _
    have e3 : (w.next :: (w.next + 1 + 1) :: (w.next + 1) :: R).Perm (w.next :: (w.next + 1) :: (w.next + 2) :: R) :=
      (List.Perm.swap _ _ _).cons _
    exact (e1.trans e2).trans e3)
  refine (Leaves.destroy h5).perm ?_
  refine List.Perm.trans ?_ (held_two _ _ hla hlb hab).symm
  rw [hR]
  simp [heldBy, payload]

/-- The two operations that go wrong: swapping (or move-assigning) a `Result` with itself, and assigning to an `Optional` its
own payload. -/
def Proper (w : World) : Op → Prop
  | .swap a b => a = b → ∀ ok p, w.get a ≠ some (.res ok p)
  | .assignPayload a b _ => a = b → ∀ p, w.get a ≠ some (.opt (some p))
  | _ => True

theorem step_inv {w : World} (h : Inv w) (op : Op) (hp : Proper w op) : Inv (step w op) := by
  cases op with
  | newNone =>
    exact append_none h
  | newSome throws => exact create_inv h _ (fun _ => rfl) _
  | newResult ok throws => exact create_inv h _ (fun _ => rfl) _
  | «from» a throws => exact copyFrom_inv h a throws
  | assignNone a =>
    rw [step]
    split
    · rename_i p ha
      obtain ⟨hlt, -⟩ := get_some ha
      exact (destroyOld (h.perm (held_get ha))).perm (held_set (some (.opt none)) _ _ hlt).symm
    · exact h
  | assignValue a throws =>
    rw [step]
    split
    · rename_i p ha
      exact assign_inv h ha throws (by simp)
    · exact h
  | assignPayload a b throws =>
    rw [step]
    split
    · rename_i p q ha hb
      have hab : a ≠ b := by
        rintro rfl
        exact hp rfl q hb
      refine assign_inv h ha throws ?_
      intro q' hq
      cases hq
      have : (⟨w.vars.set a none, [], 0⟩ : World).get b = some (.opt (some q)) := by
        rw [World.get]
        simp only
        rw [List.getElem?_set_ne hab]
        exact hb
      exact (held_get this).mem_iff.mpr (by simp [heldBy, payload])
    · exact h
  | swap a b =>
    rw [step]
    split
    · rename_i p q ha hb
      exact swapOpt_inv h ha hb
    · rename_i ok p ok' q ha hb
      exact swapRes_inv h ha hb fun hab => hp hab ok p ha
    · exact h
  | access a =>
    rw [step]
    split
    · rename_i o ha
      exact h.uses ha
    · exact h
  | destroy a =>
    rw [step]
    split
    · rename_i o ha
      exact destroyOld (h.perm (held_get ha))
    · exact h

/-- All operations of the program are proper in the state they are executed in. -/
def ProperFrom (w : World) : List Op → Prop
  | [] => True
  | op :: ops => Proper w op ∧ ProperFrom (step w op) ops

theorem foldl_inv (ops : List Op) : ∀ w, Inv w → ProperFrom w ops → Inv (ops.foldl step w) := by
  induction ops with
  | nil => intro w h _; exact h
  | cons op ops ih => intro w h hp; exact ih _ (step_inv h op hp.1) hp.2

theorem closing_leaves (vars : List (Option Obj)) : ∀ {log : List Event} {next : Nat}, Leaves log next (held vars) →
    Leaves (log ++ vars.flatMap fun v => destroyEvents (v.bind payload)) next [] := by
  induction vars with
  | nil => intro log next h; simpa [held] using h
  | cons v vs ih =>
    intro log next h
    rw [List.flatMap_cons, ← List.append_assoc]
    exact ih (destroyOld h)

/-- **C57** (partial: without the two improper self operations, see `C57_self_swap` and `C57_own_payload`): in every program
over any number of objects every payload constructed is destroyed exactly once and used only while it is alive. -/
theorem C57_clean_partial (ops : List Op) (hp : ProperFrom World.init ops) : Clean (program ops) :=
  (closing_leaves _ (foldl_inv ops World.init Leaves.nil hp)).clean

/-- **C57** (partial, as above), in terms of counts and positions. -/
theorem C57_counts_partial (ops : List Op) (hp : ProperFrom World.init ops) (id : Nat) :
    (program ops).count (.construct id) ≤ 1 ∧
    (program ops).count (.destroy id) = (program ops).count (.construct id) ∧
    ∀ pre post, program ops = pre ++ .use id :: post → .construct id ∈ pre ∧ .destroy id ∉ pre := by
  have h := C57_clean_partial ops hp
  refine ⟨(h.counts id).1, (h.counts id).2, fun pre post e => ?_⟩
  rw [e] at h
  exact h.use

/-- Programs with `Optional`s only, without `a = mv(*a)`. -/
def OptionalOnly : Op → Prop
  | .newResult .. => False
  | .assignPayload a b _ => a ≠ b
  | _ => True

def AllOpt (w : World) : Prop := ∀ a o, w.get a = some o → ∃ p, o = .opt p

theorem get_append {vars : List (Option Obj)} {l : List Event} {n : Nat} {x : Option Obj} {a : Nat} {o : Obj}
    (h : World.get ⟨vars ++ [x], l, n⟩ a = some o) : World.get ⟨vars, l, n⟩ a = some o ∨ x = some o := by
  simp only [World.get] at h ⊢
  rw [List.getElem?_append] at h
  split at h
  · exact .inl h
  · cases hv : a - vars.length with
    | zero => rw [hv] at h; exact .inr (by simpa using h)
    | succ n => rw [hv] at h; simp at h

theorem get_set {vars : List (Option Obj)} {l : List Event} {n : Nat} {x : Option Obj} {a b : Nat} {o : Obj}
    (h : World.get ⟨vars.set b x, l, n⟩ a = some o) : World.get ⟨vars, l, n⟩ a = some o ∨ x = some o := by
  simp only [World.get] at h ⊢
  rw [List.getElem?_set] at h
  split at h
  · split at h
    · exact .inr h
    · cases h
  · exact .inl h

theorem AllOpt.append {w : World} (h : AllOpt w) (x : Option Nat) (l : List Event) (n : Nat) :
    AllOpt ⟨w.vars ++ [some (.opt x)], l, n⟩ := by
  intro a o ho
  rcases get_append ho with ho | ho
  · exact h a o ho
  · exact ⟨x, by cases ho; rfl⟩

theorem AllOpt.set {vars : List (Option Obj)} {l' : List Event} {n' : Nat} (h : AllOpt ⟨vars, l', n'⟩) (b : Nat)
    (x : Option Nat) (l : List Event) (n : Nat) : AllOpt ⟨vars.set b (some (.opt x)), l, n⟩ := by
  intro a o ho
  rcases get_set ho with ho | ho
  · exact h a o ho
  · exact ⟨x, by cases ho; rfl⟩

theorem AllOpt.step {w : World} (h : AllOpt w) (op : Op) (ho : OptionalOnly op) : AllOpt (step w op) := by
  cases op with
  | newNone => exact h.append none _ _
  | newSome throws =>
    cases throws with
    | true => exact h
    | false => exact h.append (some _) _ _
  | newResult ok throws => exact ho.elim
  | «from» a throws =>
    rw [Payload.step, copyFrom]
    split
    · exact h
    · exact h.append none _ _
    · cases throws with
      | true => exact h
      | false => exact AllOpt.append (w := ⟨w.vars, _, w.next⟩) h (some _) _ _
    · rename_i ok p hp
      obtain ⟨p', hp'⟩ := h _ _ hp
      cases hp'
  | assignNone a =>
    rw [Payload.step]
    split
    · exact AllOpt.set h a none _ _
    · exact h
  | assignValue a throws =>
    rw [Payload.step]
    split
    · cases throws <;> exact AllOpt.set h a _ _ _
    · exact h
  | assignPayload a b throws =>
    rw [Payload.step]
    split
    · cases throws <;> exact AllOpt.set h a _ _ _
    · exact h
  | swap a b =>
    rw [Payload.step]
    split
    · rename_i p q _ _
      cases p <;> cases q
      · exact h
      · exact AllOpt.set (AllOpt.set h a _ [] 0) b none _ _
      · exact AllOpt.set (AllOpt.set h b _ [] 0) a none _ _
      · exact h
    · rename_i ok p ok' q ha _
      obtain ⟨p', hp'⟩ := h _ _ ha
      cases hp'
    · exact h
  | access a =>
    rw [Payload.step]
    split <;> exact h
  | destroy a =>
    rw [Payload.step]
    split
    · intro b o hb
      rcases get_set hb with hb | hb
      · exact h b o hb
      · cases hb
    · exact h

theorem properFrom_optional (ops : List Op) : ∀ w, AllOpt w → (∀ op ∈ ops, OptionalOnly op) → ProperFrom w ops := by
  induction ops with
  | nil => intro w _ _; trivial
  | cons op ops ih =>
    intro w hw ho
    have h0 := ho op (List.mem_cons_self ..)
    refine ⟨?_, ih _ (hw.step op h0) fun o h => ho o (List.mem_cons_of_mem _ h)⟩
    cases op with
    | assignPayload a b t => exact fun e => absurd e h0
    | swap a b =>
      intro _ ok p ha
      obtain ⟨p', hp'⟩ := hw _ _ ha
      cases hp'
    | _ => trivial

/-- **C57** (partial: without `a = mv(*a)`) for `Optional` alone: self-swap and self-move-assignment are fine. -/
theorem C57_optional_partial (ops : List Op) (ho : ∀ op ∈ ops, OptionalOnly op) : Clean (program ops) :=
  C57_clean_partial ops (properFrom_optional ops World.init (by simp [AllOpt, World.get, World.init]) ho)

/-- **C57, negation**: a `Result` swapped with itself (or move-assigned to itself) is used after its destruction. -/
theorem C57_self_swap : ¬ Clean (program [.newResult true false, .swap 0 0]) := by decide

/-- **C57, negation**, whatever comes before: if every program so far was proper and variable `a` holds a `Result`, swapping
it with itself makes the log illegal, and nothing that follows makes it legal. -/
theorem C57_self_swap_always (w : World) (h : Inv w) (a : Nat) (ok : Bool) (p : Nat) (ha : w.get a = some (.res ok p)) :
    replay ⟨[], []⟩ (step w (.swap a a)).log = none := by
  obtain ⟨s, h1, h2, h3⟩ := h
  have hm : p ∈ s.alive := h3.mem_iff.mpr ((held_get ha).mem_iff.mpr (by simp [heldBy, payload]))
  have hlt : ∀ i ∈ s.seen, i < w.next := h2
  rw [step]
  simp only [ha]
  rw [swapRes]
  simp only [List.append_assoc]
  rw [replay_append, h1, Option.bind_some]
  have hn : w.next ∉ s.seen := fun hc => Nat.lt_irrefl _ (h2 _ hc)
  have hnd : s.alive.Nodup ∧ ∀ i ∈ s.alive, i ∈ s.seen := by
    obtain ⟨g1, g2, -⟩ := replay_counts 0 w.log _ s h1 .nil (by simp)
    exact ⟨g1, g2⟩
  have hpn : w.next ≠ p := by rintro rfl; exact hn (hnd.2 _ hm)
  have hm' : p ∈ w.next :: s.alive := List.mem_cons_of_mem _ hm
  have hg : p ∉ (w.next :: s.alive).erase p := by
    rw [List.erase_cons_tail (by simpa using hpn)]
    rw [List.mem_cons, not_or]
    refine ⟨fun e => hpn e.symm, fun hc => ?_⟩
    exact (List.Nodup.mem_erase_iff hnd.1).mp hc |>.1 rfl
  simp [replay, Lifetime.step, hm, hn, hm', hg]

/-- **C57, negation**: `a = mv(*a)` moves from the payload after destroying it. -/
theorem C57_own_payload : ¬ Clean (program [.newSome false, .assignPayload 0 0 false]) := by decide

example : ProperFrom World.init [.newSome false, .newNone, .swap 0 1, .swap 0 0, .newResult true false, .newResult false false,
    .swap 2 3, .assignPayload 0 1 false, .from 3 false, .assignNone 1, .destroy 2] := by
  simp [ProperFrom, Proper, World.get, World.init, step, create, swapOpt]

end Solace.Payload
