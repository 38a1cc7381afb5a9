import Verif.Model.Reuse
/-
C145: a result or optional with a name can be used again: the calls on it leave it as it was, and the same call gives the same answer.
`then` with a function that answers a value or nothing, `orElse` and `flatMap` do not keep this: they move the content out of the
variable.
-/
namespace Solace.Reuse

/-- The content after it was moved from. -/
def State.movedFrom (v e : Payload) : State → State
  | .ok x => .ok (v.moved x)
  | .error y => .error (e.moved y)

/-- **C145**: what a call answers does not depend on how the object is written. -/
theorem C145_answer (v e : Payload) (o₁ o₂ : Obj) (s : State) (c : ResCall) : (c.run v e o₁ s).1 = (c.run v e o₂ s).1 := by
  cases c <;> cases s <;> rfl

/-- After every call that compiles the object holds its content or the same moved from: it never changes its side, and nothing else is
written into it. -/
theorem C145_left (v e : Payload) (o : Obj) (s : State) (c : ResCall) (h : c.compiles v e o = true) :
    (c.run v e o s).2 = s ∨ (c.run v e o s).2 = State.movedFrom v e s := by
  have key : ∀ (t : Payload) (p : Param) (x : Nat) (how : How), p.forValue t = true → p.accepts t how = true →
      p.left t x how = x ∨ p.left t x how = t.moved x := by
    intro t p x how h1 h2
    cases p with
    | lref w => cases h1
    | rref b => cases b <;> simp [Param.left]
    | value => cases how <;> simp [Param.left]
    | cref => simp [Param.left]
  have aft : ∀ (t : Payload) (x : Nat) (how : How), t.after x how = x ∨ t.after x how = t.moved x := by
    intro t x how; cases how <;> simp [Payload.after]
  cases c with
  | thenResult p f =>
    simp only [ResCall.compiles, Bool.and_eq_true] at h
    cases s with
    | ok x => rcases key v p x o.plain h.1.1 h.1.2 with k | k <;> simp [ResCall.run, State.movedFrom, k]
    | error y => rcases aft e y o.plain with k | k <;> simp [ResCall.run, State.movedFrom, k]
  | thenPlain p f =>
    simp only [ResCall.compiles, Bool.and_eq_true] at h
    cases s with
    | ok x => rcases key v p x .rvalue h.1.1 h.2 with k | k <;> simp [ResCall.run, State.movedFrom, k]
    | error y => rcases aft e y .rvalue with k | k <;> simp [ResCall.run, State.movedFrom, k]
  | thenVoid p =>
    simp only [ResCall.compiles, Bool.and_eq_true] at h
    cases s with
    | ok x => rcases key v p x .rvalue h.1.1 h.2 with k | k <;> simp [ResCall.run, State.movedFrom, k]
    | error y => rcases aft e y .rvalue with k | k <;> simp [ResCall.run, State.movedFrom, k]
  | orElseResult p f =>
    simp only [ResCall.compiles, Bool.and_eq_true] at h
    cases s with
    | ok x => rcases aft v x .rvalue with k | k <;> simp [ResCall.run, State.movedFrom, k]
    | error y => rcases key e p y .rvalue h.1.1 h.2 with k | k <;> simp [ResCall.run, State.movedFrom, k]
  | orElsePlain p f =>
    simp only [ResCall.compiles, Bool.and_eq_true] at h
    cases s with
    | ok x => rcases aft v x .rvalue with k | k <;> simp [ResCall.run, State.movedFrom, k]
    | error y => rcases key e p y .rvalue h.1.1 h.2 with k | k <;> simp [ResCall.run, State.movedFrom, k]
  | mapError p f =>
    simp only [ResCall.compiles, Bool.and_eq_true] at h
    cases s with
    | ok x => rcases aft v x o.plain with k | k <;> simp [ResCall.run, State.movedFrom, k]
    | error y => rcases key e p y o.plain h.1.1 h.1.2 with k | k <;> simp [ResCall.run, State.movedFrom, k]
  | deref => cases s <;> simp [ResCall.run]
  | unwrap =>
    cases s with
    | ok x => rcases aft v x o.plain with k | k <;> simp [ResCall.run, State.movedFrom, k]
    | error y => simp [ResCall.run]
  | moveResult =>
    cases s with
    | ok x => rcases aft v x .rvalue with k | k <;> simp [ResCall.run, State.movedFrom, k]
    | error y => simp [ResCall.run]
  | moveError =>
    cases s with
    | ok x => simp [ResCall.run]
    | error y => rcases aft e y .rvalue with k | k <;> simp [ResCall.run, State.movedFrom, k]
  | getError => cases s <;> simp [ResCall.run]

/-- The calls that leave a result as it was. -/
def Keeping : Obj → ResCall → Prop
  | .const, _ => True
  | .named, .thenResult _ _ => True
  | .named, .mapError _ _ => True
  | .named, .unwrap => True
  | _, .deref => True
  | _, .getError => True
  | _, _ => False

theorem keeps (v e : Payload) (o : Obj) (s : State) (c : ResCall) (h : c.compiles v e o = true) (k : Keeping o c) :
    (c.run v e o s).2 = s := by
  have key : ∀ (t : Payload) (p : Param) (x : Nat) (how : How), p.forValue t = true → p.accepts t how = true → how ≠ .rvalue →
      p.left t x how = x := by
    intro t p x how h1 h2 h3
    cases p with
    | lref w => cases h1
    | rref b => cases how <;> simp [Param.accepts] at h2 h3
    | value => cases how <;> simp [Param.left] at h3 ⊢
    | cref => simp [Param.left]
  cases c with
  | thenResult p f =>
    simp only [ResCall.compiles, Bool.and_eq_true] at h
    cases o with
    | given => exact k.elim
    | named => cases s <;> simp [ResCall.run, Obj.plain, Payload.after, key v p _ .lvalue h.1.1 h.1.2]
    | const => cases s <;> simp [ResCall.run, Obj.plain, Payload.after, key v p _ .constLvalue h.1.1 h.1.2]
  | mapError p f =>
    simp only [ResCall.compiles, Bool.and_eq_true] at h
    cases o with
    | given => exact k.elim
    | named => cases s <;> simp [ResCall.run, Obj.plain, Payload.after, key e p _ .lvalue h.1.1 h.1.2]
    | const => cases s <;> simp [ResCall.run, Obj.plain, Payload.after, key e p _ .constLvalue h.1.1 h.1.2]
  | deref => cases s <;> rfl
  | getError => cases s <;> rfl
  | unwrap =>
    cases o with
    | given => exact k.elim
    | named => cases s <;> rfl
    | const => cases s <;> rfl
  | _ => cases o <;> first | exact k.elim | simp [ResCall.compiles] at h

/-- **C145, exactly**: a call leaves every state of the result as it was if and only if the result is const, or the call only reads, or it
is `then` with a function that answers a result, or `mapError`, on a variable. (For types whose moves leave something else.) -/
theorem C145_keeps_iff (v e : Payload) (hv : ∃ x, v.moved x ≠ x) (he : ∃ y, e.moved y ≠ y) (o : Obj) (c : ResCall)
    (h : c.compiles v e o = true) : (∀ s, (c.run v e o s).2 = s) ↔ Keeping o c := by
  constructor
  · intro a
    obtain ⟨x, hx⟩ := hv
    obtain ⟨y, hy⟩ := he
    have a1 := a (.ok x)
    have a2 := a (.error y)
    cases c <;> cases o <;> first
      | exact trivial
      | (simp [ResCall.compiles] at h; done)
      | (simp [ResCall.run, Payload.after, Obj.plain] at a1; exact absurd a1 hx)
      | (simp [ResCall.run, Payload.after, Obj.plain] at a2; exact absurd a2 hy)
  · intro k s
    exact keeps v e o s c h k

/-- **C145, negation**: on a variable, `then` with a function that answers a value or nothing, and `orElse`, leave exactly what they leave
of a result that is given away. -/
theorem C145_named_as_given (v e : Payload) (s : State) (p : Param) (f : Nat → Nat) (g : Nat → State) :
    (ResCall.run v e .named s (.thenPlain p f)).2 = (ResCall.run v e .given s (.thenPlain p f)).2 ∧
    (ResCall.run v e .named s (.thenVoid p)).2 = (ResCall.run v e .given s (.thenVoid p)).2 ∧
    (ResCall.run v e .named s (.orElseResult p g)).2 = (ResCall.run v e .given s (.orElseResult p g)).2 ∧
    (ResCall.run v e .named s (.orElsePlain p f)).2 = (ResCall.run v e .given s (.orElsePlain p f)).2 ∧
    (ResCall.run v e .named s (.thenPlain .value f)).2 = State.movedFrom v e s ∧
    (ResCall.run v e .named s (.thenVoid .value)).2 = State.movedFrom v e s ∧
    (ResCall.run v e .named s (.orElseResult .value g)).2 = State.movedFrom v e s ∧
    (ResCall.run v e .named s (.orElsePlain .value f)).2 = State.movedFrom v e s := by
  cases s <;> exact ⟨rfl, rfl, rfl, rfl, rfl, rfl, rfl, rfl⟩

/-- Which calls compile. On a variable or constant, `then` with a function that answers a result copies: the error always, the value for a
parameter by value; `T&&` parameters are refused. On a constant only these, `mapError` and reading are allowed. -/
theorem C145_compiles (v e : Payload) (o : Obj) (p : Param) (f : Nat → Nat) (g : Nat → State) :
    (ResCall.compiles v e o (.thenResult p g) = true ↔
      match p with
      | .lref _ => False
      | .rref _ => o = .given
      | .cref => o = .given ∨ e.copyable = true
      | .value => o = .given ∨ (v.copyable = true ∧ e.copyable = true)) ∧
    (ResCall.compiles v e o (.mapError p f) = true ↔
      match p with
      | .lref _ => False
      | .rref _ => o = .given
      | .cref => o = .given ∨ v.copyable = true
      | .value => o = .given ∨ (v.copyable = true ∧ e.copyable = true)) ∧
    (∀ c, (c = .thenPlain p f ∨ c = .thenVoid p ∨ c = .orElseResult p g ∨ c = .orElsePlain p f) →
      (ResCall.compiles v e o c = true ↔ o ≠ .const ∧ ∀ w, p ≠ .lref w)) ∧
    (ResCall.compiles v e o .unwrap = true ↔ o = .given ∨ v.copyable = true) := by
  refine ⟨?_, ?_, ?_, ?_⟩
  · cases p <;> cases o <;>
      simp [ResCall.compiles, Param.forValue, Param.accepts, Obj.plain, Payload.takes]
  · cases p <;> cases o <;>
      simp [ResCall.compiles, Param.forValue, Param.accepts, Obj.plain, Payload.takes, and_comm]
  · rintro c (rfl | rfl | rfl | rfl) <;> cases p <;> cases o <;>
      simp [ResCall.compiles, Param.forValue, Param.accepts]
  · cases o <;> simp [ResCall.compiles, Obj.plain, Payload.takes]

/-- **C145**, programs: any sequence of keeping calls leaves the result as it was, and each call answers what it would have answered
first. -/
theorem C145_program_partial (v e : Payload) (o : Obj) (s : State) (cs : List ResCall)
    (h : ∀ c ∈ cs, c.compiles v e o = true ∧ Keeping o c) :
    runAll v e o s cs = (cs.map fun c => (c.run v e o s).1, s) := by
  induction cs with
  | nil => rfl
  | cons c cs ih =>
    have hc := h c (by simp)
    have k := keeps v e o s c hc.1 hc.2
    simp only [runAll, k, ih fun d hd => h d (by simp [hd]), List.map_cons]

/-- **C145**, programs of any calls: the answers up to and including that of the first call that does not keep the result are those that
the result as it was would have given. -/
theorem C145_until_moved (v e : Payload) (o : Obj) (s : State) (cs : List ResCall) (d : ResCall)
    (h : ∀ c ∈ cs, c.compiles v e o = true ∧ Keeping o c) (rest : List ResCall) :
    (runAll v e o s (cs ++ d :: rest)).1 =
      (cs.map fun c => (c.run v e o s).1) ++ (d.run v e o s).1 :: (runAll v e o (d.run v e o s).2 rest).1 := by
  induction cs with
  | nil => rfl
  | cons c cs ih =>
    have hc := h c (by simp)
    have k := keeps v e o s c hc.1 hc.2
    simp only [List.cons_append, runAll, k, ih fun d hd => h d (by simp [hd]), List.map_cons]

/-! ### Optionals -/

/-- The calls that leave an optional as it was. -/
def OptKeeping : Obj → OptCall → Prop
  | .const, _ => True
  | _, .move => False
  | _, .flatMap .value _ => False
  | _, .flatMap (.rref true) _ => False
  | _, .map (.lref w) _ => ∀ x, w x = x
  | _, _ => True

/-- **C145**, optionals: what a call answers does not depend on how the object is written; it stays engaged or empty. -/
theorem C145_optional (t : Payload) (o₁ o₂ : Obj) (s : Option Nat) (c : OptCall) :
    (c.run t o₁ s).1 = (c.run t o₂ s).1 ∧ (c.run t o₁ s).2.isSome = s.isSome := by
  cases c <;> cases s <;> exact ⟨rfl, rfl⟩

/-- Exactly which calls leave every state of the optional as it was: not `move`, not `flatMap` with a function that takes a value (or
moves from its `T&&`), also on a variable; not `map` with a function that writes through its `T&`. -/
theorem C145_optional_keeps_iff (t : Payload) (ht : ∃ x, t.moved x ≠ x) (o : Obj) (c : OptCall) (h : c.compiles t o = true) :
    (∀ s, (c.run t o s).2 = s) ↔ OptKeeping o c := by
  obtain ⟨y, hy⟩ := ht
  have none_fix : ∀ q : Prop, ((∀ x, (c.run t o (some x)).2 = some x) ↔ q) → ((∀ s, (c.run t o s).2 = s) ↔ q) := by
    intro q hq
    rw [← hq]
    constructor
    · intro a x; exact a _
    · intro a s
      cases s with
      | none => cases c <;> rfl
      | some x => exact a x
  apply none_fix
  cases c with
  | map p f =>
    cases p with
    | value => cases o <;> cases hc : t.copyable <;> simp [OptCall.run, OptKeeping, Param.left, mapHow, Param.accepts, hc] at h ⊢
    | cref => cases o <;> simp [OptCall.run, OptKeeping, Param.left]
    | rref b => cases o <;> simp [OptCall.compiles, mapHow, Param.accepts] at h
    | lref w =>
      cases o <;> simp [OptCall.run, OptKeeping, Param.left, OptCall.compiles, mapHow, Param.accepts] at h ⊢
  | flatMap p f =>
    cases p with
    | value =>
      cases o <;> simp [OptCall.run, OptKeeping, Param.left]
      · exact ⟨y, hy⟩
      · exact ⟨y, hy⟩
    | cref => cases o <;> simp [OptCall.run, OptKeeping, Param.left]
    | rref b =>
      cases o <;> cases b <;> simp [OptCall.run, OptKeeping, Param.left, OptCall.compiles, Param.accepts] at h ⊢
      · exact ⟨y, hy⟩
      · exact ⟨y, hy⟩
    | lref w => cases o <;> simp [OptCall.compiles, Param.accepts] at h
  | filter p f =>
    cases p with
    | value => cases o <;> simp [OptCall.run, OptKeeping, Param.left]
    | cref => cases o <;> simp [OptCall.run, OptKeeping, Param.left]
    | rref b => cases o <;> simp [OptCall.compiles, Param.accepts] at h
    | lref w => cases o <;> simp [OptCall.compiles, Param.accepts] at h
  | get => cases o <;> simp [OptCall.run, OptKeeping]
  | move =>
    cases o <;> simp [OptCall.run, OptKeeping, OptCall.compiles] at h ⊢
    · exact ⟨y, hy⟩
    · exact ⟨y, hy⟩
  | orElse d => cases o <;> simp [OptCall.run, OptKeeping]

/-- Which calls on an optional compile. -/
theorem C145_optional_compiles (t : Payload) (o : Obj) (p : Param) (f : Nat → Nat) (g : Nat → Option Nat) (q : Nat → Bool) :
    (OptCall.compiles t o (.map p f) = true ↔
      match p with
      | .lref _ => o ≠ .const
      | .rref _ => False
      | .cref => True
      | .value => t.copyable = true) ∧
    (OptCall.compiles t o (.flatMap p g) = true ↔
      match p with
      | .lref _ => False
      | .rref _ => o ≠ .const
      | .cref => True
      | .value => o ≠ .const ∨ t.copyable = true) ∧
    (OptCall.compiles t o (.filter p q) = true ↔ p = .cref ∨ (p = .value ∧ t.copyable = true)) := by
  refine ⟨?_, ?_, ?_⟩
  · cases p <;> cases o <;> cases hc : t.copyable <;> simp [OptCall.compiles, mapHow, Param.accepts, hc]
  · cases p <;> cases o <;> simp [OptCall.compiles, Param.accepts]
  · cases p <;> simp [OptCall.compiles, Param.accepts]

/-- Programs on one optional. -/
theorem C145_optional_program_partial (t : Payload) (ht : ∃ x, t.moved x ≠ x) (o : Obj) (s : Option Nat) (cs : List OptCall)
    (h : ∀ c ∈ cs, c.compiles t o = true ∧ OptKeeping o c) :
    OptCall.runAll t o s cs = (cs.map fun c => (c.run t o s).1, s) := by
  induction cs with
  | nil => rfl
  | cons c cs ih =>
    have hc := h c (by simp)
    have k := (C145_optional_keeps_iff t ht o c hc.1).mpr hc.2 s
    simp only [OptCall.runAll, k, ih fun d hd => h d (by simp [hd]), List.map_cons]

/-! ### Concrete cases -/

/-- A string: moving leaves the empty one (0). -/
def text : Payload := { copyable := false, moved := fun _ => 0 }
/-- An error that can be copied; moving leaves 0. -/
def fault : Payload := { copyable := true, moved := fun _ => 0 }

/-- `r.then(f); r.then(f)` for a variable `r` and `f : V → V` gives `f(7)` and then `f(0)`. -/
example : (runAll text fault .named (.ok 7) [.thenPlain .value (· + 1), .thenPlain .value (· + 1)]) =
    ([.state (.ok 8), .state (.ok 1)], .ok 0) := rfl
/-- With a function that answers a result and takes a reference both give the same. -/
example : (runAll text fault .named (.ok 7) [.thenResult .cref (fun x => .ok (x + 1)), .thenResult .cref (fun x => .ok (x + 1))]) =
    ([.state (.ok 8), .state (.ok 8)], .ok 7) := rfl
example : ResCall.compiles text fault .named (.thenResult .cref fun x => .ok x) = true ∧
    Keeping .named (.thenResult .cref fun x => .ok x) := ⟨rfl, trivial⟩
/-- A string cannot be given by value from a variable. -/
example : ResCall.compiles text fault .named (.thenResult .value fun x => .ok x) = false := rfl
example : ∃ x, text.moved x ≠ x := ⟨7, by decide⟩
example : ∃ y, fault.moved y ≠ y := ⟨7, by decide⟩
example : OptCall.compiles fault .named (.map .value (· + 1)) = true ∧ OptKeeping .named (.map .value (· + 1)) := ⟨rfl, trivial⟩
example : (OptCall.runAll fault .named (some 7) [.flatMap .value some, .get]).1 = [.opt (some 7), .value 0] := rfl

end Solace.Reuse
