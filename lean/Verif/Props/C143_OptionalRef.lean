import Verif.Model.OptionalRef
/-! C143: an optional of a reference stands for the object it was made from. -/
namespace Solace.OptRef
open OptConv (Cat)

/-! ### What compiles -/

/-- **C143**: from what an `Optional<X&>` can be made: a `reference_wrapper`, an object or an optional object that has a name and is not
const, and other optionals of references. Temporaries are refused; so are const objects. -/
theorem C143_compiles (k : Kind) (c : Bool) (cat : Cat) :
    compiles .ref k c cat = true ↔
      k = .wrapper ∨ ((k = .obj ∨ k = .val) ∧ c = false ∧ cat = .lvalue) ∨ (k = .ref ∧ (c = false ∨ cat = .prvalue)) ∨
      (k = .cref ∧ (c = false ∨ cat = .lvalue)) := by
  cases k <;> cases c <;> cases cat <;> decide

/-- **C143, negation**: an `Optional<X const&>` cannot be made from a const object either, as its wrapper is one of `X`; and it can be
handed on to an `Optional<X&>`, through which the object can be changed. -/
theorem C143_const (k : Kind) (cat : Cat) :
    compiles .cref .obj true cat = false ∧ compiles .ref .cref false cat = true ∧
    (compiles .cref k true cat = true ↔ k = .wrapper ∨ (k = .cref ∧ cat = .prvalue) ∨ (k = .ref ∧ cat = .lvalue)) := by
  cases k <;> cases cat <;> decide

/-- **C143, negation**: what can be assigned to an `Optional<X&>`: never an object or a wrapper; `none`, an optional of a reference that
may be moved from, and an optional object with a name. -/
theorem C143_assign (r : Rhs) :
    assignCompiles r = true ↔
      r = .none ∨ (∃ cat, cat ≠ .lvalue ∧ r = .expr .ref false cat) ∨ r = .expr .val false .lvalue ∨
      ∃ c cat, (c = false ∨ cat = .lvalue) ∧ r = .expr .cref c cat := by
  cases r with
  | none => simp [assignCompiles]
  | expr k c cat => cases k <;> cases c <;> cases cat <;> simp [assignCompiles, wrapperFrom] <;> decide

/-! ### What is run -/

/-- A statement that lets `r` refer to something else. -/
def Rebinds (r : Nat) : Stmt → Prop
  | .bindObj q _ | .bindVal q _ | .copyRef q _ | .resetRef q => q = r
  | .moveRef q s => q = r ∨ s = r
  | _ => False

theorem upd_same (f : Nat → α) (i : Nat) (x : α) : upd f i x i = x := by simp [upd]
theorem upd_other (f : Nat → α) (i j : Nat) (x : α) (h : j ≠ i) : upd f i x j = f j := by simp [upd, h]

theorem load_ok {w : World} {p : Place} {v : Nat} : load w p = .ok v ↔ w.at? p = some v := by
  rw [load]; cases w.at? p <;> simp

theorem load_cases (w : World) (p : Place) : (∃ v, w.at? p = some v ∧ load w p = .ok v) ∨ (w.at? p = none ∧ load w p = .ub) := by
  rw [load]; cases w.at? p <;> simp

theorem put_refs (w : World) (p : Place) (v : Nat) : (w.put p v).refs = w.refs := by cases p <;> rfl

theorem put_at (w : World) (p q : Place) (v : Nat) : (w.put p v).at? q = if q = p then some v else w.at? q := by
  cases p <;> cases q <;> simp [World.put, World.at?, upd]

theorem step_refs (w w' : World) (s : Stmt) (o : Seen) (h : step w s = .ok (w', o)) (r : Nat) (hr : ¬Rebinds r s) :
    w'.refs r = w.refs r := by
  cases s with
  | setObj a v =>
    simp only [step] at h
    cases hw : w.objs a <;> rw [hw] at h <;> cases h
    rfl
  | readObj a =>
    simp only [step] at h
    rcases load_cases w (.obj a) with ⟨v, _, e⟩ | ⟨_, e⟩ <;> rw [e] at h <;> cases h
    rfl
  | valOf i a =>
    simp only [step] at h
    rcases load_cases w (.obj a) with ⟨v, _, e⟩ | ⟨_, e⟩ <;> rw [e] at h <;> cases h
    rfl
  | endObj a => cases h; rfl
  | setVal i v => cases h; rfl
  | resetVal i => cases h; rfl
  | swapVal i j => cases h; rfl
  | bindObj q a =>
    simp only [step] at h
    cases hw : w.objs a <;> rw [hw] at h <;> cases h
    exact upd_other _ _ _ _ fun e => hr e.symm
  | bindVal q i => cases h; exact upd_other _ _ _ _ fun e => hr e.symm
  | copyRef q s => cases h; exact upd_other _ _ _ _ fun e => hr e.symm
  | moveRef q s =>
    cases h
    show upd _ _ _ r = _
    rw [upd_other _ _ _ _ fun e => hr (.inr e.symm), upd_other _ _ _ _ fun e => hr (.inl e.symm)]
  | resetRef q => cases h; exact upd_other _ _ _ _ fun e => hr e.symm
  | toVal i q =>
    simp only [step] at h
    cases hq : w.refs q with
    | none => rw [hq] at h; cases h; rfl
    | some p =>
      rw [hq] at h
      dsimp only at h
      by_cases hp : p = .payload i
      · rw [if_pos hp] at h; cases h
      · rw [if_neg hp] at h
        rcases load_cases w p with ⟨v, _, e⟩ | ⟨_, e⟩ <;> rw [e] at h <;> cases h
        rfl
  | write q v =>
    simp only [step] at h
    cases hq : w.refs q with
    | none => rw [hq] at h; cases h
    | some p =>
      rw [hq] at h
      dsimp only at h
      rcases load_cases w p with ⟨u, _, e⟩ | ⟨_, e⟩ <;> rw [e] at h <;> cases h
      rw [put_refs]
  | read q =>
    simp only [step] at h
    cases hq : w.refs q with
    | none => rw [hq] at h; cases h
    | some p =>
      rw [hq] at h
      dsimp only at h
      rcases load_cases w p with ⟨u, _, e⟩ | ⟨_, e⟩ <;> rw [e] at h <;> cases h
      rfl
  | orElse q a =>
    simp only [step] at h
    rcases load_cases w ((w.refs q).getD (.obj a)) with ⟨u, _, e⟩ | ⟨_, e⟩ <;> rw [e] at h <;> cases h
    rfl
  | equal q s =>
    simp only [step] at h
    by_cases hqs : q = s
    · rw [if_pos hqs] at h; cases h; rfl
    · rw [if_neg hqs] at h
      cases hq : w.refs q <;> cases hs : w.refs s <;> rw [hq, hs] at h
      · cases h; rfl
      · cases h; rfl
      · cases h; rfl
      · rename_i p p'
        dsimp only at h
        rcases load_cases w p with ⟨u, _, e⟩ | ⟨_, e⟩ <;> rw [e] at h
        · rcases load_cases w p' with ⟨u', _, e'⟩ | ⟨_, e'⟩ <;> rw [e'] at h <;> cases h
          rfl
        · cases h

/-- **C143**: an optional of a reference refers to the same object until a statement binds, moves or empties it, whatever else the
program does. -/
theorem C143_stays (ss : List Stmt) (w w' : World) (os : List Seen) (h : run w ss = .ok (w', os)) (r : Nat) (hr : ∀ s ∈ ss, ¬Rebinds r s) :
    w'.refs r = w.refs r := by
  induction ss generalizing w os with
  | nil => cases h; rfl
  | cons s ss ih =>
    rw [run] at h
    cases hs : step w s with
    | ok p =>
      rcases p with ⟨w1, o⟩
      rw [hs] at h
      simp only [Outcome.bind_ok] at h
      cases hrun : run w1 ss with
      | ok q =>
        rcases q with ⟨w2, os'⟩
        rw [hrun] at h
        cases h
        rw [ih w1 os' hrun fun s hm => hr s (List.mem_cons_of_mem _ hm), step_refs w w1 s o hs r (hr s (by simp))]
      | throws => rw [hrun] at h; cases h
      | terminate => rw [hrun] at h; cases h
      | ub => rw [hrun] at h; cases h
    | throws => rw [hs] at h; cases h
    | terminate => rw [hs] at h; cases h
    | ub => rw [hs] at h; cases h

/-- **C143**: writing through an optional changes the object it refers to, seen through every optional that refers to it, and no
other. -/
theorem C143_alias (w w' : World) (o : Seen) (r v : Nat) (p : Place) (hr : w.refs r = some p) (h : step w (.write r v) = .ok (w', o)) :
    w'.refs = w.refs ∧ w'.at? p = some v ∧ (∀ q, q ≠ p → w'.at? q = w.at? q) ∧
    ∀ s q, w.refs s = some q → step w' (.read s) = if q = p then .ok (w', .value v) else
      match w.at? q with
      | some u => .ok (w', .value u)
      | none => .ub := by
  simp only [step, hr] at h
  rcases load_cases w p with ⟨u, _, e⟩ | ⟨_, e⟩ <;> rw [e] at h <;> cases h
  refine ⟨put_refs w p v, by rw [put_at, if_pos rfl], fun q hq => by rw [put_at, if_neg hq], fun s q hq => ?_⟩
  simp only [step, put_refs, hq]
  rw [load, put_at]
  by_cases e : q = p
  · rw [if_pos e, if_pos e]; rfl
  · rw [if_neg e, if_neg e]
    cases w.at? q <;> rfl

/-- The statement with `x_a` in place of the optional `r`. -/
def direct (r a : Nat) : Stmt → Stmt
  | .write q v => if q = r then .setObj a v else .write q v
  | .read q => if q = r then .readObj a else .read q
  | .orElse q b => if q = r then .readObj a else .orElse q b
  | .toVal i q => if q = r then .valOf i a else .toVal i q
  | s => s

theorem direct_step (w : World) (r a : Nat) (hr : w.refs r = some (.obj a)) (s : Stmt) : step w (direct r a s) = step w s := by
  cases s with
  | write q v =>
    rw [direct]
    by_cases h : q = r
    · rw [if_pos h, h]
      simp only [step, hr, load, World.at?]
      cases w.objs a <;> rfl
    · rw [if_neg h]
  | read q =>
    rw [direct]
    by_cases h : q = r
    · rw [if_pos h, h]
      simp only [step, hr]
    · rw [if_neg h]
  | orElse q b =>
    rw [direct]
    by_cases h : q = r
    · rw [if_pos h, h]
      simp only [step, hr, Option.getD_some]
    · rw [if_neg h]
  | toVal i q =>
    rw [direct]
    by_cases h : q = r
    · rw [if_pos h, h]
      simp only [step, hr]
      rw [if_neg (by simp)]
    · rw [if_neg h]
  | _ => rfl

/-- **C143**: a program in which `r` refers to `x_a` throughout does the same with `x_a` written in place of `r`: it sees the same, ends
in the same state and is undefined in the same cases. -/
theorem C143_substitution (ss : List Stmt) (w : World) (r a : Nat) (hr : w.refs r = some (.obj a)) (hn : ∀ s ∈ ss, ¬Rebinds r s) :
    run w (ss.map (direct r a)) = run w ss := by
  induction ss generalizing w with
  | nil => rfl
  | cons s ss ih =>
    rw [List.map_cons, run, run, direct_step w r a hr s]
    cases hs : step w s with
    | ok p =>
      rcases p with ⟨w1, o⟩
      simp only [Outcome.bind_ok]
      rw [ih w1 (by rw [step_refs w w1 s o hs r (hn s (by simp)), hr]) fun s hm => hn s (List.mem_cons_of_mem _ hm)]
    | throws => rfl
    | terminate => rfl
    | ub => rfl

/-- `r` refers to an object that has ended, or to the payload of an optional that is empty now. -/
def Dangling (w : World) (r : Nat) : Prop := ∃ p, w.refs r = some p ∧ w.at? p = none

/-- **C143**: exactly which statements are undefined. -/
theorem C143_undefined (w : World) (s : Stmt) :
    step w s = .ub ↔
      match s with
      | .setObj a _ | .readObj a | .valOf _ a | .bindObj _ a => w.objs a = none
      | .write r _ | .read r => Dangling w r
      | .toVal i r => Dangling w r ∨ w.refs r = some (.payload i)
      | .orElse r a => Dangling w r ∨ (w.refs r = none ∧ w.objs a = none)
      | .equal r t => r ≠ t ∧ w.refs r ≠ none ∧ w.refs t ≠ none ∧ (Dangling w r ∨ Dangling w t)
      | _ => False := by
  have ld : ∀ p, (load w p = .ub ↔ w.at? p = none) := fun p => by
    rcases load_cases w p with ⟨v, h, e⟩ | ⟨h, e⟩ <;> simp [h, e]
  have dang : ∀ r p, w.refs r = some p → (Dangling w r ↔ w.at? p = none) := fun r p h =>
    ⟨fun ⟨q, h1, h2⟩ => by rw [h] at h1; cases h1; exact h2, fun h2 => ⟨p, h, h2⟩⟩
  have nod : ∀ r, w.refs r = none → ¬Dangling w r := fun r h ⟨q, h1, _⟩ => by rw [h] at h1; cases h1
  cases s with
  | setObj a v => simp only [step]; cases w.objs a <;> simp
  | bindObj q a => simp only [step]; cases w.objs a <;> simp
  | readObj a =>
    simp only [step]
    rcases load_cases w (.obj a) with ⟨v, h, e⟩ | ⟨h, e⟩ <;> rw [World.at?] at h <;> rw [e] <;> simp [h]
  | valOf i a =>
    simp only [step]
    rcases load_cases w (.obj a) with ⟨v, h, e⟩ | ⟨h, e⟩ <;> rw [World.at?] at h <;> rw [e] <;> simp [h]
  | write r v =>
    simp only [step]
    cases hr : w.refs r with
    | none => simp [nod r hr]
    | some p =>
      dsimp only
      rw [dang r p hr]
      rcases load_cases w p with ⟨v, h, e⟩ | ⟨h, e⟩ <;> rw [e] <;> simp [h]
  | read r =>
    simp only [step]
    cases hr : w.refs r with
    | none => simp [nod r hr]
    | some p =>
      dsimp only
      rw [dang r p hr]
      rcases load_cases w p with ⟨v, h, e⟩ | ⟨h, e⟩ <;> rw [e] <;> simp [h]
  | toVal i r =>
    simp only [step]
    cases hr : w.refs r with
    | none => simp [nod r hr]
    | some p =>
      dsimp only
      rw [dang r p hr]
      by_cases hp : p = .payload i
      · rw [if_pos hp]; simp [hp]
      · rw [if_neg hp]
        rcases load_cases w p with ⟨v, h, e⟩ | ⟨h, e⟩ <;> rw [e] <;> simp [h, hp]
  | orElse r a =>
    simp only [step]
    cases hr : w.refs r with
    | none =>
      rw [Option.getD_none]
      rcases load_cases w (.obj a) with ⟨v, h, e⟩ | ⟨h, e⟩ <;> rw [World.at?] at h <;> rw [e] <;> simp [h, nod r hr]
    | some p =>
      rw [Option.getD_some, dang r p hr]
      rcases load_cases w p with ⟨v, h, e⟩ | ⟨h, e⟩ <;> rw [e] <;> simp [h]
  | equal r t =>
    simp only [step]
    by_cases hrt : r = t
    · rw [if_pos hrt]; simp [hrt]
    · rw [if_neg hrt]
      cases hr : w.refs r <;> cases ht : w.refs t
      · simp
      · simp
      · simp
      · rename_i p q
        dsimp only
        rw [dang r p hr, dang t q ht]
        rcases load_cases w p with ⟨v, h, e⟩ | ⟨h, e⟩ <;> rw [e]
        · rcases load_cases w q with ⟨v', h', e'⟩ | ⟨h', e'⟩ <;> rw [Outcome.bind_ok, e'] <;> simp [h, h', hrt]
        · simp [h, hrt]
  | _ => simp [step]

/-- **C143, negation**: a reference to the payload of an optional refers to its place: after a swap it shows the other value, after
emptying the optional it is dangling although it says it has a value. -/
theorem C143_payload (w : World) (r s i j u v : Nat) (hrs : r ≠ s) (hij : i ≠ j) (hi : w.vals i = some u) (hj : w.vals j = some v) :
    (∃ w', run w [.bindVal r i, .bindVal s j, .read r, .read s, .swapVal i j, .read r, .read s] =
      .ok (w', [.nothing, .nothing, .value u, .value v, .nothing, .value v, .value u])) ∧
    run w [.bindVal r i, .resetVal i, .read r] = .ub := by
  constructor
  · simp only [run, step, hi, hj, Option.map_some, Outcome.bind_ok, upd_same, load, World.at?, Outcome.pure_def, upd_other _ _ _ _ hij,
      upd_other _ _ _ _ hrs]
    exact ⟨_, rfl⟩
  · simp only [run, step, hi, Option.map_some, Outcome.bind_ok, upd_same, load, World.at?, Outcome.pure_def]
    rfl

/-- **C143**: two optionals of references that are not dangling compare as the values they refer to now, not as the places. -/
theorem C143_equal (w : World) (r s : Nat) (hr : ¬Dangling w r) (hs : ¬Dangling w s) :
    ∃ b, step w (.equal r s) = .ok (w, .truth b) ∧
      (b = true ↔ (w.refs r).map w.at? = (w.refs s).map w.at?) := by
  simp only [step]
  by_cases hrs : r = s
  · rw [if_pos hrs]
    exact ⟨true, rfl, by simp [hrs]⟩
  · rw [if_neg hrs]
    cases h1 : w.refs r <;> cases h2 : w.refs s
    · exact ⟨true, rfl, by simp⟩
    · exact ⟨false, rfl, by simp⟩
    · exact ⟨false, rfl, by simp⟩
    · rename_i p q
      dsimp only
      rcases load_cases w p with ⟨u, hu, e⟩ | ⟨hu, e⟩
      · rcases load_cases w q with ⟨v, hv, e'⟩ | ⟨hv, e'⟩
        · rw [e, Outcome.bind_ok, e']
          exact ⟨u == v, rfl, by simp [hu, hv]⟩
        · exact absurd ⟨q, h2, hv⟩ hs
      · exact absurd ⟨p, h1, hu⟩ hr

/-- A statement after which something referred to may be gone. -/
def Ends : Stmt → Prop
  | .endObj _ | .resetVal _ | .swapVal _ _ | .toVal _ _ => True
  | _ => False

/-- Other statements keep what is there, and let optionals refer only to what is there. -/
theorem step_grow (w w' : World) (s : Stmt) (o : Seen) (h : step w s = .ok (w', o)) (hs : ¬Ends s) :
    (∀ p, w.at? p ≠ none → w'.at? p ≠ none) ∧ ∀ r p, w'.refs r = some p → (∃ q, w.refs q = some p) ∨ w'.at? p ≠ none := by
  have same : (∀ p, w.at? p ≠ none → w.at? p ≠ none) ∧ ∀ r p, w.refs r = some p → (∃ q, w.refs q = some p) ∨ w.at? p ≠ none :=
    ⟨fun _ h => h, fun r p h => .inl ⟨r, h⟩⟩
  have putg : ∀ p v, (∀ q, w.at? q ≠ none → (w.put p v).at? q ≠ none) ∧
      ∀ r q, (w.put p v).refs r = some q → (∃ q', w.refs q' = some q) ∨ (w.put p v).at? q ≠ none := fun p v =>
    ⟨fun q hq => by rw [put_at]; split <;> simp [hq], fun r q hq => .inl ⟨r, by rw [put_refs] at hq; exact hq⟩⟩
  have refg : ∀ (q : Nat) (x : Option Place), (∀ p, x = some p → (∃ q, w.refs q = some p) ∨ w.at? p ≠ none) →
      (∀ p, w.at? p ≠ none → ({ w with refs := upd w.refs q x } : World).at? p ≠ none) ∧
      ∀ r p, ({ w with refs := upd w.refs q x } : World).refs r = some p → (∃ q', w.refs q' = some p) ∨
        ({ w with refs := upd w.refs q x } : World).at? p ≠ none := by
    intro q x hx
    have e : ∀ p, ({ w with refs := upd w.refs q x } : World).at? p = w.at? p := fun p => by cases p <;> rfl
    refine ⟨fun p hp => by rw [e]; exact hp, fun r p hp => ?_⟩
    rw [e]
    by_cases hr : r = q
    · have hp' : upd w.refs q x r = some p := hp
      rw [hr, upd_same] at hp'
      exact hx p hp'
    · have hp' : upd w.refs q x r = some p := hp
      rw [upd_other _ _ _ _ hr] at hp'
      exact .inl ⟨r, hp'⟩
  cases s with
  | setObj a v =>
    simp only [step] at h
    cases hw : w.objs a <;> rw [hw] at h <;> cases h
    exact putg (.obj a) v
  | readObj a =>
    simp only [step] at h
    rcases load_cases w (.obj a) with ⟨v, _, e⟩ | ⟨_, e⟩ <;> rw [e] at h <;> cases h
    exact same
  | valOf i a =>
    simp only [step] at h
    rcases load_cases w (.obj a) with ⟨v, _, e⟩ | ⟨_, e⟩ <;> rw [e] at h <;> cases h
    exact putg (.payload i) v
  | endObj a => exact absurd trivial hs
  | setVal i v => cases h; exact putg (.payload i) v
  | resetVal i => exact absurd trivial hs
  | swapVal i j => exact absurd trivial hs
  | bindObj q a =>
    simp only [step] at h
    cases hw : w.objs a <;> rw [hw] at h <;> cases h
    exact refg q _ fun p hp => .inr (by cases hp; rw [World.at?, hw]; simp)
  | bindVal q i =>
    cases h
    refine refg q _ fun p hp => .inr ?_
    cases hv : w.vals i with
    | none => rw [hv] at hp; cases hp
    | some u => rw [hv] at hp; cases hp; rw [World.at?, hv]; simp
  | copyRef q s => cases h; exact refg q _ fun p hp => .inl ⟨s, hp⟩
  | moveRef q s =>
    cases h
    have e : ∀ p, ({ w with refs := upd (upd w.refs q (w.refs s)) s (w.refs q) } : World).at? p = w.at? p := fun p => by cases p <;> rfl
    refine ⟨fun p hp => by rw [e]; exact hp, fun r p hp => .inl ?_⟩
    have hp' : upd (upd w.refs q (w.refs s)) s (w.refs q) r = some p := hp
    by_cases h1 : r = s
    · rw [h1, upd_same] at hp'; exact ⟨q, hp'⟩
    · rw [upd_other _ _ _ _ h1] at hp'
      by_cases h2 : r = q
      · rw [h2, upd_same] at hp'; exact ⟨s, hp'⟩
      · rw [upd_other _ _ _ _ h2] at hp'; exact ⟨r, hp'⟩
  | resetRef q => cases h; exact refg q _ fun p hp => by cases hp
  | toVal i q => exact absurd trivial hs
  | write q v =>
    simp only [step] at h
    cases hq : w.refs q with
    | none => rw [hq] at h; cases h
    | some p =>
      rw [hq] at h
      dsimp only at h
      rcases load_cases w p with ⟨u, _, e⟩ | ⟨_, e⟩ <;> rw [e] at h <;> cases h
      exact putg p v
  | read q =>
    simp only [step] at h
    cases hq : w.refs q with
    | none => rw [hq] at h; cases h
    | some p =>
      rw [hq] at h
      dsimp only at h
      rcases load_cases w p with ⟨u, _, e⟩ | ⟨_, e⟩ <;> rw [e] at h <;> cases h
      exact same
  | orElse q a =>
    simp only [step] at h
    rcases load_cases w ((w.refs q).getD (.obj a)) with ⟨u, _, e⟩ | ⟨_, e⟩ <;> rw [e] at h <;> cases h
    exact same
  | equal q s =>
    simp only [step] at h
    by_cases hqs : q = s
    · rw [if_pos hqs] at h; cases h; exact same
    · rw [if_neg hqs] at h
      cases hq : w.refs q <;> cases hs : w.refs s <;> rw [hq, hs] at h
      · cases h; exact same
      · cases h; exact same
      · cases h; exact same
      · rename_i p p'
        dsimp only at h
        rcases load_cases w p with ⟨u, _, e⟩ | ⟨_, e⟩ <;> rw [e] at h
        · rcases load_cases w p' with ⟨u', _, e'⟩ | ⟨_, e'⟩ <;> rw [e'] at h <;> cases h
          exact same
        · cases h

/-- **C143**: as long as no object ends and no optional object is emptied, swapped or made anew, nothing is undefined. -/
theorem C143_safe (ss : List Stmt) (w : World) (ho : ∀ a, w.objs a ≠ none) (hd : ∀ r, ¬Dangling w r) (hs : ∀ s ∈ ss, ¬Ends s) :
    run w ss ≠ .ub := by
  induction ss generalizing w with
  | nil => intro h; cases h
  | cons s ss ih =>
    have ns : step w s ≠ .ub := by
      rw [Ne, C143_undefined]
      cases s <;> first
        | (intro h; exact ho _ h)
        | (intro h; exact hd _ h)
        | (intro h; exact h)
        | (intro h; rcases h with h | ⟨_, h⟩; exact hd _ h; exact ho _ h)
        | (intro h; exact h.2.2.2.elim (hd _) (hd _))
        | exact fun _ => hs _ (List.mem_cons_self ..) trivial
    rw [run]
    cases h : step w s with
    | ub => exact absurd h ns
    | throws => intro h; cases h
    | terminate => intro h; cases h
    | ok p =>
      rcases p with ⟨w1, o⟩
      simp only [Outcome.bind_ok]
      have inv : (∀ a, w1.objs a ≠ none) ∧ ∀ r, ¬Dangling w1 r := by
        obtain ⟨g1, g2⟩ := step_grow w w1 s o h (hs s (by simp))
        refine ⟨fun a => g1 (.obj a) (ho a), fun r ⟨p, h1, h2⟩ => ?_⟩
        rcases g2 r p h1 with ⟨q, hq⟩ | hp
        · exact g1 p (fun e => hd q ⟨p, hq, e⟩) h2
        · exact hp h2
      have := ih w1 inv.1 inv.2 fun s hm => hs s (List.mem_cons_of_mem _ hm)
      cases hr : run w1 ss with
      | ub => exact absurd hr this
      | ok q => intro h; cases h
      | throws => intro h; cases h
      | terminate => intro h; cases h

/-- A world for the examples: two objects, an optional with 7. -/
def small : World := ⟨fun a => some a, fun i => if i = 0 then some 7 else none, fun _ => none⟩

example : ∃ w' , run small [.bindObj 0 5, .copyRef 1 0, .write 1 9, .readObj 5, .read 0] =
    .ok (w', [.nothing, .nothing, .nothing, .value 9, .value 9]) := ⟨_, rfl⟩
example : small.vals 0 = some 7 ∧ (∀ a, small.objs a ≠ none) ∧ ∀ r, ¬Dangling small r :=
  ⟨rfl, fun a h => (by cases h), fun r ⟨p, h, _⟩ => (by cases h)⟩
example : ∀ s ∈ [Stmt.write 0 9, .read 0, .copyRef 1 0], ¬Rebinds 0 s := by
  intro s hs; simp at hs; rcases hs with rfl | rfl | rfl <;> simp [Rebinds]
example : (upd small.refs 0 (some (.obj 3))) 0 = some (.obj 3) := rfl

end Solace.OptRef
