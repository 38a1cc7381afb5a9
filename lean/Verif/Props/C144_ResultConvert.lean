import Verif.Model.ResultConvert
/-
C144: whether a new `Result` is a success or a failure is said by the argument: `Ok(x)` and values make successes, `Err(x)` and error
values make failures, and the content is the argument. This holds for everything that may be moved from. Values that may not be moved
from (variables, constants) are refused, or taken for the other kind.
-/
namespace Solace.ResConv

/-- The expression may be moved from: it is neither const nor the name of something. -/
def Movable (e : Expr) : Prop := e.const = false ∧ e.cat ≠ .lvalue

instance (e : Expr) : Decidable (Movable e) := by unfold Movable; infer_instance

theorem mv_iff (e : Expr) : e.mv = decide (Movable e) := by
  rcases e with ⟨ty, c, cat⟩
  cases c <;> cases cat <;> rfl

/-- There is a conversion, implicit or explicit, that gives `b` for `a`. -/
inductive Gives (lib : Lib) (k j a : Nat) : Nat → Prop where
  | same (h : j = k) : Gives lib k j a a
  | explicit (h : j ≠ k) (f) (hc : lib.conv j k = .explicit f) : Gives lib k j a (f a)
  | standard (h : j ≠ k) (r f) (hc : lib.conv j k = .standard r f) : Gives lib k j a (f a)
  | user (h : j ≠ k) (f) (hc : lib.conv j k = .user f) : Gives lib k j a (f a)

theorem build_gives (lib : Lib) (k j a b : Nat) : lib.build k j true a = some b ↔ Gives lib k j a b := by
  unfold Lib.build
  by_cases h : j = k
  · simp [h]
    constructor
    · rintro rfl; exact .same rfl
    · intro g; cases g with
      | same => rfl
      | explicit h' => exact absurd rfl h'
      | standard h' => exact absurd rfl h'
      | user h' => exact absurd rfl h'
  · rw [if_neg h]
    constructor
    · intro g
      cases hc : lib.conv j k with
      | no => simp [hc] at g
      | explicit f => simp [hc] at g; subst g; exact .explicit h f hc
      | standard r f => simp [hc] at g; subst g; exact .standard h r f hc
      | user f => simp [hc] at g; subst g; exact .user h f hc
    · intro g
      cases g with
      | same h' => exact absurd h' h
      | explicit _ f hc => simp [hc]
      | standard _ r f hc => simp [hc]
      | user _ f hc => simp [hc]

theorem build_constructible (lib : Lib) (k j a : Nat) : (lib.build k j true a).isSome = lib.constructible k j := by
  unfold Lib.build Lib.constructible
  by_cases h : j = k
  · simp [h]
  · rw [if_neg h, if_neg h]
    cases lib.conv j k <;> rfl

theorem make_ok (lib : Lib) (v er t n : Nat) (direct : Bool) (e : Expr) (h : e.ty = .ok t) :
    make lib v er direct e (.num n) = if Movable e then (lib.build v t true n).map .ok else none := by
  by_cases m : Movable e <;> cases hc : lib.constructible v t <;>
    simp [make, Ctor.run, choose, Ctor.all, Ctor.seq, h, mv_iff, m, hc, Ctor.better, Rank.better, Ctor.level]

theorem make_err (lib : Lib) (v er t n : Nat) (direct : Bool) (e : Expr) (h : e.ty = .err t) :
    make lib v er direct e (.num n) = if Movable e then (lib.build er t true n).map .error else none := by
  by_cases m : Movable e <;> cases hc : lib.constructible er t <;>
    simp [make, Ctor.run, choose, Ctor.all, Ctor.seq, h, mv_iff, m, hc, Ctor.better, Rank.better, Ctor.level]

/-- **C144**: `Ok(x)` makes a success that holds the converted `x`, exactly if it may be moved from and there is any conversion. -/
theorem C144_ok (lib : Lib) (v er t n : Nat) (direct : Bool) (e : Expr) (h : e.ty = .ok t) (s : State) :
    make lib v er direct e (.num n) = some s ↔ Movable e ∧ ∃ b, Gives lib v t n b ∧ s = .ok b := by
  rw [make_ok lib v er t n direct e h]
  by_cases m : Movable e
  · simp only [m, if_true, Option.map_eq_some_iff, true_and]
    constructor
    · rintro ⟨b, hb, rfl⟩; exact ⟨b, (build_gives ..).mp hb, rfl⟩
    · rintro ⟨b, hb, rfl⟩; exact ⟨b, (build_gives ..).mpr hb, rfl⟩
  · simp [m]

/-- `Err(x)` makes a failure. -/
theorem C144_err (lib : Lib) (v er t n : Nat) (direct : Bool) (e : Expr) (h : e.ty = .err t) (s : State) :
    make lib v er direct e (.num n) = some s ↔ Movable e ∧ ∃ b, Gives lib er t n b ∧ s = .error b := by
  rw [make_err lib v er t n direct e h]
  by_cases m : Movable e
  · simp only [m, if_true, Option.map_eq_some_iff, true_and]
    constructor
    · rintro ⟨b, hb, rfl⟩; exact ⟨b, (build_gives ..).mp hb, rfl⟩
    · rintro ⟨b, hb, rfl⟩; exact ⟨b, (build_gives ..).mpr hb, rfl⟩
  · simp [m]

/-- A value that may be moved from is the success, whatever else the types can be converted to. -/
theorem C144_value (lib : Lib) (v er n : Nat) (hd : v ≠ er) (direct : Bool) (e : Expr) (h : e.ty = .base v) (m : Movable e) :
    make lib v er direct e (.num n) = some (.ok n) := by
  cases hc : lib.conv v er <;> cases direct <;>
    simp [make, Ctor.run, choose, Ctor.all, Ctor.seq, Lib.seq, Lib.build, h, mv_iff, m, hd, hc, Ctor.better, Rank.better, Ctor.level]

/-- An error that may be moved from is the failure. -/
theorem C144_error (lib : Lib) (v er n : Nat) (hd : v ≠ er) (direct : Bool) (e : Expr) (h : e.ty = .base er) (m : Movable e) :
    make lib v er direct e (.num n) = some (.error n) := by
  cases hc : lib.conv er v <;> cases direct <;>
    simp [make, Ctor.run, choose, Ctor.all, Ctor.seq, Lib.seq, Lib.build, h, mv_iff, m, hd.symm, hc, Ctor.better, Rank.better, Ctor.level]

/-- **C144, negation**: a value that may not be moved from (a variable, a constant) never makes a success: the constructor takes `V&&`.
If the type of values converts to the type of errors the compiler takes the other constructor, and the result is a failure. -/
theorem C144_value_lvalue (lib : Lib) (v er n : Nat) (hd : v ≠ er) (direct : Bool) (e : Expr) (h : e.ty = .base v) (m : ¬Movable e) :
    make lib v er direct e (.num n) =
      match lib.conv v er with
      | .standard _ f => some (.error (f n))
      | .user f => if direct then some (.error (f n)) else none
      | _ => none := by
  cases hc : lib.conv v er <;> cases direct <;>
    simp [make, Ctor.run, choose, Ctor.all, Ctor.seq, Lib.seq, Lib.build, h, mv_iff, m, hd, hc]

/-- The same of errors: a variable of the error type is refused, or makes a success. -/
theorem C144_error_lvalue (lib : Lib) (v er n : Nat) (hd : v ≠ er) (direct : Bool) (e : Expr) (h : e.ty = .base er) (m : ¬Movable e) :
    make lib v er direct e (.num n) =
      match lib.conv er v with
      | .standard _ f => some (.ok (f n))
      | .user f => if direct then some (.ok (f n)) else none
      | _ => none := by
  cases hc : lib.conv er v <;> cases direct <;>
    simp [make, Ctor.run, choose, Ctor.all, Ctor.seq, Lib.seq, Lib.build, h, mv_iff, m, hd.symm, hc]

/-- The number of an implicit conversion: standard conversions by rank come before conversions by the user, which only count in direct
initialisation. -/
def cost (direct : Bool) : Conv → Option (Nat × Nat)
  | .standard r _ => some (0, r)
  | .user _ => if direct then some (1, 0) else none
  | _ => none

/-- The first comes before the second. -/
def Cheaper : Option (Nat × Nat) → Option (Nat × Nat) → Prop
  | some _, none => True
  | some (a, r), some (b, s) => a < b ∨ (a = b ∧ r < s)
  | none, _ => False

/-- What an implicit conversion does. -/
def apply : Conv → Nat → Nat
  | .standard _ f, n => f n
  | .user f, n => f n
  | _, n => n

theorem make_third (lib : Lib) (v er t n : Nat) (h1 : t ≠ v) (h2 : t ≠ er) (direct : Bool) (e : Expr) (h : e.ty = .base t) :
    (Cheaper (cost direct (lib.conv t v)) (cost direct (lib.conv t er)) →
      make lib v er direct e (.num n) = some (.ok (apply (lib.conv t v) n))) ∧
    (Cheaper (cost direct (lib.conv t er)) (cost direct (lib.conv t v)) →
      make lib v er direct e (.num n) = some (.error (apply (lib.conv t er) n))) ∧
    (¬Cheaper (cost direct (lib.conv t v)) (cost direct (lib.conv t er)) →
     ¬Cheaper (cost direct (lib.conv t er)) (cost direct (lib.conv t v)) → make lib v er direct e (.num n) = none) := by
  cases hc : lib.conv t v with
  | standard r f =>
    cases hk : lib.conv t er with
    | standard s g =>
      by_cases a : r < s
      · have : ¬s < r := by omega
        cases direct <;>
        simp [make, Ctor.run, choose, Ctor.all, Ctor.seq, Lib.seq, Lib.build, h, h1, h2, hc, hk, Ctor.better, Rank.better, Ctor.level, cost, Cheaper, apply, a, this]
      · by_cases b : s < r
        · cases direct <;>
          simp [make, Ctor.run, choose, Ctor.all, Ctor.seq, Lib.seq, Lib.build, h, h1, h2, hc, hk, Ctor.better, Rank.better, Ctor.level, cost, Cheaper, apply, a, b]
        · cases direct <;>
          simp [make, Ctor.run, choose, Ctor.all, Ctor.seq, Lib.seq, Lib.build, h, h1, h2, hc, hk, Ctor.better, Rank.better, Ctor.level, cost, Cheaper, apply, a, b]
    | _ =>
      cases direct <;>
      simp [make, Ctor.run, choose, Ctor.all, Ctor.seq, Lib.seq, Lib.build, h, h1, h2, hc, hk, Ctor.better, Rank.better, Ctor.level, cost, Cheaper, apply]
  | _ =>
    cases hk : lib.conv t er <;> cases direct <;>
    simp [make, Ctor.run, choose, Ctor.all, Ctor.seq, Lib.seq, Lib.build, h, h1, h2, hc, hk, Ctor.better, Rank.better, Ctor.level, cost, Cheaper, apply]

/-- An argument of a third type goes to the side with the cheaper implicit conversion; if there is none, or both cost the same, the
program does not compile. Whether it is named or const does not matter. -/
theorem C144_third (lib : Lib) (v er t n : Nat) (h1 : t ≠ v) (h2 : t ≠ er) (direct : Bool) (e : Expr) (h : e.ty = .base t) (s : State) :
    make lib v er direct e (.num n) = some s ↔
      (Cheaper (cost direct (lib.conv t v)) (cost direct (lib.conv t er)) ∧ s = .ok (apply (lib.conv t v) n)) ∨
      (Cheaper (cost direct (lib.conv t er)) (cost direct (lib.conv t v)) ∧ s = .error (apply (lib.conv t er) n)) := by
  obtain ⟨p, q, r⟩ := make_third lib v er t n h1 h2 direct e h
  constructor
  · intro g
    by_cases a : Cheaper (cost direct (lib.conv t v)) (cost direct (lib.conv t er))
    · rw [p a] at g; exact .inl ⟨a, (Option.some.inj g).symm⟩
    · by_cases b : Cheaper (cost direct (lib.conv t er)) (cost direct (lib.conv t v))
      · rw [q b] at g; exact .inr ⟨b, (Option.some.inj g).symm⟩
      · rw [r a b] at g; cases g
  · rintro (⟨a, rfl⟩ | ⟨b, rfl⟩)
    · exact p a
    · exact q b

/-- The state of a result as a value. -/
def asVal : State → Val
  | .ok n => .okay n
  | .error n => .error n

/-- A result of the same type is moved with its state; it is never copied. -/
theorem C144_same (lib : Lib) (v er : Nat) (direct : Bool) (e : Expr) (h : e.ty = .res v er) (s : State) :
    make lib v er direct e (asVal s) = if Movable e then some s else none := by
  have hv : lib.constructible v v = true := by simp [Lib.constructible]
  by_cases m : Movable e
  · have := m.2
    cases s <;>
      simp [make, Ctor.run, choose, Ctor.all, Ctor.seq, h, mv_iff, m, hv, Ctor.better, Rank.better, Ctor.level, asVal, this]
  · cases s <;>
      simp [make, Ctor.run, choose, Ctor.all, Ctor.seq, h, mv_iff, m, asVal]

/-- A result with another type of values keeps its side; the value is converted and the error is the same. Results with another type of
errors are refused. -/
theorem C144_result (lib : Lib) (v er dv de : Nat) (hd : dv ≠ v) (direct : Bool) (e : Expr) (h : e.ty = .res dv de) (s t : State) :
    make lib v er direct e (asVal s) = some t ↔
      Movable e ∧ de = er ∧ (∃ c, Gives lib v dv 0 c) ∧
      match s with
      | .ok n => ∃ b, Gives lib v dv n b ∧ t = .ok b
      | .error n => t = .error n := by
  have hg : ∀ n, lib.constructible v dv = true ↔ ∃ c, Gives lib v dv n c := by
    intro n
    rw [← build_constructible lib v dv n, Option.isSome_iff_exists]
    exact exists_congr fun c => build_gives ..
  have key : make lib v er direct e (asVal s) =
      if Movable e ∧ de = er ∧ lib.constructible v dv = true then
        match s with
        | .ok n => (lib.build v dv true n).map .ok
        | .error n => some (.error n)
      else none := by
    by_cases m : Movable e <;> by_cases q : de = er <;> cases hc : lib.constructible v dv <;> cases s <;>
      simp [make, Ctor.run, choose, Ctor.all, Ctor.seq, h, hd, mv_iff, m, q, hc, asVal]
  rw [key]
  by_cases c : Movable e ∧ de = er ∧ lib.constructible v dv = true
  · rw [if_pos c]
    obtain ⟨c1, c2, c3⟩ := c
    have c4 := (hg 0).mp c3
    simp only [c1, c2, c4, true_and]
    cases s with
    | ok n =>
      simp only [Option.map_eq_some_iff]
      constructor
      · rintro ⟨b, hb, rfl⟩; exact ⟨b, (build_gives ..).mp hb, rfl⟩
      · rintro ⟨b, hb, rfl⟩; exact ⟨b, (build_gives ..).mpr hb, rfl⟩
    | error n => simp; exact eq_comm
  · rw [if_neg c]
    simp only [reduceCtorEq, false_iff]
    rintro ⟨a, b, d, _⟩
    exact c ⟨a, b, (hg 0).mpr d⟩

/-- The constructors with a tag always make the side of the tag; only they take arguments that may not be moved from, by copying. -/
theorem C144_tagged (lib : Lib) (v er t n : Nat) (okTag : Bool) (e : Expr) (h : e.ty = .base t) (s : State) :
    makeTagged lib v er okTag e (.num n) = some s ↔
      ∃ b, Gives lib (if okTag then v else er) t n b ∧ s = (if okTag then .ok b else .error b) ∧
        (t = (if okTag then v else er) → Movable e ∨ lib.copyable t = true) := by
  have key : ∀ k, lib.build k t e.mv n = if t = k ∧ ¬Movable e ∧ lib.copyable t = false then none else lib.build k t true n := by
    intro k
    by_cases q : t = k
    · subst q
      by_cases m : Movable e <;> cases hc : lib.copyable t <;> simp [Lib.build, mv_iff, m, hc]
    · simp [Lib.build, q]
  unfold makeTagged
  rw [h]
  dsimp only
  have fin : ∀ k : Nat, ∀ mk : Nat → State, (lib.build k t e.mv n).map mk = some s ↔
      ∃ b, Gives lib k t n b ∧ s = mk b ∧ (t = k → Movable e ∨ lib.copyable t = true) := by
    intro k mk
    rw [key k]
    by_cases c : t = k ∧ ¬Movable e ∧ lib.copyable t = false
    · rw [if_pos c]
      simp only [Option.map_none, reduceCtorEq, false_iff]
      rintro ⟨b, _, _, r⟩
      rcases r c.1 with r | r
      · exact c.2.1 r
      · rw [c.2.2] at r; cases r
    · rw [if_neg c]
      simp only [Option.map_eq_some_iff]
      have c' : t = k → Movable e ∨ lib.copyable t = true := by
        intro q
        by_cases m : Movable e
        · exact .inl m
        · cases hc : lib.copyable t
          · exact absurd ⟨q, m, hc⟩ c
          · exact .inr rfl
      constructor
      · rintro ⟨b, hb, rfl⟩; exact ⟨b, (build_gives ..).mp hb, rfl, c'⟩
      · rintro ⟨b, hb, rfl, _⟩; exact ⟨b, (build_gives ..).mpr hb, rfl⟩
  cases okTag
  · exact fin er .error
  · exact fin v .ok

/-- Assignment gives the state that initialisation by `=` gives, whatever was there; a result of the same type gets the old state. -/
theorem C144_assign (lib : Lib) (v er : Nat) (old : State) (e : Expr) (x : Val) :
    (assign lib v er old e x).map (·.1) = make lib v er false e x ∧
    ∀ s l, assign lib v er old e x = some (s, l) → l = if e.ty = .res v er then some old else none := by
  by_cases h : e.ty = .res v er
  · have hv : lib.constructible v v = true := by simp [Lib.constructible]
    by_cases m : Movable e
    · have := m.2
      cases x <;>
        simp [assign, make, Ctor.run, choose, Ctor.all, Ctor.seq, h, mv_iff, m, hv, Ctor.better, Rank.better, Ctor.level, this]
    · cases x <;>
        simp [assign, make, Ctor.run, choose, Ctor.all, Ctor.seq, h, mv_iff, m]
  · unfold assign
    rw [if_neg h]
    constructor
    · cases make lib v er false e x <;> rfl
    · intro s l g
      cases hm : make lib v er false e x with
      | none => simp [hm] at g
      | some q => simp [hm] at g; rw [if_neg h]; exact g.2.symm

/-- **C144**, `Result<void, E>`: what each argument makes. Unlike the other results it takes `Err(x)` that is named or const, but only of
its own error type. -/
theorem C144_void (lib : Lib) (er : Nat) (direct : Bool) (e : Expr) :
    (e.ty = .nothing → ∀ x, makeVoid lib er direct e x = some none) ∧
    (e.ty = .okVoid → ∀ x, makeVoid lib er direct e x = some none) ∧
    (∀ t n, e.ty = .err t → makeVoid lib er direct e (.num n) =
      if t = er ∧ (Movable e ∨ lib.copyable er = true) then some (some n) else none) ∧
    (e.ty = .resVoid er → ∀ n, makeVoid lib er direct e (.error n) = if Movable e then some (some n) else none) ∧
    (e.ty = .resVoid er → makeVoid lib er direct e .unit = if Movable e then some none else none) ∧
    (∀ n, e.ty = .base er → makeVoid lib er direct e (.num n) = if Movable e then some (some n) else none) ∧
    (∀ t n, t ≠ er → e.ty = .base t → makeVoid lib er direct e (.num n) =
      if cost direct (lib.conv t er) = none then none else some (some (apply (lib.conv t er) n))) := by
  refine ⟨?_, ?_, ?_, ?_, ?_, ?_, ?_⟩
  · intro h x
    simp [makeVoid, VoidCtor.run, chooseVoid, VoidCtor.all, VoidCtor.seq, h]
  · intro h x
    by_cases m : Movable e
    · have := m.2
      simp [makeVoid, VoidCtor.run, chooseVoid, VoidCtor.all, VoidCtor.seq, h, mv_iff, m, VoidCtor.rref, this]
    · simp [makeVoid, VoidCtor.run, chooseVoid, VoidCtor.all, VoidCtor.seq, h, mv_iff, m]
  · intro t n h
    by_cases q : t = er
    · subst q
      by_cases m : Movable e
      · have := m.2
        simp [makeVoid, VoidCtor.run, chooseVoid, VoidCtor.all, VoidCtor.seq, h, mv_iff, m, VoidCtor.rref, this, Lib.build]
      · cases hc : lib.copyable t <;>
        simp [makeVoid, VoidCtor.run, chooseVoid, VoidCtor.all, VoidCtor.seq, h, mv_iff, m, Lib.build, hc]
    · simp [makeVoid, VoidCtor.run, chooseVoid, VoidCtor.all, VoidCtor.seq, h, q]
  · intro h n
    by_cases m : Movable e
    · have := m.2
      simp [makeVoid, VoidCtor.run, chooseVoid, VoidCtor.all, VoidCtor.seq, h, mv_iff, m, VoidCtor.rref, this]
    · simp [makeVoid, VoidCtor.run, chooseVoid, VoidCtor.all, VoidCtor.seq, h, mv_iff, m]
  · intro h
    by_cases m : Movable e
    · have := m.2
      simp [makeVoid, VoidCtor.run, chooseVoid, VoidCtor.all, VoidCtor.seq, h, mv_iff, m, VoidCtor.rref, this]
    · simp [makeVoid, VoidCtor.run, chooseVoid, VoidCtor.all, VoidCtor.seq, h, mv_iff, m]
  · intro n h
    by_cases m : Movable e <;>
      simp [makeVoid, VoidCtor.run, chooseVoid, VoidCtor.all, VoidCtor.seq, h, mv_iff, m, Lib.seq, Lib.build]
  · intro t n q h
    cases hc : lib.conv t er <;> cases direct <;>
      simp [makeVoid, VoidCtor.run, chooseVoid, VoidCtor.all, VoidCtor.seq, h, Lib.seq, Lib.build, q, hc, cost, apply]

/-- The full statement — every expression of the type of values makes a success — holds exactly for what may be moved from. -/
theorem C144_sides_partial (lib : Lib) (v er n : Nat) (hd : v ≠ er) (direct : Bool) (e : Expr) :
    (e.ty = .base v → ((∃ b, make lib v er direct e (.num n) = some (.ok b)) ↔ Movable e)) ∧
    (e.ty = .base er → ((∃ b, make lib v er direct e (.num n) = some (.error b)) ↔ Movable e)) := by
  constructor
  · intro h
    by_cases m : Movable e
    · simp [C144_value lib v er n hd direct e h m, m]
    · rw [C144_value_lvalue lib v er n hd direct e h m]
      cases lib.conv v er <;> cases direct <;> simp [m]
  · intro h
    by_cases m : Movable e
    · simp [C144_error lib v er n hd direct e h m, m]
    · rw [C144_error_lvalue lib v er n hd direct e h m]
      cases lib.conv er v <;> cases direct <;> simp [m]

/-! ### Concrete cases -/

/-- 0 `int`, 1 `long`, 2 `Error`, 3 `StringView`, 4 `String`: explicit from 3. -/
def sampleLib : Lib :=
  { conv := fun j k =>
      if j = 0 ∧ k = 1 then .standard 1 id else if j = 1 ∧ k = 0 then .standard 1 (· % 2 ^ 32)
      else if j = 3 ∧ k = 4 then .explicit id else .no
    copyable := fun k => k != 4 }

/-- `Result<int, long>`: `return 7` is a success, `return n` for a const or global `n` is a failure. -/
example : make sampleLib 0 1 false ⟨.base 0, false, .prvalue⟩ (.num 7) = some (.ok 7) := by decide +kernel
example : make sampleLib 0 1 false ⟨.base 0, true, .lvalue⟩ (.num 7) = some (.error 7) := by decide +kernel
/-- and a variable of the error type makes a success. -/
example : make sampleLib 0 1 false ⟨.base 1, false, .lvalue⟩ (.num 7) = some (.ok 7) := by decide +kernel
/-- `Result<int, Error>` takes neither. -/
example : make sampleLib 0 2 false ⟨.base 0, false, .lvalue⟩ (.num 7) = none ∧
    make sampleLib 0 2 false ⟨.base 2, false, .lvalue⟩ (.num 7) = none ∧
    make sampleLib 0 2 false ⟨.base 2, false, .xvalue⟩ (.num 7) = some (.error 7) := by decide +kernel
/-- `Result<String, Error>` from `Ok(StringView)` uses the explicit constructor; from a `StringView` it does not. -/
example : make sampleLib 4 2 false ⟨.ok 3, false, .prvalue⟩ (.num 7) = some (.ok 7) ∧
    make sampleLib 4 2 true ⟨.base 3, false, .prvalue⟩ (.num 7) = none ∧
    make sampleLib 4 2 false ⟨.ok 3, false, .lvalue⟩ (.num 7) = none := by decide +kernel
/-- `Result<long, Error>` from `Result<int, Error>`, but not from `Result<int, long>`. -/
example : make sampleLib 1 2 false ⟨.res 0 2, false, .prvalue⟩ (.error 7) = some (.error 7) ∧
    make sampleLib 1 2 false ⟨.res 0 1, false, .prvalue⟩ (.error 7) = none := by decide +kernel
example : Gives sampleLib 4 3 7 7 := .explicit (by decide) id rfl
example : makeVoid sampleLib 2 false ⟨.err 2, true, .lvalue⟩ (.num 3) = some (some 3) ∧
    makeVoid sampleLib 4 false ⟨.err 4, true, .lvalue⟩ (.num 3) = none := by decide +kernel

end Solace.ResConv
