import Verif.Lemmas.Compare
/-
C134: comparing values of nested types is comparing their parts; the operators agree with each other.
-/
namespace Solace.Cmp

/-- `a == b` holds exactly for equal values, whatever the types are made of, and whichever parts are the same objects. -/
theorem C134_equal (ids : Ids) (hi : ids.Real) (t : Ty) (ht : Reflexive t) (p : List Nat) (a b : t.Val) :
    eq ids t p a b = true ↔ Equal t a b := eq_iff ids hi t ht p a b

/-- `a != b` holds exactly for values that are not equal. -/
theorem C134_different (ids : Ids) (hi : ids.Real) (t : Ty) (ht : Reflexive t) (ho : Opposite t) (hn : hasNe t = true)
    (p : List Nat) (a b : t.Val) : ne ids t p a b = true ↔ ¬Equal t a b := by
  rw [ne_iff ids t ho hn, ← eq_iff ids hi t ht p a b]
  simp

/-- `==` is an equivalence when that of the caller's types is, in all places and for all objects. -/
theorem C134_equivalence (ids₁ ids₂ ids₃ : Ids) (h₁ : ids₁.Real) (h₂ : ids₂.Real) (h₃ : ids₃.Real) (t : Ty) (ht : Equivalent t)
    (p q r : List Nat) (a b c : t.Val) :
    eq ids₁ t p a a = true ∧ (eq ids₁ t p a b = eq ids₂ t q b a) ∧
    (eq ids₁ t p a b = true → eq ids₂ t q b c = true → eq ids₃ t r a c = true) := by
  have hr := equivalent_refl ht
  have e1 := eq_iff ids₁ h₁ t hr p
  have e2 := eq_iff ids₂ h₂ t hr q
  have e3 := eq_iff ids₃ h₃ t hr r
  refine ⟨(e1 a a).mpr (equal_refl t hr a), ?_, fun h k => (e3 a c).mpr (equal_trans t ht a b c ((e1 a b).mp h) ((e2 b c).mp k))⟩
  rw [Bool.eq_iff_iff, e1, e2]
  exact ⟨equal_symm t ht a b, equal_symm t ht b a⟩

/-- In types without errors, versions and paths, equal values are the same. -/
theorem C134_exact (ids : Ids) (hi : ids.Real) (t : Ty) (he : Exact t) (hp : Plain t) (p : List Nat) (a b : t.Val) :
    eq ids t p a b = true ↔ a = b := by
  rw [eq_iff ids hi t (exact_refl he), equal_iff_eq t he hp]

/-- An optional equals a value exactly when it holds an equal one, `none` exactly when it is empty; `!=` is the opposite. -/
theorem C134_optional (ids : Ids) (hi : ids.Real) (t : Ty) (ht : Reflexive t) (ho : Opposite t) (hn : hasNe t = true)
    (p : List Nat) (a : Option t.Val) (v : t.Val) :
    (optionalEqValue ids t p a v = true ↔ Equal (.optional t) a (some v)) ∧
    (optionalNeValue ids t p a v = true ↔ ¬Equal (.optional t) a (some v)) ∧
    (optionalEqNone (t := t) a = true ↔ Equal (.optional t) a none) ∧
    (optionalNeNone (t := t) a = true ↔ ¬Equal (.optional t) a none) := by
  have hc := fun b : Option t.Val => optionwise_cases (fun x y => Equal t x y) a b
  rw [show Equal (.optional t) a (some v) ↔ _ from hc (some v), show Equal (.optional t) a none ↔ _ from hc none]
  cases a with
  | none => simp [optionalEqValue, optionalNeValue, Opt.eqValue, Opt.neValue, optionalEqNone, optionalNeNone]
  | some x =>
    have h1 := eq_iff ids hi t ht (0 :: p) x v
    have h2 := C134_different ids hi t ht ho hn (0 :: p) x v
    simp [optionalEqValue, optionalNeValue, Opt.eqValue, Opt.neValue, optionalEqNone, optionalNeNone, h1, h2]

/-- A vector and a view, on either side, and an array and a list of values: equal exactly when the elements are. -/
theorem C134_sequences (ids : Ids) (hi : ids.Real) (t : Ty) (ht : Equivalent t) (p : List Nat) (a b : List t.Val) :
    (vectorEqView ids t p a b = true ↔ Equal (.vector t) a b) ∧
    (viewEqVector ids t p a b = true ↔ Equal (.vector t) a b) ∧
    (vectorNeView ids t p a b = true ↔ ¬Equal (.vector t) a b) ∧
    (viewNeVector ids t p a b = true ↔ ¬Equal (.vector t) a b) ∧
    (arrayEqList ids t p a b = true ↔ Equal (.array t) a b) := by
  have hr := equivalent_refl ht
  have hv : ∀ a b : List t.Val, vectorEqView ids t p a b = true ↔ Equal (.vector t) a b := fun a b =>
    viewEquals_iff (R := fun x y => Equal t x y) (fun i x y => eq_iff ids hi t hr (i :: p) x y) (equal_refl t hr)
      (by simp) (hi.memory p t a b)
  have hs : ∀ a b : List t.Val, Equal (.vector t) b a ↔ Equal (.vector t) a b := fun a b =>
    ⟨equal_symm (.vector t) ht b a, equal_symm (.vector t) ht a b⟩
  refine ⟨hv a b, (hv b a).trans (hs a b), ?_, ?_, ?_⟩
  · rw [vectorNeView, Bool.not_eq_true', ← Bool.not_eq_true, hv a b]
  · rw [viewNeVector, Bool.not_eq_true', ← Bool.not_eq_true, hv b a, hs a b]
  · have hl := viewEquals_iff (R := fun x y => Equal t x y) (fun i x y => eq_iff ids hi t hr (i :: p) x y) (equal_refl t hr)
      (object := false) (memory := false) (a := a) (b := b) (by simp) (by simp)
    refine Iff.trans ?_ hl
    rw [arrayEqList, viewEquals]
    simp

/-- A result equals a value or an error exactly when it holds an equal one; the value differs from it otherwise. -/
theorem C134_result (ids : Ids) (hi : ids.Real) (v e : Ty) (hv : Reflexive v) (he : Reflexive e) (ho : Opposite v)
    (hn : hasNe v = true) (p : List Nat) (r : v.Val ⊕ e.Val) (x : v.Val) (y : e.Val) :
    (resultEqOk ids v e p r x = true ↔ Equal (.result v e) r (.inl x)) ∧
    (resultEqErr ids v e p r y = true ↔ Equal (.result v e) r (.inr y)) ∧
    (resultNeOk ids v e p r x = true ↔ ¬Equal (.result v e) r (.inl x)) := by
  have hc := fun b : v.Val ⊕ e.Val => sum_iff (R := Equal v) (S := Equal e) r b
  rw [show Equal (.result v e) r (.inl x) ↔ _ from hc (.inl x), show Equal (.result v e) r (.inr y) ↔ _ from hc (.inr y)]
  rcases r with z | z
  · have h1 := eq_iff ids hi v hv (0 :: p) z x
    have h2 := C134_different ids hi v hv ho hn (0 :: p) z x
    simp [resultEqOk, resultEqErr, resultNeOk, h1, h2]
  · have h1 := eq_iff ids hi e he (0 :: p) z y
    simp [resultEqOk, resultEqErr, resultNeOk, h1]

/-- Searching in a container of such values finds the first equal one. -/
theorem C134_search (ids : Ids) (hi : ids.Real) (t : Ty) (ht : Reflexive t) (p : List Nat) (a : List t.Val) (v : t.Val) :
    (∀ n, indexOf ids t p a v = some n ↔
      (∃ x, a[n]? = some x ∧ Equal t v x) ∧ ∀ k x, k < n → a[k]? = some x → ¬Equal t v x) ∧
    (contains ids t p a v = true ↔ ∃ x, x ∈ a ∧ Equal t v x) := by
  have hsp := indexOfLoop_spec ids t p v a 0
  have he := fun q x => eq_iff ids hi t ht q v x
  have hf : ∀ q x, eq ids t q v x = false → ¬Equal t v x := fun q x h hx => by
    rw [(he q x).mpr hx] at h; cases h
  rw [contains, indexOf]
  cases hr : indexOfLoop ids t p v a 0 with
  | none =>
    rw [hr] at hsp
    have hno : ∀ (k : Nat) (x : t.Val), a[k]? = some x → ¬Equal t v x := fun k x hx => hf _ _ (hsp k x hx)
    refine ⟨fun n => ⟨fun h => (by cases h), fun ⟨⟨x, hx, hq⟩, _⟩ => absurd hq (hno n x hx)⟩, ⟨fun h => by simp at h, ?_⟩⟩
    rintro ⟨x, hx, hq⟩
    obtain ⟨k, hk⟩ := List.getElem?_of_mem hx
    exact absurd hq (hno k x hk)
  | some m =>
    rw [hr] at hsp
    obtain ⟨_, ⟨x, hx, hex⟩, h3⟩ := hsp
    have hx' : a[m]? = some x := by simpa using hx
    have hq := (he _ _).mp hex
    have hno : ∀ (k : Nat) (y : t.Val), k < m → a[k]? = some y → ¬Equal t v y := fun k y hk hy => hf _ _ (h3 k y (by omega) hy)
    refine ⟨fun n => ⟨fun h => ?_, fun ⟨⟨y, hy, hqy⟩, hmin⟩ => ?_⟩, ⟨fun _ => ⟨x, List.mem_of_getElem? hx', hq⟩, fun _ => rfl⟩⟩
    · cases h; exact ⟨⟨x, hx', hq⟩, hno⟩
    · congr 1
      rcases Nat.lt_trichotomy m n with h | h | h
      · exact absurd hq (hmin m x h hx')
      · exact h
      · exact absurd hqy (hno n y h hy)

/-- All objects are different. -/
def apart : Ids := ⟨fun _ _ _ _ => false, fun _ _ _ _ => false⟩

open Classical in
/-- Equal values are always the same object. -/
noncomputable def shared : Ids := ⟨fun _ _ a b => decide (a = b), fun _ _ a b => decide (a = b)⟩

theorem apart_real : apart.Real := ⟨fun _ _ _ _ h => (by cases h), fun _ _ _ _ h => (by cases h)⟩

open Classical in
theorem shared_real : shared.Real :=
  ⟨fun _ _ _ _ h => by simpa [shared] using h, fun _ _ _ _ h _ => by simpa [shared] using h⟩

open Classical in
theorem shared_self (p : List Nat) (t : Ty) (a : t.Val) : shared.object p t a a = true := by simp [shared]

/-- A type of the caller with a value that does not equal itself, as a floating-point number may. -/
def withNaN : Ty := .own (Option Nat) (fun a b => a.isSome && a == b) (fun a b => !(a.isSome && a == b))

/-- Such a value in a container: whether the container equals another of the same elements depends on whether they are the same
object. -/
theorem C134_irreflexive_depends : ∃ (t : Ty) (a : t.Val) (ids₁ ids₂ : Ids), ids₁.Real ∧ ids₂.Real ∧ Opposite t ∧
    eq ids₁ t [] a a = true ∧ eq ids₂ t [] a a = false := by
  refine ⟨.array withNaN, ([none] : List (Option Nat)), shared, apart, shared_real, apart_real, fun _ _ => rfl, ?_, ?_⟩
  · show (shared.object [] (.array withNaN) _ _ || _) = true
    exact Bool.or_eq_true_iff.mpr (.inl (shared_self [] (.array withNaN) _))
  · rfl

/-- Equal values that can be told apart: the tag of an error and the build label of a version do not count. -/
theorem C134_equal_not_same : (∃ a b : ErrorValue, eq apart .error [] a b = true ∧ a ≠ b) ∧
    ∃ a b : Version, eq apart .version [] a b = true ∧ a ≠ b :=
  ⟨⟨⟨1#32, 2#64, [0x61#8]⟩, ⟨1#32, 2#64, []⟩, by decide, by decide⟩,
   ⟨⟨1, 2, 3, [], [0x61#8]⟩, ⟨1, 2, 3, [], []⟩, by decide, by decide⟩⟩

/-- A type of the kind the theorems are about: `Array<Optional<Result<String, Error>>>`. -/
def sample : Ty := .array (.optional (.result .string .error))

example : Reflexive sample ∧ Equivalent sample ∧ Opposite sample ∧ Exact sample :=
  ⟨⟨trivial, trivial⟩, ⟨trivial, trivial⟩, ⟨trivial, trivial⟩, ⟨trivial, trivial⟩⟩
example : hasNe sample = true ∧ hasNe (.optional (.result .string .error)) = false := ⟨rfl, rfl⟩
example : Plain (.array (.optional (.vector .string))) ∧ Exact (.vector (.own Nat (· == ·) (· != ·))) :=
  ⟨trivial, fun _ _ => beq_iff_eq⟩

/-- Two such arrays that differ deep inside, and two that are equal though the tags of their errors differ. -/
example : eq apart sample [] ([some (.inl [1#8]), none] : List (Option (List Byte ⊕ ErrorValue)))
      ([some (.inl [2#8]), none] : List (Option (List Byte ⊕ ErrorValue))) = false ∧
    eq apart sample [] ([some (.inr ⟨1#32, 2#64, [3#8]⟩), none] : List (Option (List Byte ⊕ ErrorValue)))
      ([some (.inr ⟨1#32, 2#64, []⟩), none] : List (Option (List Byte ⊕ ErrorValue))) = true := by
  constructor <;> decide

/-- The optional of an optional: empty inside is not empty outside. -/
example : eq apart (.optional (.optional .string)) [] (some none : Option (Option (List Byte)))
    (none : Option (Option (List Byte))) = false ∧
    optionalEqValue apart (.optional .string) [] (some none : Option (Option (List Byte))) (none : Option (List Byte)) = true := by
  constructor <;> decide

end Solace.Cmp
