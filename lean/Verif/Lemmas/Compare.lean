import Verif.Spec.Compare
import Verif.Lemmas.StringView
import Verif.Lemmas.Path
/- Helper lemmas for Props/C134. -/
namespace Solace.Cmp

theorem loop_iff {α : Type} (eq : Nat → α → α → Bool) : ∀ (a b : List α) (i : Nat), loop eq i a b = true ↔
    ∀ (k : Nat) (x y : α), a[k]? = some x → b[k]? = some y → eq (i + k) x y = true
  | [], b, i => by simp [loop]
  | a :: as, [], i => by simp [loop]
  | a :: as, b :: bs, i => by
    rw [loop]
    constructor
    · intro h k x y hx hy
      cases he : eq i a b with
      | false => rw [he] at h; simp at h
      | true =>
        rw [he] at h
        have h' := (loop_iff eq as bs (i + 1)).mp (by simpa using h)
        cases k with
        | zero => simp at hx hy; subst hx; subst hy; simpa using he
        | succ k =>
          have := h' k x y (by simpa using hx) (by simpa using hy)
          rw [show i + (k + 1) = i + 1 + k by omega]; exact this
    · intro h
      have h0 := h 0 a b (by simp) (by simp)
      simp only [Nat.add_zero] at h0
      rw [h0]
      refine (if_neg (by simp)).trans ((loop_iff eq as bs (i + 1)).mpr fun k x y hx hy => ?_)
      have := h (k + 1) x y (by simpa using hx) (by simpa using hy)
      rw [show i + 1 + k = i + (k + 1) by omega]; exact this

theorem elementwise_refl {α : Type} {R : α → α → Prop} (h : ∀ x, R x x) (a : List α) : Elementwise R a a :=
  ⟨rfl, fun i x y hx hy => by rw [hx] at hy; cases hy; exact h x⟩

theorem elementwise_symm {α : Type} {R : α → α → Prop} (h : ∀ x y, R x y → R y x) {a b : List α} (hab : Elementwise R a b) :
    Elementwise R b a :=
  ⟨hab.1.symm, fun i x y hx hy => h _ _ (hab.2 i y x hy hx)⟩

theorem elementwise_trans {α : Type} {R : α → α → Prop} (h : ∀ x y z, R x y → R y z → R x z) {a b c : List α}
    (hab : Elementwise R a b) (hbc : Elementwise R b c) : Elementwise R a c := by
  refine ⟨hab.1.trans hbc.1, fun i x z hx hz => ?_⟩
  have hi : i < b.length := by
    have := List.getElem?_eq_some_iff.mp hx
    obtain ⟨hlt, _⟩ := this
    rw [← hab.1]; exact hlt
  exact h _ _ _ (hab.2 i x b[i] hx (List.getElem?_eq_getElem hi)) (hbc.2 i b[i] z (List.getElem?_eq_getElem hi) hz)

theorem optionwise_refl {α : Type} {R : α → α → Prop} (h : ∀ x, R x x) (a : Option α) : Optionwise R a a :=
  ⟨Iff.rfl, fun x y hx hy => by rw [hx] at hy; cases hy; exact h x⟩

theorem optionwise_symm {α : Type} {R : α → α → Prop} (h : ∀ x y, R x y → R y x) {a b : Option α} (hab : Optionwise R a b) :
    Optionwise R b a := ⟨hab.1.symm, fun x y hx hy => h _ _ (hab.2 y x hy hx)⟩

theorem optionwise_trans {α : Type} {R : α → α → Prop} (h : ∀ x y z, R x y → R y z → R x z) {a b c : Option α}
    (hab : Optionwise R a b) (hbc : Optionwise R b c) : Optionwise R a c := by
  refine ⟨hab.1.trans hbc.1, fun x z hx hz => ?_⟩
  cases b with
  | none => have := hab.1.mpr rfl; rw [hx] at this; cases this
  | some y => exact h _ _ _ (hab.2 x y hx rfl) (hbc.2 y z rfl hz)

theorem optionwise_cases {α : Type} (R : α → α → Prop) (a b : Option α) : Optionwise R a b ↔
    match a, b with
    | none, none => True
    | some x, some y => R x y
    | _, _ => False := by
  cases a <;> cases b <;> simp [Optionwise]

theorem viewEquals_iff {α : Type} {eq : Nat → α → α → Bool} {R : α → α → Prop} (hR : ∀ i x y, eq i x y = true ↔ R x y)
    (hrefl : ∀ x, R x x) {object memory : Bool} {a b : List α} (ho : object = true → a = b)
    (hm : memory = true → a.length = b.length → a = b) : viewEquals eq object memory a b = true ↔ Elementwise R a b := by
  unfold viewEquals
  by_cases hl : a.length = b.length
  · rw [if_neg (by simpa using hl)]
    by_cases hs : (object || memory) = true
    · rw [if_pos hs]
      have hab : a = b := by
        rcases Bool.or_eq_true_iff.mp hs with h | h
        · exact ho h
        · exact hm h hl
      subst hab
      exact ⟨fun _ => elementwise_refl hrefl a, fun _ => rfl⟩
    · rw [if_neg hs, loop_iff]
      exact ⟨fun h => ⟨hl, fun i x y hx hy => (hR _ _ _).mp (h i x y hx hy)⟩,
        fun h k x y hx hy => (hR _ _ _).mpr (h.2 k x y hx hy)⟩
  · rw [if_pos (by simpa using hl)]
    exact ⟨fun h => by simp at h, fun h => absurd h.1 hl⟩

theorem elementwise_eq {α : Type} {a b : List α} : Elementwise (fun x y => x = y) a b ↔ a = b := by
  constructor
  · intro h
    refine List.ext_getElem h.1 fun i h1 h2 => ?_
    exact h.2 i _ _ (List.getElem?_eq_getElem h1) (List.getElem?_eq_getElem h2)
  · intro h; subst h; exact elementwise_refl (fun _ => rfl) a

theorem memcmp_eq_zero : ∀ a b : List Byte, a.length = b.length → (Uuid.memcmp a b = 0 ↔ a = b)
  | [], [], _ => by simp [Uuid.memcmp]
  | x :: xs, y :: ys, h => by
    have ih := memcmp_eq_zero xs ys (by simpa using h)
    rw [Uuid.memcmp]
    by_cases h1 : x.toNat < y.toNat
    · rw [if_pos h1]
      constructor
      · intro h; simp at h
      · intro h; cases h; omega
    · rw [if_neg h1]
      by_cases h2 : y.toNat < x.toNat
      · rw [if_pos h2]
        constructor
        · intro h; simp at h
        · intro h; cases h; omega
      · rw [if_neg h2, ih]
        have : x = y := BitVec.eq_of_toNat_eq (by omega)
        subst this
        simp
  | [], _ :: _, h => by simp at h
  | _ :: _, [], h => by simp at h

theorem memoryEquals_iff {object memory : Bool} {a b : List Byte} (ho : object = true → a = b)
    (hm : memory = true → a.length = b.length → a = b) : memoryEquals object memory a b = true ↔ a = b := by
  unfold memoryEquals
  by_cases hl : a.length = b.length
  · rw [if_neg (by simpa using hl)]
    by_cases hs : (object || memory) = true
    · rw [if_pos hs]
      rcases Bool.or_eq_true_iff.mp hs with h | h
      · simp [ho h]
      · simp [hm h hl]
    · rw [if_neg hs, beq_iff_eq]; exact memcmp_eq_zero a b hl
  · rw [if_pos (by simpa using hl)]
    exact ⟨fun h => by simp at h, fun h => absurd (by rw [h]) hl⟩

theorem equal_refl : ∀ (t : Ty), Reflexive t → ∀ a : t.Val, Equal t a a
  | .own _ _ _, h, a => h a
  | .unit, _, _ => trivial
  | .string, _, _ => rfl
  | .memory, _, _ => rfl
  | .error, _, _ => ⟨rfl, rfl⟩
  | .uuid, _, _ => rfl
  | .version, _, _ => rfl
  | .path, _, _ => rfl
  | .digest, _, _ => rfl
  | .optional t, h, a => optionwise_refl (equal_refl t h) a
  | .array t, h, a => elementwise_refl (equal_refl t h) a
  | .vector t, h, a => elementwise_refl (equal_refl t h) a
  | .view t, h, a => elementwise_refl (equal_refl t h) a
  | .result v e, h, a => by
    rcases a with x | x
    · exact .inl ⟨x, x, rfl, rfl, equal_refl v h.1 x⟩
    · exact .inr ⟨x, x, rfl, rfl, equal_refl e h.2 x⟩
  | .voidResult e, h, a => optionwise_refl (equal_refl e h) a

theorem own_mono {P Q : (α : Type) → (α → α → Bool) → (α → α → Bool) → Prop} (h : ∀ α e n, P α e n → Q α e n) :
    ∀ t, Own P t → Own Q t
  | .own _ _ _, hp => h _ _ _ hp
  | .unit, _ => trivial
  | .string, _ => trivial
  | .memory, _ => trivial
  | .error, _ => trivial
  | .uuid, _ => trivial
  | .version, _ => trivial
  | .path, _ => trivial
  | .digest, _ => trivial
  | .optional t, hp => own_mono h t hp
  | .array t, hp => own_mono h t hp
  | .vector t, hp => own_mono h t hp
  | .view t, hp => own_mono h t hp
  | .result v e, hp => ⟨own_mono h v hp.1, own_mono h e hp.2⟩
  | .voidResult e, hp => own_mono h e hp

theorem equivalent_refl {t : Ty} (h : Equivalent t) : Reflexive t := own_mono (fun _ _ _ h => h.1) t h

theorem exact_refl {t : Ty} (h : Exact t) : Reflexive t := own_mono (fun _ _ _ h a => (h a a).mpr rfl) t h

theorem equal_symm : ∀ (t : Ty), Equivalent t → ∀ a b : t.Val, Equal t a b → Equal t b a
  | .own _ _ _, h, a, b, hab => h.2.1 a b hab
  | .unit, _, _, _, _ => trivial
  | .string, _, a, b, h => Eq.symm (α := List Byte) h
  | .memory, _, a, b, h => Eq.symm (α := List Byte) h
  | .error, _, _, _, h => ⟨h.1.symm, h.2.symm⟩
  | .uuid, _, a, b, h => Eq.symm (α := List Byte) h
  | .version, _, a, b, h => Eq.symm (α := Nat × Nat × Nat × List Byte) h
  | .path, _, a, b, h => Eq.symm (α := List (List Byte)) h
  | .digest, _, a, b, h => Eq.symm (α := List Byte) h
  | .optional t, ht, _, _, h => optionwise_symm (equal_symm t ht) h
  | .array t, ht, _, _, h => elementwise_symm (equal_symm t ht) h
  | .vector t, ht, _, _, h => elementwise_symm (equal_symm t ht) h
  | .view t, ht, _, _, h => elementwise_symm (equal_symm t ht) h
  | .result v e, ht, _, _, h => by
    rcases h with ⟨x, y, hx, hy, h⟩ | ⟨x, y, hx, hy, h⟩
    · exact .inl ⟨y, x, hy, hx, equal_symm v ht.1 _ _ h⟩
    · exact .inr ⟨y, x, hy, hx, equal_symm e ht.2 _ _ h⟩
  | .voidResult e, ht, _, _, h => optionwise_symm (equal_symm e ht) h

theorem equal_trans : ∀ (t : Ty), Equivalent t → ∀ a b c : t.Val, Equal t a b → Equal t b c → Equal t a c
  | .own _ _ _, h, a, b, c, hab, hbc => h.2.2 a b c hab hbc
  | .unit, _, _, _, _, _, _ => trivial
  | .string, _, _, _, _, h, k => Eq.trans (α := List Byte) h k
  | .memory, _, _, _, _, h, k => Eq.trans (α := List Byte) h k
  | .error, _, _, _, _, h, k => ⟨h.1.trans k.1, h.2.trans k.2⟩
  | .uuid, _, _, _, _, h, k => Eq.trans (α := List Byte) h k
  | .version, _, _, _, _, h, k => Eq.trans (α := Nat × Nat × Nat × List Byte) h k
  | .path, _, _, _, _, h, k => Eq.trans (α := List (List Byte)) h k
  | .digest, _, _, _, _, h, k => Eq.trans (α := List Byte) h k
  | .optional t, ht, _, _, _, h, k => optionwise_trans (equal_trans t ht) h k
  | .array t, ht, _, _, _, h, k => elementwise_trans (equal_trans t ht) h k
  | .vector t, ht, _, _, _, h, k => elementwise_trans (equal_trans t ht) h k
  | .view t, ht, _, _, _, h, k => elementwise_trans (equal_trans t ht) h k
  | .result v e, ht, _, _, _, h, k => by
    rcases h with ⟨x, y, hx, hy, h⟩ | ⟨x, y, hx, hy, h⟩
    · rcases k with ⟨y', z, hy', hz, k⟩ | ⟨y', z, hy', hz, k⟩
      · rw [hy] at hy'; cases hy'; exact .inl ⟨x, z, hx, hz, equal_trans v ht.1 _ _ _ h k⟩
      · rw [hy] at hy'; cases hy'
    · rcases k with ⟨y', z, hy', hz, k⟩ | ⟨y', z, hy', hz, k⟩
      · rw [hy] at hy'; cases hy'
      · rw [hy] at hy'; cases hy'; exact .inr ⟨x, z, hx, hz, equal_trans e ht.2 _ _ _ h k⟩
  | .voidResult e, ht, _, _, _, h, k => optionwise_trans (equal_trans e ht) h k

theorem opt_eq_iff {α : Type} {eq : α → α → Bool} {R : α → α → Prop} (hR : ∀ x y, eq x y = true ↔ R x y) (hrefl : ∀ x, R x x)
    {same : Bool} {a b : Option α} (hs : same = true → a = b) : Opt.eq eq same a b = true ↔ Optionwise R a b := by
  cases same with
  | true => cases hs rfl; exact ⟨fun _ => optionwise_refl hrefl a, fun _ => rfl⟩
  | false =>
    rw [optionwise_cases]
    cases a <;> cases b <;> simp [Opt.eq, hR]

theorem error_iff (a b : ErrorValue) : ErrorValue.equals a b = true ↔ a.domain = b.domain ∧ a.code = b.code := by
  rw [ErrorValue.equals, Bool.and_eq_true, beq_iff_eq, beq_iff_eq]

theorem version_iff (a b : Version) : Version.equals a b = true ↔
    (a.major, a.minor, a.patch, a.preRelease) = (b.major, b.minor, b.patch, b.preRelease) := by
  rw [Version.equals]
  simp only [Bool.and_eq_true, beq_iff_eq, Prod.mk.injEq, StringView.equals_iff, and_assoc]

theorem digest_iff {object memory : Bool} {a b : List Byte} (ho : object = true → a = b)
    (hm : memory = true → a.length = b.length → a = b) :
    (object || viewEquals (fun _ (x y : Byte) => x == y) false memory a b) = true ↔ a = b := by
  have hv := viewEquals_iff (eq := fun _ (x y : Byte) => x == y) (R := fun x y => x = y) (fun _ x y => beq_iff_eq) (fun _ => rfl)
    (object := false) (a := a) (b := b) (by simp) hm
  rw [Bool.or_eq_true, hv, elementwise_eq]
  exact ⟨fun h => h.elim ho id, .inr⟩

theorem sum_iff {α β : Type} {R : α → α → Prop} {S : β → β → Prop} (a b : α ⊕ β) :
    ((∃ x y, a = .inl x ∧ b = .inl y ∧ R x y) ∨ (∃ x y, a = .inr x ∧ b = .inr y ∧ S x y)) ↔
    match a, b with
    | .inl x, .inl y => R x y
    | .inr x, .inr y => S x y
    | _, _ => False := by
  rcases a with x | x <;> rcases b with y | y <;> simp

theorem optionwise_eq {α : Type} {R : α → α → Prop} (h : ∀ x y, R x y ↔ x = y) (a b : Option α) : Optionwise R a b ↔ a = b := by
  rw [optionwise_cases]
  cases a <;> cases b <;> simp [h]

theorem elementwise_eq' {α : Type} {R : α → α → Prop} (h : ∀ x y, R x y ↔ x = y) (a b : List α) : Elementwise R a b ↔ a = b := by
  rw [show R = (fun x y => x = y) from by funext x y; exact propext (h x y)]
  exact elementwise_eq

theorem sum_eq {α β : Type} {R : α → α → Prop} {S : β → β → Prop} (hR : ∀ x y, R x y ↔ x = y) (hS : ∀ x y, S x y ↔ x = y)
    (a b : α ⊕ β) :
    ((∃ x y, a = .inl x ∧ b = .inl y ∧ R x y) ∨ (∃ x y, a = .inr x ∧ b = .inr y ∧ S x y)) ↔ a = b := by
  rw [sum_iff]
  rcases a with x | x <;> rcases b with y | y <;> simp [hR, hS]

theorem eq_iff (ids : Ids) (hi : ids.Real) : ∀ (t : Ty), Reflexive t → ∀ (p : List Nat) (a b : t.Val),
    eq ids t p a b = true ↔ Equal t a b
  | .own _ _ _, _, _, _, _ => Iff.rfl
  | .unit, _, _, _, _ => by simp [eq, Equal]
  | .string, _, _, a, b => StringView.equals_iff a b
  | .memory, _, p, a, b => memoryEquals_iff (hi.object p .memory a b) (hi.memory p (.own Byte (· == ·) (· != ·)) a b)
  | .error, _, _, a, b => error_iff a b
  | .uuid, _, _, a, b => by
    rw [eq, Equal, Uuid.equals, beq_iff_eq]
    exact memcmp_eq_zero _ _ (a.2.trans b.2.symm)
  | .version, _, _, a, b => version_iff a b
  | .path, _, _, a, b => Path.equals_iff_comps a b
  | .digest, _, p, a, b => digest_iff (hi.object p .digest a b) (hi.memory p (.own Byte (· == ·) (· != ·)) a b)
  | .optional t, h, p, a, b => by
    rw [eq, Equal]
    exact opt_eq_iff (fun x y => eq_iff ids hi t h (0 :: p) x y) (equal_refl t h) (hi.object p (.optional t) a b)
  | .array t, h, p, a, b => by
    rw [eq, Equal, Bool.or_eq_true]
    have hv := viewEquals_iff (R := fun x y => Equal t x y) (fun i x y => eq_iff ids hi t h (i :: p) x y) (equal_refl t h)
      (object := false) (a := a) (b := b) (by simp) (hi.memory p t a b)
    rw [hv]
    refine ⟨fun h' => h'.elim (fun ho => ?_) id, .inr⟩
    have := hi.object p (.array t) a b ho
    cases this
    exact elementwise_refl (equal_refl t h) a
  | .vector t, h, p, a, b => by
    rw [eq, Equal, Bool.or_eq_true]
    have hv := viewEquals_iff (R := fun x y => Equal t x y) (fun i x y => eq_iff ids hi t h (i :: p) x y) (equal_refl t h)
      (object := false) (a := a) (b := b) (by simp) (hi.memory p t a b)
    rw [hv]
    refine ⟨fun h' => h'.elim (fun ho => ?_) id, .inr⟩
    have := hi.object p (.vector t) a b ho
    cases this
    exact elementwise_refl (equal_refl t h) a
  | .view t, h, p, a, b => by
    rw [eq, Equal]
    exact viewEquals_iff (R := fun x y => Equal t x y) (fun i x y => eq_iff ids hi t h (i :: p) x y) (equal_refl t h)
      (hi.object p (.view t) a b) (hi.memory p t a b)
  | .result v e, h, p, a, b => by
    refine Iff.trans ?_ (sum_iff (R := Equal v) (S := Equal e) a b).symm
    rcases a with x | x <;> rcases b with y | y
    · exact eq_iff ids hi v h.1 (0 :: p) x y
    · simp [eq]
    · simp [eq]
    · exact eq_iff ids hi e h.2 (0 :: p) x y
  | .voidResult e, h, p, a, b => by
    refine Iff.trans ?_ (optionwise_cases (fun x y => Equal e x y) a b).symm
    cases a with
    | none => cases b <;> simp [eq]
    | some x =>
      cases b with
      | none => simp [eq]
      | some y => exact eq_iff ids hi e h (0 :: p) x y

theorem equal_iff_eq : ∀ (t : Ty), Exact t → Plain t → ∀ a b : t.Val, Equal t a b ↔ a = b
  | .own _ _ _, h, _, a, b => h a b
  | .unit, _, _, a, b => ⟨fun _ => rfl, fun _ => trivial⟩
  | .string, _, _, _, _ => Iff.rfl
  | .memory, _, _, _, _ => Iff.rfl
  | .error, _, h, _, _ => h.elim
  | .uuid, _, _, a, b => ⟨fun h => Subtype.ext h, fun h => by rw [h]; rfl⟩
  | .version, _, h, _, _ => h.elim
  | .path, _, h, _, _ => h.elim
  | .digest, _, _, _, _ => Iff.rfl
  | .optional t, h, hp, a, b => optionwise_eq (equal_iff_eq t h hp) a b
  | .array t, h, hp, a, b => elementwise_eq' (equal_iff_eq t h hp) a b
  | .vector t, h, hp, a, b => elementwise_eq' (equal_iff_eq t h hp) a b
  | .view t, h, hp, a, b => elementwise_eq' (equal_iff_eq t h hp) a b
  | .result v e, h, hp, a, b => sum_eq (equal_iff_eq v h.1 hp.1) (equal_iff_eq e h.2 hp.2) a b
  | .voidResult e, h, hp, a, b => optionwise_eq (equal_iff_eq e h hp) a b

theorem opt_ne {α : Type} (f : α → α → Bool) (same : Bool) (a b : Option α) :
    Opt.ne (fun x y => !f x y) same a b = !Opt.eq (fun x y => f x y) same a b := by
  cases same <;> cases a <;> cases b <;> rfl

theorem ne_iff (ids : Ids) : ∀ (t : Ty), Opposite t → hasNe t = true → ∀ (p : List Nat) (a b : t.Val),
    ne ids t p a b = !eq ids t p a b
  | .own _ _ _, h, _, _, a, b => h a b
  | .unit, _, _, _, _, _ => by simp [eq, ne]
  | .string, _, _, _, _, _ => by rw [ne]
  | .memory, _, _, _, _, _ => by rw [ne]
  | .error, _, h, _, _, _ => by simp [hasNe] at h
  | .uuid, _, _, _, _, _ => by rw [ne]
  | .version, _, _, _, _, _ => by rw [ne]
  | .path, _, _, _, _, _ => by rw [ne]
  | .digest, _, h, _, _, _ => by simp [hasNe] at h
  | .optional t, h, hn, p, a, b => by
    have hf : (fun x y => ne ids t (0 :: p) x y) = (fun x y => !eq ids t (0 :: p) x y) := by
      funext x y; exact ne_iff ids t h (by simpa [hasNe] using hn) _ x y
    rw [ne, eq, hf]
    exact opt_ne _ _ _ _
  | .array _, _, _, _, _, _ => by rw [ne]
  | .vector _, _, _, _, _, _ => by rw [ne]
  | .view _, _, _, _, _, _ => by rw [ne]
  | .result _ _, _, h, _, _, _ => by simp [hasNe] at h
  | .voidResult _, _, h, _, _, _ => by simp [hasNe] at h

theorem indexOfLoop_spec (ids : Ids) (t : Ty) (p : List Nat) (v : t.Val) : ∀ (l : List t.Val) (i : Nat),
    match indexOfLoop ids t p v l i with
    | some n => i ≤ n ∧ (∃ x, l[n - i]? = some x ∧ eq ids t (n :: p) v x = true) ∧
        ∀ k x, k < n - i → l[k]? = some x → eq ids t ((i + k) :: p) v x = false
    | none => ∀ k x, l[k]? = some x → eq ids t ((i + k) :: p) v x = false
  | [], i => by simp [indexOfLoop]
  | c :: cs, i => by
    rw [indexOfLoop]
    cases he : eq ids t (i :: p) v c with
    | true => simp [he]
    | false =>
      have ih := indexOfLoop_spec ids t p v cs (i + 1)
      simp only [Bool.false_eq_true, if_false]
      cases hr : indexOfLoop ids t p v cs (i + 1) with
      | none =>
        rw [hr] at ih
        intro k x hx
        cases k with
        | zero => simp at hx; subst hx; simpa using he
        | succ k => rw [show i + (k + 1) = i + 1 + k by omega]; exact ih k x (by simpa using hx)
      | some n =>
        rw [hr] at ih
        obtain ⟨h1, ⟨x, hx, hex⟩, h3⟩ := ih
        refine ⟨by omega, ⟨x, ?_, hex⟩, fun k y hk hy => ?_⟩
        · rw [show n - i = (n - (i + 1)) + 1 by omega]; simpa using hx
        · cases k with
          | zero => simp at hy; subst hy; simpa using he
          | succ k => rw [show i + (k + 1) = i + 1 + k by omega]; exact h3 k y (by omega) (by simpa using hy)

end Solace.Cmp
