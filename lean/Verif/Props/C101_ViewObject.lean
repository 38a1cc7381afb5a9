import Verif.Model.ViewObject
import Verif.Model.MemoryView
/-
C101: views refer to the memory they were made for, and memory given as constant is not written.
-/
namespace Solace.ViewObj

/-! ### Specification -/

/-- Every byte of the range is memory. -/
def Readable (m : Mem) (a n : Nat) : Prop := ∀ p, a ≤ p → p < a + n → (m p).isSome

/-- The view has no bytes, or all its bytes are in a range of the set. -/
def InOneOf (A : Nat → Nat → Prop) (x : View) : Prop :=
  x.size = 0 ∨ ∃ a n, A a n ∧ a ≤ x.addr ∧ x.addr + x.size ≤ a + n

/-- The ranges given to the constructors by a program. -/
def Given (ops : List Op) (a n : Nat) : Prop := a ≠ 0 ∧ ∃ k, Op.wrap k a n ∈ ops

/-- The ranges given as memory that may be written. -/
def GivenMutable (ops : List Op) (a n : Nat) : Prop := a ≠ 0 ∧ Op.wrap true a n ∈ ops

/-- May the variable be used where a mutable (or any) view is expected? -/
def usable (ts : List Bool) (k : Bool) (v : Nat) : Bool :=
  match ts[v]? with
  | some m => !k || m
  | none => false

/-- The types of the variables, as declared in the program. -/
def typesStep (ts : List Bool) : Op → List Bool
  | .null k => ts ++ [k]
  | .wrap k a n => if a ≠ 0 ∨ n = 0 then ts ++ [k] else ts
  | .copy k v => if usable ts k v then ts ++ [k] else ts
  | .move k v => if usable ts k v then ts ++ [k] else ts
  | .slice k v _ _ => if usable ts k v then ts ++ [k] else ts
  | .cast v => if usable ts false v then ts ++ [true] else ts
  | _ => ts

/-- Does the statement mix constant and mutable views: a cast, or an exchange between the two types? -/
def mixes (ts : List Bool) : Op → Bool
  | .cast _ => true
  | .swap v u => ts[v]? != ts[u]?
  | .assignMove v u => ts[v]? != ts[u]?
  | _ => false

/-- No statement of the program mixes them. -/
def NoMix : List Bool → List Op → Prop
  | _, [] => True
  | ts, op :: ops => mixes ts op = false ∧ NoMix (typesStep ts op) ops

/-! ### Memory -/

theorem load_spec (m : Mem) : ∀ (n a : Nat), Readable m a n →
    ∃ bs, load m a n = some bs ∧ bs.length = n ∧ ∀ i, i < n → bs[i]? = m (a + i)
  | 0, a, _ => ⟨[], rfl, rfl, fun i h => absurd h (Nat.not_lt_zero i)⟩
  | n + 1, a, h => by
    obtain ⟨bs, e, el, ei⟩ := load_spec m n (a + 1) (fun p h1 h2 => h p (by omega) (by omega))
    obtain ⟨b, eb⟩ := Option.isSome_iff_exists.mp (h a (Nat.le_refl _) (by omega))
    refine ⟨b :: bs, ?_, by simp [el], ?_⟩
    · simp only [load, eb, e]
    · intro i hi
      cases i with
      | zero => simp [eb]
      | succ i =>
        rw [List.getElem?_cons_succ, ei i (by omega)]
        congr 1
        omega

theorem load_congr (m m' : Mem) : ∀ (n a : Nat), (∀ p, a ≤ p → p < a + n → m' p = m p) → load m' a n = load m a n
  | 0, _, _ => rfl
  | n + 1, a, h => by
    simp only [load, h a (Nat.le_refl _) (by omega), load_congr m m' n (a + 1) (fun p h1 h2 => h p (by omega) (by omega))]

theorem store_isSome (m : Mem) (a : Nat) (bs : List Byte) (h : Readable m a bs.length) (p : Nat) :
    (store m a bs p).isSome = (m p).isSome := by
  unfold store
  split
  · rename_i hp
    rw [h p hp.1 hp.2]
    have : p - a < bs.length := by omega
    simp [this]
  · rfl

theorem store_outside (m : Mem) (a : Nat) (bs : List Byte) (p : Nat) (h : ¬ (a ≤ p ∧ p < a + bs.length)) :
    store m a bs p = m p := if_neg h

theorem memmove_spec (m : Mem) (d s n : Nat) (hd : Readable m d n) (hs : Readable m s n) :
    ∃ m', memmove m d s n = .ok m' ∧ (∀ p, (m' p).isSome = (m p).isSome) ∧ (∀ i, i < n → m' (d + i) = m (s + i)) ∧
      ∀ p, ¬ (d ≤ p ∧ p < d + n) → m' p = m p := by
  obtain ⟨bs, e, el, ei⟩ := load_spec m n s hs
  obtain ⟨cs, e2, _, _⟩ := load_spec m n d hd
  refine ⟨store m d bs, by simp only [memmove, e, e2], ?_, ?_, ?_⟩
  · exact store_isSome m d bs (by rw [el]; exact hd)
  · intro i hi
    have : d ≤ d + i ∧ d + i < d + bs.length := by omega
    unfold store
    rw [if_pos this, show d + i - d = i by omega, ei i hi]
  · intro p hp
    exact store_outside m d bs p (by rw [el]; exact hp)

theorem memset_spec (m : Mem) (d n : Nat) (b : Byte) (hd : Readable m d n) :
    ∃ m', memset m d b n = .ok m' ∧ (∀ p, (m' p).isSome = (m p).isSome) ∧ (∀ i, i < n → m' (d + i) = some b) ∧
      ∀ p, ¬ (d ≤ p ∧ p < d + n) → m' p = m p := by
  obtain ⟨cs, e2, _, _⟩ := load_spec m n d hd
  refine ⟨store m d (List.replicate n b), by simp only [memset, e2], ?_, ?_, ?_⟩
  · exact store_isSome m d _ (by rw [List.length_replicate]; exact hd)
  · intro i hi
    have : d ≤ d + i ∧ d + i < d + (List.replicate n b).length := by rw [List.length_replicate]; omega
    unfold store
    rw [if_pos this, show d + i - d = i by omega, List.getElem?_replicate, if_pos hi]
  · intro p hp
    exact store_outside m d _ p (by rw [List.length_replicate]; exact hp)

/-! ### What the calls do to the bytes seen -/

/-- The bytes a view shows. -/
def Shows (m : Mem) (v : View) (bs : List Byte) : Prop := load m v.addr v.size = some bs

/-- A slice starts and ends inside the view it is taken of, also when it has no bytes. -/
theorem C101_slice_inside (mutable : Bool) (v x : View) (f t : Nat) (h : sliceAs mutable v f t = .ok x) :
    v.addr ≤ x.addr ∧ x.addr + x.size ≤ v.addr + v.size := by
  have hm : ∀ a n, (make a n).noexcept = .ok x → x = ⟨a, n⟩ := by
    intro a n he
    rw [make] at he
    split at he
    · exact (Outcome.ok.inj he).symm
    · cases he
  unfold sliceAs slice sliceMut at h
  split at h
  · split at h
    · rw [hm _ _ h]; exact ⟨Nat.le_refl _, by show v.addr + 0 ≤ _; omega⟩
    · rw [hm _ _ h]
      exact ⟨Nat.le_add_right _ _, by simp only; omega⟩
  · rw [hm _ _ h]
    exact ⟨Nat.le_add_right _ _, by simp only; omega⟩

example : sliceAs true ⟨100, 8⟩ 3 3 = .ok ⟨100, 0⟩ ∧ sliceAs false ⟨100, 8⟩ 9 20 = .ok ⟨108, 0⟩ := by decide

/-- Two views are equal exactly when they show the same bytes; the comparison of addresses is only a shortcut. -/
theorem C101_equals (m : Mem) (a b : View) (x y : List Byte) (ha : Shows m a x) (hb : Shows m b y)
    (hra : Readable m a.addr a.size) (hrb : Readable m b.addr b.size) :
    equals m a b = .ok (decide (x = y)) := by
  obtain ⟨x', ex, lx, _⟩ := load_spec m _ _ hra
  obtain ⟨y', ey, ly, _⟩ := load_spec m _ _ hrb
  have hx : x' = x := by rw [Shows, ex] at ha; exact Option.some.inj ha
  have hy : y' = y := by rw [Shows, ey] at hb; exact Option.some.inj hb
  subst hx hy
  unfold equals
  by_cases hs : a.size = b.size
  · rw [if_neg (by simpa using hs)]
    by_cases he : a.addr = b.addr
    · rw [if_pos he]
      have : x' = y' := by
        rw [he, hs, ey] at ex
        exact (Option.some.inj ex).symm
      simp [this]
    · rw [if_neg he]
      rw [hs] at ex ⊢
      simp only [ex, ey]
      congr 1
      by_cases hxy : x' = y' <;> simp [hxy]
  · rw [if_pos hs]
    have : x' ≠ y' := fun h => hs (by rw [← lx, ← ly, h])
    simp [this]

theorem load_ext (m : Mem) (a n : Nat) (bs : List Byte) (hl : bs.length = n) (h : ∀ i, i < n → m (a + i) = bs[i]?) :
    load m a n = some bs := by
  have hr : Readable m a n := by
    intro p h1 h2
    have := h (p - a) (by omega)
    rw [show a + (p - a) = p by omega] at this
    rw [this]
    have : p - a < bs.length := by omega
    simp [this]
  obtain ⟨cs, e, el, ei⟩ := load_spec m n a hr
  rw [e]
  congr 1
  apply List.ext_getElem?
  intro i
  by_cases hi : i < n
  · rw [ei i hi, h i hi]
  · rw [List.getElem?_eq_none (by omega), List.getElem?_eq_none (by omega)]

theorem shows_of {m : Mem} {v : View} {bs : List Byte} (h : Shows m v bs) (hr : Readable m v.addr v.size) :
    bs.length = v.size ∧ ∀ i, i < v.size → bs[i]? = m (v.addr + i) := by
  obtain ⟨x', ex, lx, li⟩ := load_spec m _ _ hr
  have hx : x' = bs := by rw [Shows, ex] at h; exact Option.some.inj h
  subst hx
  exact ⟨lx, li⟩

/-- Writing from a view into another one, which may overlap in any way: the result and the bytes shown afterwards are those of the
function on bytes (C08), and no other byte of memory is changed. -/
theorem C101_write (m : Mem) (v s : View) (x y : List Byte) (hv : Shows m v x) (hs : Shows m s y)
    (hrv : Readable m v.addr v.size) (hrs : Readable m s.addr s.size) :
    ∃ m', write m v s = .ok (m', (MutView.write ⟨decide (v.addr = 0), x⟩ y).2) ∧
      Shows m' v (MutView.write ⟨decide (v.addr = 0), x⟩ y).1.bytes ∧
      ∀ p, ¬ (v.addr ≤ p ∧ p < v.addr + v.size) → m' p = m p := by
  obtain ⟨lx, ix⟩ := shows_of hv hrv
  obtain ⟨ly, iy⟩ := shows_of hs hrs
  unfold write MutView.write
  by_cases h0 : v.addr = 0
  · simp only [h0, decide_true, if_true]
    exact ⟨m, rfl, hv, fun _ _ => rfl⟩
  · simp only [h0, decide_false, if_false, Bool.false_eq_true]
    rw [lx, ly]
    by_cases h1 : s.size > v.size
    · simp only [h1, if_true]
      exact ⟨m, rfl, hv, fun _ _ => rfl⟩
    · simp only [h1, if_false]
      by_cases h2 : s.size > 0
      · simp only [h2, if_true]
        obtain ⟨m', e, _, e1, e2⟩ := memmove_spec m v.addr s.addr s.size (fun p a b => hrv p a (by omega)) hrs
        rw [e]
        refine ⟨m', rfl, ?_, fun p hp => e2 p (by omega)⟩
        apply load_ext
        · simp only [List.length_append, List.length_drop]; omega
        · intro i hi
          by_cases hi2 : i < s.size
          · rw [e1 i hi2, List.getElem?_append_left (by omega), iy i hi2]
          · rw [e2 _ (by omega), List.getElem?_append_right (by omega), List.getElem?_drop, ← ix i hi]
            congr 1
            omega
      · simp only [h2, if_false]
        have hy0 : y = [] := List.eq_nil_of_length_eq_zero (by omega)
        refine ⟨m, rfl, ?_, fun _ _ => rfl⟩
        have h3 : s.size = 0 := by omega
        rw [hy0, h3]
        exact hv

/-- Reading into a view, likewise. -/
theorem C101_read (m : Mem) (v d : View) (x y : List Byte) (hv : Shows m v x) (hd : Shows m d y)
    (hrv : Readable m v.addr v.size) (hrd : Readable m d.addr d.size) :
    ∃ m', read m v d = .ok (m', (MutView.read ⟨decide (v.addr = 0), x⟩ ⟨decide (d.addr = 0), y⟩).2) ∧
      Shows m' d (MutView.read ⟨decide (v.addr = 0), x⟩ ⟨decide (d.addr = 0), y⟩).1.bytes ∧
      ∀ p, ¬ (d.addr ≤ p ∧ p < d.addr + d.size) → m' p = m p := by
  obtain ⟨lx, ix⟩ := shows_of hv hrv
  obtain ⟨ly, iy⟩ := shows_of hd hrd
  unfold read MutView.read
  rw [lx, ly]
  by_cases h1 : v.size < d.size
  · simp only [h1, if_true]
    exact ⟨m, rfl, hd, fun _ _ => rfl⟩
  · simp only [h1, if_false]
    obtain ⟨m', e, _, e1, e2⟩ := memmove_spec m d.addr v.addr d.size hrd (fun p a b => hrv p a (by omega))
    rw [e]
    refine ⟨m', rfl, ?_, e2⟩
    apply load_ext
    · simp only [List.length_take]; omega
    · intro i hi
      rw [e1 i hi, List.getElem?_take_of_lt hi, ix i (by omega)]

/-- Filling, likewise. -/
theorem C101_fill (m : Mem) (v : View) (x : List Byte) (b : Byte) (hv : Shows m v x) (hrv : Readable m v.addr v.size) :
    ∃ m', fill m v b = .ok m' ∧ Shows m' v (MutView.fill ⟨decide (v.addr = 0), x⟩ b).bytes ∧
      ∀ p, ¬ (v.addr ≤ p ∧ p < v.addr + v.size) → m' p = m p := by
  obtain ⟨lx, ix⟩ := shows_of hv hrv
  obtain ⟨m', e, _, e1, e2⟩ := memset_spec m v.addr v.size b hrv
  refine ⟨m', e, ?_, e2⟩
  apply load_ext
  · simp [MutView.fill, lx]
  · intro i hi
    rw [e1 i hi]
    simp [MutView.fill, lx, hi]

/-! ### Programs -/

/-- The invariant: every variable is in an allowed range of its type. -/
def Inv (A : Bool → Nat → Nat → Prop) (w : World) : Prop := ∀ x ∈ w.vars, InOneOf (A x.mutable) x.view

def types (w : World) : List Bool := w.vars.map (·.mutable)

theorem get_some {w : World} {k : Bool} {v : Nat} {x : View} (h : w.get k v = some x) :
    ∃ y, w.vars[v]? = some y ∧ y.view = x ∧ (k = true → y.mutable = true) := by
  unfold World.get at h
  cases hy : w.vars[v]? with
  | none => rw [hy] at h; cases h
  | some y =>
    rw [hy] at h
    simp only at h
    split at h
    · cases h
    · rename_i hk
      refine ⟨y, rfl, Option.some.inj h, ?_⟩
      intro e
      subst e
      simpa using hk

theorem get_isSome (w : World) (k : Bool) (v : Nat) : (w.get k v).isSome = usable (types w) k v := by
  unfold World.get usable types
  rw [List.getElem?_map]
  cases w.vars[v]? with
  | none => rfl
  | some y => cases k <;> cases hy : y.mutable <;> simp [hy]

theorem types_put (w : World) (v : Nat) (x : View) : types (w.put v x) = types w := by
  apply List.ext_getElem?
  intro i
  simp only [types, World.put, List.getElem?_map, List.getElem?_modify]
  cases w.vars[i]? <;> simp
  split <;> rfl

theorem types_push (w : World) (k : Bool) (x : View) : types (w.push k x) = types w ++ [k] := by
  simp [types, World.push]

theorem types_swap (w : World) (v u : Nat) : types (w.swap v u) = types w := by
  unfold World.swap
  split
  · rw [types_put, types_put]
  · rfl

theorem mono {A : Bool → Nat → Nat → Prop} (hA : ∀ a n, A true a n → A false a n) {k k' : Bool} {x : View}
    (hk : k' = true → k = true) (h : InOneOf (A k) x) : InOneOf (A k') x := by
  rcases h with h | ⟨a, n, h1, h2⟩
  · exact .inl h
  · refine .inr ⟨a, n, ?_, h2⟩
    cases k' <;> cases k
    · exact h1
    · exact hA a n h1
    · exact absurd (hk rfl) (by simp)
    · exact h1

theorem Inv.get {A : Bool → Nat → Nat → Prop} {w : World} (hw : Inv A w) (hA : ∀ a n, A true a n → A false a n)
    {k : Bool} {v : Nat} {x : View} (h : w.get k v = some x) : InOneOf (A k) x := by
  obtain ⟨y, h1, h2, h3⟩ := get_some h
  have := hw y (List.mem_of_getElem? h1)
  rw [h2] at this
  exact mono hA h3 this

theorem Inv.put {A : Bool → Nat → Nat → Prop} {w : World} (hw : Inv A w) {v : Nat} {x : View}
    (h : ∀ k, (types w)[v]? = some k → InOneOf (A k) x) : Inv A (w.put v x) := by
  intro z hz
  obtain ⟨i, hi⟩ := List.getElem?_of_mem hz
  simp only [World.put, List.getElem?_modify] at hi
  cases hy : w.vars[i]? with
  | none => rw [hy] at hi; simp at hi
  | some y =>
    rw [hy] at hi
    by_cases hv : v = i
    · subst hv
      simp at hi
      rw [← hi]
      exact h y.mutable (by simp [types, hy])
    · simp [hv] at hi
      rw [← hi]
      exact hw y (List.mem_of_getElem? hy)

theorem Inv.push {A : Bool → Nat → Nat → Prop} {w : World} (hw : Inv A w) {k : Bool} {x : View}
    (h : InOneOf (A k) x) : Inv A (w.push k x) := by
  intro z hz
  rcases List.mem_append.mp hz with hz | hz
  · exact hw z hz
  · rw [List.mem_singleton] at hz
    rw [hz]; exact h

theorem inOneOf_null (A : Nat → Nat → Prop) : InOneOf A .null := .inl rfl

theorem types_get {w : World} {k : Bool} {v : Nat} {x : View} (h : w.get k v = some x) :
    ∃ t, (types w)[v]? = some t ∧ (k = true → t = true) := by
  obtain ⟨y, h1, _, h3⟩ := get_some h
  exact ⟨y.mutable, by simp [types, h1], h3⟩

theorem Inv.swap {A : Bool → Nat → Nat → Prop} {w : World} (hw : Inv A w) (hA : ∀ a n, A true a n → A false a n) (v u : Nat)
    (hm : (∀ a n, A false a n → A true a n) ∨ (types w)[v]? = (types w)[u]?) : Inv A (w.swap v u) := by
  unfold World.swap
  split
  · rename_i x y hx hy
    obtain ⟨a, a1, a2, _⟩ := get_some hx
    obtain ⟨b, b1, b2, _⟩ := get_some hy
    have ia := hw a (List.mem_of_getElem? a1)
    have ib := hw b (List.mem_of_getElem? b1)
    rw [a2] at ia
    rw [b2] at ib
    have ta : (types w)[v]? = some a.mutable := by simp [types, a1]
    have tb : (types w)[u]? = some b.mutable := by simp [types, b1]
    have any : ∀ {k k' : Bool} {z : View}, ((∀ a n, A false a n → A true a n) ∨ k = k') → InOneOf (A k) z → InOneOf (A k') z := by
      intro k k' z h hz
      rcases h with h | h
      · rcases hz with hz | ⟨c, n, h1, h2⟩
        · exact .inl hz
        · refine .inr ⟨c, n, ?_, h2⟩
          cases k <;> cases k'
          · exact h1
          · exact h c n h1
          · exact hA c n h1
          · exact h1
      · rw [← h]; exact hz
    rw [ta, tb] at hm
    refine Inv.put (Inv.put hw ?_) ?_
    · intro k hk
      rw [ta] at hk
      refine any ?_ ib
      rcases hm with hm | hm
      · exact .inl hm
      · exact .inr ((Option.some.inj hm).symm.trans (Option.some.inj hk))
    · intro k hk
      rw [types_put, tb] at hk
      refine any ?_ ia
      rcases hm with hm | hm
      · exact .inl hm
      · exact .inr ((Option.some.inj hm).trans (Option.some.inj hk))
  · exact hw

theorem make_ok {a n : Nat} (h : a ≠ 0 ∨ n = 0) : make a n = .ok ⟨a, n⟩ := if_pos h

/-- A slice of a view in an allowed range is in the same range. -/
theorem slice_spec (A : Nat → Nat → Prop) (hn : ∀ a n, A a n → a ≠ 0) (x : View) (hx : InOneOf A x) (f t : Nat) :
    (∃ y, slice x f t = .ok y ∧ InOneOf A y) ∧ ∃ y, sliceMut x f t = .ok y ∧ InOneOf A y := by
  have key : ∀ g e, e ≤ x.size → ∃ y, (make (x.addr + min g x.size) (e - min g x.size)).noexcept = .ok y ∧ InOneOf A y := by
    intro g e he
    rcases hx with h0 | ⟨a, n, h1, h2, h3⟩
    · have : e - min g x.size = 0 := by omega
      rw [this, make_ok (.inr rfl)]
      exact ⟨_, rfl, .inl rfl⟩
    · have := hn a n h1
      rw [make_ok (.inl (by omega))]
      refine ⟨_, rfl, ?_⟩
      by_cases hz : e - min g x.size = 0
      · exact .inl hz
      · exact .inr ⟨a, n, h1, by show a ≤ x.addr + min g x.size; omega,
          by show x.addr + min g x.size + (e - min g x.size) ≤ a + n; omega⟩
  constructor
  · exact key f _ (Nat.min_le_left _ _)
  · unfold sliceMut
    split
    · rw [make_ok (.inr rfl)]
      exact ⟨_, rfl, .inl rfl⟩
    · exact key f _ (Nat.min_le_right _ _)

theorem readable_of {A : Nat → Nat → Prop} {m : Mem} (hr : ∀ a n, A a n → Readable m a n) {x : View} (hx : InOneOf A x) :
    Readable m x.addr x.size := by
  intro p h1 h2
  rcases hx with h | ⟨a, n, ha, h3, h4⟩
  · omega
  · exact hr a n ha p (by omega) (by omega)

/-- One statement: it is defined, keeps the invariant, and writes only to ranges in which mutable views may be. -/
theorem step_inv (A : Bool → Nat → Nat → Prop) (hA : ∀ a n, A true a n → A false a n) (hn : ∀ a n, A false a n → a ≠ 0)
    (w : World) (hw : Inv A w) (op : Op) (hop : ∀ k a n, op = .wrap k a n → a ≠ 0 → A k a n)
    (hr : ∀ a n, A false a n → Readable w.mem a n)
    (hm : (∀ a n, A false a n → A true a n) ∨ mixes (types w) op = false) :
    ∃ w', step w op = .ok w' ∧ Inv A w' ∧ types w' = typesStep (types w) op ∧ (∀ p, (w'.mem p).isSome = (w.mem p).isSome) ∧
      ∀ p, (∀ a n, A true a n → ¬ (a ≤ p ∧ p < a + n)) → w'.mem p = w.mem p := by
  have same : ∀ (w' : World), Inv A w' → types w' = typesStep (types w) op → w'.mem = w.mem →
      step w op = .ok w' → ∃ w', step w op = .ok w' ∧ Inv A w' ∧ types w' = typesStep (types w) op ∧
        (∀ p, (w'.mem p).isSome = (w.mem p).isSome) ∧
        ∀ p, (∀ a n, A true a n → ¬ (a ≤ p ∧ p < a + n)) → w'.mem p = w.mem p :=
    fun w' h1 h2 h3 h4 => ⟨w', h4, h1, h2, fun p => by rw [h3], fun p _ => by rw [h3]⟩
  have memory : ∀ (m' : Mem) (x : View) (n : Nat), InOneOf (A true) x → n ≤ x.size → types w = typesStep (types w) op →
      (∀ p, (m' p).isSome = (w.mem p).isSome) → (∀ p, ¬ (x.addr ≤ p ∧ p < x.addr + n) → m' p = w.mem p) →
      step w op = .ok { w with mem := m' } → ∃ w', step w op = .ok w' ∧ Inv A w' ∧ types w' = typesStep (types w) op ∧
        (∀ p, (w'.mem p).isSome = (w.mem p).isSome) ∧
        ∀ p, (∀ a n, A true a n → ¬ (a ≤ p ∧ p < a + n)) → w'.mem p = w.mem p := by
    intro m' x n hx hle ht h1 h2 h3
    refine ⟨_, h3, hw, ht, h1, ?_⟩
    intro p hp
    apply h2
    rcases hx with h0 | ⟨a, k, ha, h4, h5⟩
    · omega
    · have := hp a k ha
      omega
  have usableOf : ∀ {k : Bool} {v : Nat} {x : View}, w.get k v = some x → usable (types w) k v = true := by
    intro k v x h
    rw [← get_isSome, h]; rfl
  have unusable : ∀ {k : Bool} {v : Nat}, w.get k v = none → usable (types w) k v = false := by
    intro k v h
    rw [← get_isSome, h]; rfl
  cases op with
  | null k => exact same _ (hw.push (inOneOf_null _)) (types_push w k _) rfl rfl
  | wrap k a n =>
    by_cases h : a ≠ 0 ∨ n = 0
    · refine same (w.push k ⟨a, n⟩) (hw.push ?_) ?_ rfl ?_
      · by_cases hz : n = 0
        · exact .inl hz
        · have ha : a ≠ 0 := by rcases h with h | h; exact h; exact absurd h hz
          exact .inr ⟨a, n, hop k a n rfl ha, Nat.le_refl _, Nat.le_refl _⟩
      · rw [types_push]
        simp only [typesStep]
        rw [if_pos h]
      · show (match make a n with | .ok x => Outcome.ok (w.push k x) | _ => .ok w) = _
        rw [make_ok h]
    · refine same w hw ?_ rfl ?_
      · simp only [typesStep]
        rw [if_neg h]
      · show (match make a n with | .ok x => Outcome.ok (w.push k x) | _ => .ok w) = _
        rw [show make a n = .throws from if_neg h]
  | copy k v =>
    cases hg : w.get k v with
    | none =>
      refine same w hw (by simp [typesStep, unusable hg]) rfl ?_
      show (match w.get k v with | some x => Outcome.ok (w.push k x) | none => .ok w) = _
      rw [hg]
    | some x =>
      refine same (w.push k x) (hw.push (hw.get hA hg)) (by simp [typesStep, usableOf hg, types_push]) rfl ?_
      show (match w.get k v with | some x => Outcome.ok (w.push k x) | none => .ok w) = _
      rw [hg]
  | move k v =>
    cases hg : w.get k v with
    | none =>
      refine same w hw (by simp [typesStep, unusable hg]) rfl ?_
      show (match w.get k v with | some x => Outcome.ok ((w.put v .null).push k x) | none => .ok w) = _
      rw [hg]
    | some x =>
      refine same ((w.put v .null).push k x) ((hw.put fun _ _ => inOneOf_null _).push (hw.get hA hg))
        (by simp [typesStep, usableOf hg, types_push, types_put]) rfl ?_
      show (match w.get k v with | some x => Outcome.ok ((w.put v .null).push k x) | none => .ok w) = _
      rw [hg]
  | assign v u =>
    cases hg : w.get (w.isMut v) u with
    | none =>
      refine same w hw rfl rfl ?_
      show (match w.get (w.isMut v) u with | some x => Outcome.ok (w.put v x) | none => .ok w) = _
      rw [hg]
    | some x =>
      refine same (w.put v x) (hw.put ?_) (types_put w v x) rfl ?_
      · intro k hk
        have : w.isMut v = k := by
          unfold World.isMut
          simp only [types, List.getElem?_map] at hk
          rw [hk]; rfl
        rw [← this]
        exact hw.get hA hg
      · show (match w.get (w.isMut v) u with | some x => Outcome.ok (w.put v x) | none => .ok w) = _
        rw [hg]
  | assignMove v u =>
    cases hg : w.get (w.isMut v) u with
    | none =>
      refine same w hw rfl rfl ?_
      show (match w.get (w.isMut v) u with | some _ => Outcome.ok (w.swap v u) | none => .ok w) = _
      rw [hg]
    | some x =>
      refine same (w.swap v u) (hw.swap hA v u ?_) (types_swap w v u) ?_ ?_
      · rcases hm with hm | hm
        · exact .inl hm
        · exact .inr (by simpa [mixes] using hm)
      · unfold World.swap; split <;> rfl
      · show (match w.get (w.isMut v) u with | some _ => Outcome.ok (w.swap v u) | none => .ok w) = _
        rw [hg]
  | swap v u =>
    refine same (w.swap v u) (hw.swap hA v u ?_) (types_swap w v u) ?_ rfl
    · rcases hm with hm | hm
      · exact .inl hm
      · exact .inr (by simpa [mixes] using hm)
    · unfold World.swap; split <;> rfl
  | slice k v f t =>
    have e : step w (.slice k v f t) = (match w.get k v with
        | some x => sliceAs k x f t >>= fun y => pure (w.push k y)
        | none => .ok w) := rfl
    cases hg : w.get k v with
    | none => exact same w hw (by simp [typesStep, unusable hg]) rfl (by rw [e, hg])
    | some x =>
      have hn' : ∀ a n, A k a n → a ≠ 0 := by
        intro a n h
        cases k
        · exact hn a n h
        · exact hn a n (hA a n h)
      obtain ⟨⟨y, ey, hy⟩, z, ez, hz⟩ := slice_spec (A k) hn' x (hw.get hA hg) f t
      cases k with
      | false =>
        refine same (w.push false y) (hw.push hy) (by simp [typesStep, usableOf hg, types_push]) rfl ?_
        rw [e, hg]
        simp only [sliceAs, Bool.false_eq_true, if_false, ey]
        rfl
      | true =>
        refine same (w.push true z) (hw.push hz) (by simp [typesStep, usableOf hg, types_push]) rfl ?_
        rw [e, hg]
        simp only [sliceAs, if_true, ez]
        rfl
  | cast v =>
    have e : step w (.cast v) = (match w.get false v with
        | some x => (match make x.addr x.size with | .ok y => Outcome.ok (w.push true y) | _ => .ok w)
        | none => .ok w) := rfl
    cases hg : w.get false v with
    | none => exact same w hw (by simp [typesStep, unusable hg]) rfl (by rw [e, hg])
    | some x =>
      have hx := hw.get hA hg
      have hmk : x.addr ≠ 0 ∨ x.size = 0 := by
        rcases hx with h | ⟨a, n, h1, h2, _⟩
        · exact .inr h
        · have := hn a n h1
          exact .inl (by omega)
      refine same (w.push true x) (hw.push ?_) (by simp [typesStep, usableOf hg, types_push]) rfl ?_
      · rcases hm with hm | hm
        · rcases hx with h | ⟨a, n, h1, h2⟩
          · exact .inl h
          · exact .inr ⟨a, n, hm a n h1, h2⟩
        · exact absurd hm (by simp [mixes])
      · rw [e, hg]
        simp only [make_ok hmk]
  | write v u =>
    have e : step w (.write v u) = (match w.get true v, w.get false u with
        | some x, some y => ViewObj.write w.mem x y >>= fun r => pure { w with mem := r.1 }
        | _, _ => .ok w) := rfl
    cases hg : w.get true v with
    | none => exact same w hw rfl rfl (by rw [e, hg])
    | some x =>
      cases hg2 : w.get false u with
      | none => exact same w hw rfl rfl (by rw [e, hg, hg2])
      | some y =>
        have hx := hw.get hA hg
        have hy := hw.get hA hg2
        have rx := readable_of hr (mono (k' := false) hA (by simp) hx)
        have ry := readable_of hr hy
        rw [hg, hg2] at e
        by_cases h0 : x.addr = 0
        · exact same w hw rfl rfl (by rw [e]; simp only [ViewObj.write, h0, if_true]; rfl)
        · by_cases h1 : y.size > x.size
          · exact same w hw rfl rfl (by rw [e]; simp only [ViewObj.write, h0, h1, if_true, if_false]; rfl)
          · by_cases h2 : y.size > 0
            · obtain ⟨m', em, e0, _, e2⟩ :=
                memmove_spec w.mem x.addr y.addr y.size (fun p a b => rx p a (by omega)) ry
              refine memory m' x y.size hx (by omega) rfl e0 e2 ?_
              rw [e]
              simp only [ViewObj.write, h0, h1, h2, if_true, if_false, em]
              rfl
            · exact same w hw rfl rfl (by rw [e]; simp only [ViewObj.write, h0, h1, h2, if_false]; rfl)
  | read v u =>
    have e : step w (.read v u) = (match w.get true v, w.get true u with
        | some x, some y => ViewObj.read w.mem x y >>= fun r => pure { w with mem := r.1 }
        | _, _ => .ok w) := rfl
    cases hg : w.get true v with
    | none => exact same w hw rfl rfl (by rw [e, hg])
    | some x =>
      cases hg2 : w.get true u with
      | none => exact same w hw rfl rfl (by rw [e, hg, hg2])
      | some y =>
        have hx := hw.get hA hg
        have hy := hw.get hA hg2
        have rx := readable_of hr (mono (k' := false) hA (by simp) hx)
        have ry := readable_of hr (mono (k' := false) hA (by simp) hy)
        rw [hg, hg2] at e
        by_cases h1 : x.size < y.size
        · exact same w hw rfl rfl (by rw [e]; simp only [ViewObj.read, h1, if_true]; rfl)
        · obtain ⟨m', em, e0, _, e2⟩ :=
            memmove_spec w.mem y.addr x.addr y.size ry (fun p a b => rx p a (by omega))
          refine memory m' y y.size hy (Nat.le_refl _) rfl e0 e2 ?_
          rw [e]
          simp only [ViewObj.read, h1, if_false, em]
          rfl
  | fill v b =>
    have e : step w (.fill v b) = (match w.get true v with
        | some x => ViewObj.fill w.mem x b >>= fun m => pure { w with mem := m }
        | none => .ok w) := rfl
    cases hg : w.get true v with
    | none => exact same w hw rfl rfl (by rw [e, hg])
    | some x =>
      have hx := hw.get hA hg
      have rx := readable_of hr (mono (k' := false) hA (by simp) hx)
      obtain ⟨m', em, e0, _, e2⟩ := memset_spec w.mem x.addr x.size b rx
      refine memory m' x x.size hx (Nat.le_refl _) rfl e0 e2 ?_
      rw [e, hg]
      simp only [ViewObj.fill, em]
      rfl

theorem run_inv (A : Bool → Nat → Nat → Prop) (hA : ∀ a n, A true a n → A false a n) (hn : ∀ a n, A false a n → a ≠ 0) :
    ∀ (ops : List Op) (w : World), Inv A w → (∀ k a n, Op.wrap k a n ∈ ops → a ≠ 0 → A k a n) →
      (∀ a n, A false a n → Readable w.mem a n) →
      ((∀ a n, A false a n → A true a n) ∨ NoMix (types w) ops) →
      ∃ w', run w ops = .ok w' ∧ Inv A w' ∧ (∀ p, (w'.mem p).isSome = (w.mem p).isSome) ∧
        ∀ p, (∀ a n, A true a n → ¬ (a ≤ p ∧ p < a + n)) → w'.mem p = w.mem p
  | [], w, hw, _, _, _ => ⟨w, rfl, hw, fun _ => rfl, fun _ _ => rfl⟩
  | op :: ops, w, hw, hop, hr, hm => by
    obtain ⟨w1, e1, i1, t1, d1, u1⟩ := step_inv A hA hn w hw op
      (fun k a n e => hop k a n (by rw [e]; exact List.mem_cons_self)) hr (hm.imp id (·.1))
    obtain ⟨w2, e2, i2, d2, u2⟩ := run_inv A hA hn ops w1 i1 (fun k a n h => hop k a n (List.mem_cons_of_mem _ h))
      (fun a n h p h1 h2 => by rw [d1]; exact hr a n h p h1 h2) (hm.imp id (by rw [t1]; exact (·.2)))
    refine ⟨w2, ?_, i2, fun p => by rw [d2, d1], fun p hp => by rw [u2 p hp, u1 p hp]⟩
    show step w op >>= (fun w' => run w' ops) = _
    rw [e1]
    exact e2

/-- Every program on views whose constructors are given memory is defined, and every view in it (copied, moved, assigned, exchanged,
sliced, cast) has no bytes or lies within one range that was given to a constructor. Memory outside these ranges is never
changed. -/
theorem C101_inside (m : Mem) (ops : List Op) (hr : ∀ a n, Given ops a n → Readable m a n) :
    ∃ w, run ⟨m, []⟩ ops = .ok w ∧ (∀ x ∈ w.vars, InOneOf (Given ops) x.view) ∧
      ∀ p, (∀ a n, Given ops a n → ¬ (a ≤ p ∧ p < a + n)) → w.mem p = m p := by
  obtain ⟨w, e, i, _, u⟩ := run_inv (fun _ => Given ops) (fun _ _ h => h) (fun _ _ h => h.1) ops ⟨m, []⟩
    (fun x hx => absurd hx List.not_mem_nil) (fun k a n h h0 => ⟨h0, k, h⟩) hr (.inl fun _ _ h => h)
  exact ⟨w, e, i, u⟩

/-- Partial: in a program without a cast and without exchanges between constant and mutable views, memory that was not given
as mutable is never changed, and every mutable view lies within a range that was given as mutable. -/
theorem C101_constant_partial (m : Mem) (ops : List Op) (hr : ∀ a n, Given ops a n → Readable m a n) (hm : NoMix [] ops) :
    ∃ w, run ⟨m, []⟩ ops = .ok w ∧ (∀ x ∈ w.vars, x.mutable = true → InOneOf (GivenMutable ops) x.view) ∧
      ∀ p, (∀ a n, GivenMutable ops a n → ¬ (a ≤ p ∧ p < a + n)) → w.mem p = m p := by
  obtain ⟨w, e, i, _, u⟩ := run_inv (fun k => if k then GivenMutable ops else Given ops)
    (fun a n h => by
      simp only [if_true] at h
      exact ⟨h.1, true, h.2⟩)
    (fun a n h => by
      simp only [Bool.false_eq_true, if_false] at h
      exact h.1) ops ⟨m, []⟩
    (fun x hx => absurd hx List.not_mem_nil)
    (fun k a n h h0 => by
      cases k
      · exact ⟨h0, false, h⟩
      · exact ⟨h0, h⟩)
    (fun a n h => hr a n (by simpa using h)) (.inr hm)
  refine ⟨w, e, ?_, ?_⟩
  · intro x hx hk
    have := i x hx
    rw [hk] at this
    exact this
  · intro p hp
    exact u p (fun a n h => hp a n (by simpa using h))

/-- The property fails with an exchange: a constant view is assigned from a moved mutable one (or swapped with it), which compiles, and
afterwards the mutable variable writes to the constant memory. For all ranges and bytes. -/
theorem C101_constant_written (m : Mem) (a n b k : Nat) (ha : a ≠ 0) (hb : b ≠ 0) (h : Readable m a n) (value : Byte)
    (op : Op) (hop : op = .assignMove 0 1 ∨ op = .swap 0 1 ∨ op = .swap 1 0) :
    ∃ w, run ⟨m, []⟩ [.wrap false a n, .wrap true b k, op, .fill 1 value] = .ok w ∧
      ∀ i, i < n → w.mem (a + i) = some value := by
  obtain ⟨m', em, _, e1, _⟩ := memset_spec m a n value h
  have hw : ∀ w2 : World, w2 = ⟨m, [⟨false, ⟨b, k⟩⟩, ⟨true, ⟨a, n⟩⟩]⟩ → run w2 [.fill 1 value] = .ok { w2 with mem := m' } := by
    intro w2 hw2
    subst hw2
    show (memset m a value n >>= fun m2 => pure (World.mk m2 _)) >>= _ = _
    rw [em]
    rfl
  have s1 : step ⟨m, []⟩ (.wrap false a n) = .ok ⟨m, [⟨false, ⟨a, n⟩⟩]⟩ := by
    show (match make a n with | .ok x => Outcome.ok (World.push ⟨m, []⟩ false x) | _ => .ok _) = _
    rw [make_ok (.inl ha)]
    rfl
  have s2 : step ⟨m, [⟨false, ⟨a, n⟩⟩]⟩ (.wrap true b k) = .ok ⟨m, [⟨false, ⟨a, n⟩⟩, ⟨true, ⟨b, k⟩⟩]⟩ := by
    show (match make b k with | .ok x => Outcome.ok (World.push ⟨m, [⟨false, ⟨a, n⟩⟩]⟩ true x) | _ => .ok _) = _
    rw [make_ok (.inl hb)]
    rfl
  have s3 : step ⟨m, [⟨false, ⟨a, n⟩⟩, ⟨true, ⟨b, k⟩⟩]⟩ op = .ok ⟨m, [⟨false, ⟨b, k⟩⟩, ⟨true, ⟨a, n⟩⟩]⟩ := by
    rcases hop with h | h | h <;> subst h <;> rfl
  refine ⟨{ mem := m', vars := [⟨false, ⟨b, k⟩⟩, ⟨true, ⟨a, n⟩⟩] }, ?_, e1⟩
  show step _ _ >>= (fun w' => step w' _ >>= fun w' => step w' _ >>= fun w' => run w' _) = _
  rw [s1]
  show step _ _ >>= (fun w' => step w' _ >>= fun w' => run w' _) = _
  rw [s2]
  show step _ _ >>= (fun w' => run w' _) = _
  rw [s3]
  exact hw _ rfl

/-! ### Moving and exchanging -/

def views (w : World) : List View := w.vars.map (·.view)

/-- Statements that only move or exchange views. -/
def movesOnly : Op → Bool
  | .move _ _ => true
  | .assignMove _ _ => true
  | .swap _ _ => true
  | _ => false

theorem views_put (w : World) (v : Nat) (x : View) : views (w.put v x) = (views w).set v x := by
  apply List.ext_getElem?
  intro i
  simp only [views, World.put, List.getElem?_map, List.getElem?_modify, List.getElem?_set, List.length_map]
  by_cases e : v = i
  · subst e
    by_cases h : v < w.vars.length
    · simp [h]
    · simp [h]
  · simp [e]

theorem views_get {w : World} {k : Bool} {v : Nat} {x : View} (h : w.get k v = some x) : (views w)[v]? = some x := by
  obtain ⟨y, h1, h2, _⟩ := get_some h
  simp [views, h1, h2]

theorem count_set_eq (l : List View) (i : Nat) (x y z : View) (h : l[i]? = some x) :
    (l.set i y).count z + (if x = z then 1 else 0) = l.count z + (if y = z then 1 else 0) := by
  induction l generalizing i with
  | nil => simp at h
  | cons a l ih =>
    cases i with
    | zero =>
      simp at h
      subst h
      simp only [List.set_cons_zero, List.count_cons, beq_iff_eq]
      omega
    | succ i =>
      have := ih i (by simpa using h)
      simp only [List.set_cons_succ, List.count_cons]
      omega

/-- Moving and exchanging neither loses nor duplicates: every view other than the null view is in as many variables after the
program as before. -/
theorem C101_moves (ops : List Op) (h : ∀ op ∈ ops, movesOnly op = true) (w : World) :
    ∃ w', run w ops = .ok w' ∧ w'.mem = w.mem ∧ ∀ z, z ≠ View.null → (views w').count z = (views w).count z := by
  have swapped : ∀ (w : World) v u z, (views (w.swap v u)).count z = (views w).count z := by
    intro w v u z
    unfold World.swap
    split
    · rename_i x y hx hy
      have hx' := views_get hx
      have hy' := views_get hy
      rw [views_put, views_put]
      by_cases e : v = u
      · subst e
        rw [hx'] at hy'
        have : x = y := Option.some.inj hy'
        subst this
        have h1 := count_set_eq (views w) v x x z hx'
        have hlt : v < (views w).length := (List.getElem?_eq_some_iff.mp hx').1
        have h2 := count_set_eq ((views w).set v x) v x x z (by simp [hlt])
        omega
      · have h1 := count_set_eq (views w) v x y z hx'
        have h2 := count_set_eq ((views w).set v y) u y x z (by rw [List.getElem?_set_ne e]; exact hy')
        omega
    · rfl
  have memSwap : ∀ (w : World) v u, (w.swap v u).mem = w.mem := by
    intro w v u
    unfold World.swap; split <;> rfl
  have one : ∀ (w : World) (op : Op), movesOnly op = true →
      ∃ w', step w op = .ok w' ∧ w'.mem = w.mem ∧ ∀ z, z ≠ View.null → (views w').count z = (views w).count z := by
    intro w op hop
    cases op with
    | move k v =>
      have e : step w (.move k v) = (match w.get k v with | some x => Outcome.ok ((w.put v .null).push k x) | none => .ok w) := rfl
      cases hg : w.get k v with
      | none => exact ⟨w, by rw [e, hg], rfl, fun _ _ => rfl⟩
      | some x =>
        refine ⟨(w.put v .null).push k x, by rw [e, hg], rfl, ?_⟩
        intro z hz
        have h1 := count_set_eq (views w) v x .null z (views_get hg)
        have h2 : views ((w.put v .null).push k x) = (views w).set v .null ++ [x] := by
          rw [← views_put]
          simp [views, World.push]
        rw [h2, List.count_append]
        simp only [List.count_cons, List.count_nil, beq_iff_eq]
        rw [if_neg (show ¬ View.null = z from fun h => hz h.symm)] at h1
        omega
    | assignMove v u =>
      have e : step w (.assignMove v u) = (match w.get (w.isMut v) u with | some _ => Outcome.ok (w.swap v u) | none => .ok w) := rfl
      cases hg : w.get (w.isMut v) u with
      | none => exact ⟨w, by rw [e, hg], rfl, fun _ _ => rfl⟩
      | some x => exact ⟨w.swap v u, by rw [e, hg], memSwap w v u, fun z _ => swapped w v u z⟩
    | swap v u => exact ⟨w.swap v u, rfl, memSwap w v u, fun z _ => swapped w v u z⟩
    | _ => simp [movesOnly] at hop
  induction ops generalizing w with
  | nil => exact ⟨w, rfl, rfl, fun _ _ => rfl⟩
  | cons op ops ih =>
    obtain ⟨w1, e1, m1, c1⟩ := one w op (h op List.mem_cons_self)
    obtain ⟨w2, e2, m2, c2⟩ := ih (fun o ho => h o (List.mem_cons_of_mem _ ho)) w1
    refine ⟨w2, ?_, m2.trans m1, fun z hz => (c2 z hz).trans (c1 z hz)⟩
    show step w op >>= (fun w' => run w' ops) = _
    rw [e1]
    exact e2

/-- A view that was moved from is null and has no bytes. -/
theorem C101_moved_from (w : World) (k : Bool) (v : Nat) (x : View) (h : w.get k v = some x) :
    ∃ w', step w (.move k v) = .ok w' ∧ w'.get false v = some ⟨0, 0⟩ ∧ w'.get k w.vars.length = some x := by
  refine ⟨(w.put v .null).push k x, ?_, ?_, ?_⟩
  · show (match w.get k v with | some x => Outcome.ok ((w.put v .null).push k x) | none => .ok w) = _
    rw [h]
  · obtain ⟨y, h1, _, _⟩ := get_some h
    have hlt : v < w.vars.length := (List.getElem?_eq_some_iff.mp h1).1
    simp [World.get, World.push, World.put, List.getElem?_append_left, hlt, View.null]
  · cases k <;> simp [World.get, World.push, World.put]

/-! ### Examples -/

/-- Ten bytes of memory at address 100. -/
def exampleMem : Mem := fun p => if 100 ≤ p ∧ p < 110 then some (BitVec.ofNat 8 p) else none

example : Readable exampleMem 100 10 := by
  intro p h1 h2
  simp only [exampleMem]
  rw [if_pos (by omega)]
  rfl

/-- Overlapping views: bytes 100..104 are written to 102..106. -/
example : load (match write exampleMem ⟨102, 8⟩ ⟨100, 5⟩ with | .ok (m, _) => m | _ => exampleMem) 100 10 =
    some [100#8, 101#8, 100#8, 101#8, 102#8, 103#8, 104#8, 107#8, 108#8, 109#8] := by decide +kernel

example : NoMix [] [.wrap true 100 10, .slice true 0 2 5, .move true 1, .swap 0 2, .wrap false 104 2, .copy false 0, .fill 2 7#8] :=
  ⟨rfl, rfl, rfl, rfl, rfl, rfl, rfl, trivial⟩

example : NoMix [] [.wrap false 100 10, .wrap true 104 2, .assignMove 0 1] → False :=
  fun h => absurd h.2.2.1 (by decide)

example : ∀ op ∈ [Op.move true 0, .swap 0 1, .assignMove 1 0], movesOnly op = true := by decide

end Solace.ViewObj
