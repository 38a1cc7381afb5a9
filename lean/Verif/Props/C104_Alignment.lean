import Verif.Model.Alignment
import Verif.Props.C44_Vector
/-
C104: objects are made and used only at aligned addresses.
-/
namespace Solace.Align
open Solace.Vec (slice_inside arena_eq)

theorem Ty.Valid.pos {t : Ty} (h : t.Valid) : 0 < t.align := by
  obtain ⟨⟨k, -, e⟩, -⟩ := h
  rw [e]
  exact Nat.two_pow_pos k

theorem refTo_ok {t : Ty} {a : Nat} (h : t.align ∣ a) : refTo t a = .ok a := by
  rw [refTo, if_pos (Nat.mod_eq_zero_of_dvd h)]

theorem refTo_ub {t : Ty} {a : Nat} (h : ¬ t.align ∣ a) : refTo t a = .ub := by
  rw [refTo, if_neg fun e => h (Nat.dvd_of_mod_eq_zero e)]

/-- Products with the size stay multiples of the alignment, also when they wrap. -/
theorem Ty.Valid.dvd_wrap {t : Ty} (h : t.Valid) {n : Nat} (hn : t.align ∣ n) : t.align ∣ wrap64 n := by
  obtain ⟨⟨k, hk, e⟩, -⟩ := h
  have h64 : t.align ∣ 2 ^ 64 := by rw [e]; exact Nat.pow_dvd_pow 2 hk
  rw [wrap64_def]
  exact (Nat.dvd_mod_iff h64).2 hn

theorem Ty.Valid.dvd_mul {t : Ty} (h : t.Valid) (n : Nat) : t.align ∣ n * t.size := Nat.dvd_trans h.2.1 (Nat.dvd_mul_left _ _)

/-- A view the code can have: it ends within the address space. -/
def View.Machine (v : View) : Prop := v.addr + v.size < 2 ^ 64

/-- An array view over aligned memory. Empty views may begin anywhere. -/
def View.Good (t : Ty) (v : View) : Prop := v.Machine ∧ (v.size = 0 ∨ t.align ∣ v.addr)

/-! ### Array views -/

theorem count_mul {t : Ty} (ht : t.Valid) {v : View} {i : Nat} (hi : i < v.count t) : i * t.size + t.size ≤ v.size := by
  have h1 : (i + 1) * t.size ≤ v.size / t.size * t.size := Nat.mul_le_mul_right _ hi
  have h2 : v.size / t.size * t.size ≤ v.size := Nat.div_mul_le_self _ _
  have h3 : (i + 1) * t.size = i * t.size + t.size := Nat.succ_mul _ _
  have := ht.2.2
  omega

theorem index_ok {t : Ty} (ht : t.Valid) {v : View} (hv : v.Good t) {i : Nat} (hi : i < v.count t) :
    v.index t i = .ok (v.addr + i * t.size) := by
  have h1 := count_mul ht hi
  have hm : v.addr + v.size < 2 ^ 64 := hv.1
  have hs := ht.2.2
  rw [View.index, if_pos hi, View.dataAsAt, Nat.mul_comm, wrap64_of_lt (n := i * t.size) (by omega),
    wrap64_of_lt (n := i * t.size + t.size) (by omega), if_pos h1]
  refine refTo_ok (Nat.dvd_add ?_ (ht.dvd_mul i))
  rcases hv.2 with h0 | h
  · omega
  · exact h

theorem index_out {t : Ty} {v : View} {i : Nat} (hi : ¬ i < v.count t) : v.index t i = .throws := by
  rw [View.index, if_neg hi]

theorem sliceFor_eq {t : Ty} (ht : t.Valid) {v : View} (hm : v.Machine) {i : Nat} (hi : i < v.count t) :
    v.sliceFor t i = ⟨v.addr + i * t.size, t.size⟩ := by
  have h1 := count_mul ht hi
  have h3 : (i + 1) * t.size = i * t.size + t.size := Nat.succ_mul _ _
  have hm' : v.addr + v.size < 2 ^ 64 := hm
  simp only [View.sliceFor, View.sliceMut]
  rw [arena_eq ht.2.2 (by omega) (by omega)]

theorem emplace_ok {t : Ty} (ht : t.Valid) {v : View} (hv : v.Good t) {i : Nat} (hi : i < v.count t) :
    v.emplace t i = .ok (v.addr + i * t.size) := by
  have h1 := count_mul ht hi
  have hs := ht.2.2
  have hd : t.align ∣ v.addr + i * t.size := by
    refine Nat.dvd_add ?_ (ht.dvd_mul i)
    rcases hv.2 with h0 | h
    · omega
    · exact h
  rw [View.emplace, if_pos hi, sliceFor_eq ht hv.1 hi]
  simp only [View.dataAs, View.construct, if_pos (Nat.le_refl _), refTo_ok hd, Outcome.bind_ok]

theorem walkFrom_ok {t : Ty} (ht : t.Valid) (n : Nat) : ∀ a, t.align ∣ a →
    View.walkFrom t a n = .ok ((List.range n).map fun i => a + i * t.size) := by
  induction n with
  | zero => intro a _; rfl
  | succ n ih =>
    intro a ha
    rw [View.walkFrom, refTo_ok ha, Outcome.bind_ok, ih (a + t.size) (Nat.dvd_add ha ht.2.1), Outcome.bind_ok,
      Outcome.pure_def, List.range_succ_eq_map, List.map_cons, List.map_map]
    refine congrArg Outcome.ok (congr (congrArg _ (by omega)) (List.map_congr_left fun i _ => ?_))
    show a + t.size + i * t.size = a + (i + 1) * t.size
    rw [Nat.succ_mul]
    omega

theorem walk_ok {t : Ty} (ht : t.Valid) {v : View} (hv : v.Good t) :
    v.walk t = .ok ((List.range (v.count t)).map fun i => v.addr + i * t.size) := by
  rw [View.walk]
  by_cases h0 : v.size = 0
  · rw [if_pos h0, View.count, h0, Nat.zero_div]
    rfl
  · rw [if_neg h0]
    rcases hv.2 with h | h
    · exact absurd h h0
    · exact walkFrom_ok ht _ _ h

theorem slice_good {t : Ty} (ht : t.Valid) (mutable : Bool) {v : View} (hv : v.Good t) (f g : Nat) :
    (v.sliceArray t mutable f g).Good t := by
  have hm : v.addr + v.size < 2 ^ 64 := hv.1
  have hf : t.align ∣ wrap64 (f * t.size) := ht.dvd_wrap (ht.dvd_mul f)
  rw [View.sliceArray]
  generalize wrap64 (f * t.size) = x at hf ⊢
  generalize wrap64 (g * t.size) = y
  cases mutable with
  | true =>
    rw [if_pos rfl]
    simp only [View.sliceMut, MutableMemoryView.slice]
    by_cases hxy : x = y
    · rw [if_pos hxy]
      exact ⟨by show v.addr + 0 + 0 < 2 ^ 64; omega, Or.inl rfl⟩
    · rw [if_neg hxy]
      refine ⟨by show v.addr + min x v.size + (min (max y (min x v.size)) v.size - min x v.size) < 2 ^ 64; omega, ?_⟩
      by_cases hx : x < v.size
      · refine Or.inr ?_
        show t.align ∣ v.addr + min x v.size
        rw [Nat.min_eq_left (Nat.le_of_lt hx)]
        rcases hv.2 with h | h
        · omega
        · exact Nat.dvd_add h hf
      · refine Or.inl ?_
        show min (max y (min x v.size)) v.size - min x v.size = 0
        omega
  | false =>
    rw [if_neg (by decide)]
    simp only [View.slice]
    refine ⟨by show v.addr + min x v.size + (min v.size (max y (min x v.size)) - min x v.size) < 2 ^ 64; omega, ?_⟩
    by_cases hx : x < v.size
    · refine Or.inr ?_
      show t.align ∣ v.addr + min x v.size
      rw [Nat.min_eq_left (Nat.le_of_lt hx)]
      rcases hv.2 with h | h
      · omega
      · exact Nat.dvd_add h hf
    · refine Or.inl ?_
      show min v.size (max y (min x v.size)) - min x v.size = 0
      omega

/-- The elements of an array view over aligned memory, as the property has them: element `i` lies `i` sizes after the
beginning, inside the memory, at a multiple of the alignment. -/
def Placed (t : Ty) (v : View) (a : Nat) : Prop :=
  t.align ∣ a ∧ v.addr ≤ a ∧ a + t.size ≤ v.addr + v.size ∧ t.size ∣ a - v.addr

theorem placed {t : Ty} (ht : t.Valid) {v : View} (hv : v.Good t) {i : Nat} (hi : i < v.count t) :
    Placed t v (v.addr + i * t.size) := by
  have h1 := count_mul ht hi
  have hs := ht.2.2
  refine ⟨Nat.dvd_add ?_ (ht.dvd_mul i), by omega, by omega, ?_⟩
  · rcases hv.2 with h | h
    · omega
    · exact h
  · rw [Nat.add_sub_cancel_left]
    exact Nat.dvd_mul_left _ _

/-- The views that slicing leads to, with arguments of any size (also those whose product with the size of an element does
not fit). -/
inductive Sliced (t : Ty) (v : View) : View → Prop where
  | self : Sliced t v v
  | slice (mutable : Bool) (f g : Nat) {w : View} : Sliced t v w → Sliced t v (w.sliceArray t mutable f g)

/-- **C104**, array views: if the memory is aligned, then indexing, `emplace` and loops over every array view obtained by
slicing (with any arguments) have only aligned objects inside the view, one size apart. -/
theorem C104_views {t : Ty} (ht : t.Valid) {v : View} (hv : v.Good t) {w : View} (hw : Sliced t v w) :
    (∀ i, if i < w.count t then ∃ a, w.index t i = .ok a ∧ w.emplace t i = .ok a ∧ Placed t w a
      else w.index t i = .throws ∧ w.emplace t i = .throws) ∧
    ∃ as, w.walk t = .ok as ∧ ∀ a ∈ as, Placed t w a := by
  have hg : w.Good t := by
    induction hw with
    | self => exact hv
    | slice m f g _ ih => exact slice_good ht m ih f g
  constructor
  · intro i
    by_cases hi : i < w.count t
    · rw [if_pos hi]
      exact ⟨_, index_ok ht hg hi, emplace_ok ht hg hi, placed ht hg hi⟩
    · rw [if_neg hi]
      exact ⟨index_out hi, by rw [View.emplace, if_neg hi]⟩
  · refine ⟨_, walk_ok ht hg, fun a ha => ?_⟩
    rw [List.mem_map] at ha
    obtain ⟨i, hi, rfl⟩ := ha
    exact placed ht hg (List.mem_range.1 hi)

example : (⟨8, 4⟩ : Ty).Valid ∧ (⟨4096, 35⟩ : View).Good ⟨8, 4⟩ ∧
    (View.sliceArray ⟨8, 4⟩ true ⟨4096, 35⟩ 1 3).index ⟨8, 4⟩ 1 = .ok 4112 :=
  ⟨⟨⟨2, by decide, rfl⟩, by decide, by decide⟩, ⟨by show 4096 + 35 < 2 ^ 64; decide, Or.inr (by decide)⟩, by
    simp only [View.sliceArray, View.sliceMut, View.index, View.count, View.dataAsAt]
    rw [wrap64_of_lt (n := 1 * 8) (by decide), wrap64_of_lt (n := 3 * 8) (by decide), wrap64_of_lt (n := 1 * 8 + 8) (by decide)]
    decide⟩

/-! ### Vectors -/

/-- The vector has not more elements than fit. -/
def Vect.Ok (t : Ty) (v : Vect) : Prop := v.buf.Machine ∧ t.align ∣ v.buf.addr ∧ v.next ≤ v.buf.size / t.size

theorem view_good {t : Ty} (ht : t.Valid) {v : Vect} (h : v.Ok t) :
    (v.view t).Good t ∧ (v.view t).addr = v.buf.addr ∧ (v.view t).size = v.next * t.size ∧ (v.view t).count t = v.next ∧
      v.next * t.size ≤ v.buf.size := by
  obtain ⟨hm, ha, hn⟩ := h
  have hm' : v.buf.addr + v.buf.size < 2 ^ 64 := hm
  have h1 : v.next * t.size ≤ v.buf.size / t.size * t.size := Nat.mul_le_mul_right _ hn
  have h2 : v.buf.size / t.size * t.size ≤ v.buf.size := Nat.div_mul_le_self _ _
  have hs := ht.2.2
  have e : v.view t = ⟨v.buf.addr, v.next * t.size⟩ := by
    simp only [Vect.view, View.sliceMut]
    rw [Nat.mul_comm, wrap64_of_lt (by omega)]
    by_cases h0 : v.next = 0
    · rw [h0, Nat.zero_mul, MutableMemoryView.slice, if_pos rfl]
      rfl
    · have : 0 < v.next * t.size := Nat.mul_pos (by omega) hs
      rw [slice_inside this (by omega)]
      rfl
  rw [e]
  refine ⟨⟨?_, Or.inr ha⟩, rfl, rfl, ?_, by omega⟩
  · show v.buf.addr + v.next * t.size < 2 ^ 64
    omega
  · show v.next * t.size / t.size = v.next
    exact Nat.mul_div_cancel _ hs

theorem placed_buf {t : Ty} (ht : t.Valid) {v : Vect} (h : v.Ok t) {i : Nat} (hi : i < v.buf.size / t.size) :
    Placed t v.buf (v.buf.addr + i * t.size) := placed ht ⟨h.1, Or.inr h.2.1⟩ hi

theorem emplaceBack_aligned {t : Ty} (ht : t.Valid) {v : Vect} (h : v.Ok t) :
    v.emplaceBack t = if v.next < v.buf.size / t.size then
      ({ v with next := v.next + 1 }, .ok (some (v.buf.addr + v.next * t.size))) else (v, .ok none) := by
  rw [Vect.emplaceBack]
  by_cases hi : v.next < v.buf.size / t.size
  · rw [if_neg (by omega), if_pos hi, sliceFor_eq ht h.1 hi]
    have hs := ht.2.2
    have hc := count_mul ht (v := v.buf) hi
    have hm' : v.buf.addr + v.buf.size < 2 ^ 64 := h.1
    have hle : v.next ≤ v.next * t.size := Nat.le_mul_of_pos_right _ hs
    simp only [View.construct, View.dataAs, if_pos (Nat.le_refl _), if_neg (show ¬ t.size = 0 by omega),
      refTo_ok (Nat.dvd_add h.2.1 (ht.dvd_mul v.next))]
    rw [wrap64_of_lt (by omega)]
  · rw [if_pos (by omega), if_neg hi]

theorem popBack_aligned {t : Ty} (ht : t.Valid) {v : Vect} (h : v.Ok t) :
    v.popBack t = if v.next = 0 then (v, .ok none)
      else ({ v with next := v.next - 1 }, .ok (some (v.buf.addr + (v.next - 1) * t.size))) := by
  rw [Vect.popBack]
  by_cases h0 : v.next = 0
  · rw [if_pos (by omega), if_pos h0]
  · have hn := h.2.2
    have hm' : v.buf.addr + v.buf.size < 2 ^ 64 := h.1
    have hle : v.buf.size / t.size ≤ v.buf.size := Nat.div_le_self _ _
    rw [if_neg (by omega), if_neg h0, sub64_of_le (by omega)]
    · simp only
      rw [sliceFor_eq ht h.1 (show v.next - 1 < v.buf.size / t.size by omega)]
      simp only [View.dataAs, if_pos (Nat.le_refl _), refTo_ok (Nat.dvd_add h.2.1 (ht.dvd_mul (v.next - 1))),
        Outcome.noexcept]
    · omega

/-- One call on a vector over aligned memory. -/
theorem step_aligned {t : Ty} (ht : t.Valid) {v : Vect} (h : v.Ok t) (op : Vect.Op) :
    ∃ v' r, v.step t op = (v', r) ∧ v'.Ok t ∧ v'.buf = v.buf ∧
      (r = .throws ∨ ∃ as, r = .ok as ∧ ∀ a ∈ as, Placed t v.buf a) := by
  obtain ⟨hg, hva, hvs, hvc, hle⟩ := view_good ht h
  have hshow : ∀ i, i < v.next → Placed t v.buf (v.buf.addr + i * t.size) := fun i hi =>
    placed_buf ht h (Nat.lt_of_lt_of_le hi h.2.2)
  cases op with
  | emplaceBack =>
    show ∃ v' r, ((v.emplaceBack t).1, (v.emplaceBack t).2 >>= fun a => pure a.toList) = (v', r) ∧ _
    rw [emplaceBack_aligned ht h]
    by_cases hi : v.next < v.buf.size / t.size
    · rw [if_pos hi]
      refine ⟨_, _, rfl, ⟨h.1, h.2.1, hi⟩, rfl, Or.inr ⟨_, rfl, ?_⟩⟩
      intro a ha
      rw [Option.toList_some, List.mem_singleton] at ha
      rw [ha]
      exact placed_buf ht h hi
    · rw [if_neg hi]
      exact ⟨_, _, rfl, h, rfl, Or.inr ⟨_, rfl, fun a ha => by simp at ha⟩⟩
  | popBack =>
    show ∃ v' r, ((v.popBack t).1, (v.popBack t).2 >>= fun a => pure a.toList) = (v', r) ∧ _
    rw [popBack_aligned ht h]
    by_cases h0 : v.next = 0
    · rw [if_pos h0]
      exact ⟨_, _, rfl, h, rfl, Or.inr ⟨_, rfl, fun a ha => by simp at ha⟩⟩
    · rw [if_neg h0]
      refine ⟨_, _, rfl, ⟨h.1, h.2.1, Nat.le_trans (Nat.sub_le _ _) h.2.2⟩, rfl, Or.inr ⟨_, rfl, ?_⟩⟩
      intro a ha
      rw [Option.toList_some, List.mem_singleton] at ha
      rw [ha]
      exact hshow _ (by omega)
  | index i =>
    show ∃ v' r, (v, (v.view t).index t i >>= fun a => pure [a]) = (v', r) ∧ _
    by_cases hi : i < v.next
    · rw [index_ok ht hg (by rw [hvc]; exact hi), hva]
      refine ⟨_, _, rfl, h, rfl, Or.inr ⟨_, rfl, ?_⟩⟩
      intro a ha
      rw [List.mem_singleton] at ha
      rw [ha]
      exact hshow i hi
    · rw [index_out (by rw [hvc]; exact hi)]
      exact ⟨_, _, rfl, h, rfl, Or.inl rfl⟩
  | walk =>
    show ∃ v' r, (v, (v.view t).walk t) = (v', r) ∧ _
    rw [walk_ok ht hg, hva, hvc]
    refine ⟨_, _, rfl, h, rfl, Or.inr ⟨_, rfl, ?_⟩⟩
    intro a ha
    rw [List.mem_map] at ha
    obtain ⟨i, hi, rfl⟩ := ha
    exact hshow i (List.mem_range.1 hi)
  | dispose =>
    show ∃ v' r, (({ v with next := 0 } : Vect), (v.view t).walk t) = (v', r) ∧ _
    rw [walk_ok ht hg, hva, hvc]
    refine ⟨_, _, rfl, ⟨h.1, h.2.1, Nat.zero_le _⟩, rfl, Or.inr ⟨_, rfl, ?_⟩⟩
    intro a ha
    rw [List.mem_map] at ha
    obtain ⟨i, hi, rfl⟩ := ha
    exact hshow i (List.mem_range.1 hi)

/-- **C104** (partial: memory given to the vector is aligned for the element): no program on a vector makes, uses or destroys
an object at an address that is not aligned; all objects lie inside the buffer, a whole number of sizes from its beginning.
Missing: memory that is not aligned, where the code does not look (`C104_misaligned`). -/
theorem C104_vector_partial {t : Ty} (ht : t.Valid) (ops : List Vect.Op) : ∀ {v : Vect}, v.Ok t →
    ∃ v' as, v.run t ops = .ok (v', as) ∧ v'.Ok t ∧ v'.buf = v.buf ∧ ∀ a ∈ as, Placed t v.buf a := by
  induction ops with
  | nil => intro v h; exact ⟨v, [], rfl, h, rfl, fun a ha => by simp at ha⟩
  | cons op ops ih =>
    intro v h
    obtain ⟨v1, r, e, h1, hb, hr⟩ := step_aligned ht h op
    obtain ⟨v2, as, e2, h2, hb2, ha⟩ := ih h1
    rw [hb] at hb2 ha
    rcases hr with hr | ⟨bs, hr, hbs⟩
    · refine ⟨v2, as, ?_, h2, hb2, ha⟩
      rw [Vect.run, e, hr]
      exact e2
    · refine ⟨v2, bs ++ as, ?_, h2, hb2, ?_⟩
      · rw [Vect.run, e, hr]
        show (v1.run t ops >>= fun r => pure (r.1, bs ++ r.2)) = _
        rw [e2, Outcome.bind_ok, Outcome.pure_def]
      · intro a hm
        rcases List.mem_append.1 hm with hm | hm
        · exact hbs a hm
        · exact ha a hm

/-- Memory from `malloc` (memoryManager.cpp:96-114) is aligned for every fundamental type, 16 bytes on the targets of the
library: a vector on the heap is aligned for all element types whose alignment is at most that. -/
theorem C104_heap {t : Ty} (ht : t.Valid) (h16 : t.align ≤ 16) (ops : List Vect.Op) (addr n : Nat) (hmalloc : 16 ∣ addr)
    (hn : addr + n < 2 ^ 64) :
    ∃ v' as, (⟨⟨addr, n⟩, 0⟩ : Vect).run t ops = .ok (v', as) ∧ ∀ a ∈ as, Placed t ⟨addr, n⟩ a := by
  have hd : t.align ∣ addr := by
    obtain ⟨⟨k, -, e⟩, -⟩ := ht
    have hk : k ≤ 4 := by
      refine Nat.le_of_not_lt fun h => ?_
      have : 2 ^ 5 ≤ 2 ^ k := Nat.pow_le_pow_right (by decide) h
      omega
    rw [e]
    exact Nat.dvd_trans (Nat.pow_dvd_pow 2 hk) hmalloc
  obtain ⟨v', as, e, -, -, h⟩ := C104_vector_partial ht ops (v := ⟨⟨addr, n⟩, 0⟩) ⟨hn, hd, Nat.zero_le _⟩
  exact ⟨v', as, e, h⟩

example : (⟨24, 8⟩ : Ty).Valid ∧ (16 : Nat) ∣ 4096 ∧ (4096 + 100 : Nat) < 2 ^ 64 :=
  ⟨⟨⟨3, by decide, rfl⟩, by decide, by decide⟩, by decide, by decide⟩

theorem emplaceBack_ub {t : Ty} (ht : t.Valid) (buf : View) (hm : buf.Machine) (hroom : t.size ≤ buf.size)
    (hmis : ¬ t.align ∣ buf.addr) : (⟨buf, 0⟩ : Vect).emplaceBack t = (⟨buf, 0⟩, .ub) := by
  have hs := ht.2.2
  have hc : 0 < buf.size / t.size := Nat.div_pos hroom hs
  rw [Vect.emplaceBack, if_neg (show ¬ buf.size / t.size ≤ 0 by omega)]
  rw [sliceFor_eq ht hm hc]
  simp only [View.construct, View.dataAs, if_pos (Nat.le_refl _), if_neg (show ¬ t.size = 0 by omega), Nat.zero_mul,
    Nat.add_zero, refTo_ub hmis]

/-- **C104, negation**: on a buffer that is not aligned for the element and has room for one, the first `emplace_back`
constructs an object at a misaligned address: nothing in the code looks at the address. -/
theorem C104_misaligned {t : Ty} (ht : t.Valid) (buf : View) (hm : buf.Machine) (hroom : t.size ≤ buf.size)
    (hmis : ¬ t.align ∣ buf.addr) (ops : List Vect.Op) : (⟨buf, 0⟩ : Vect).run t (.emplaceBack :: ops) = .ub := by
  have e := emplaceBack_ub ht buf hm hroom hmis
  have e2 : (⟨buf, 0⟩ : Vect).step t .emplaceBack = (⟨buf, 0⟩, .ub) := by
    show (((⟨buf, 0⟩ : Vect).emplaceBack t).1, ((⟨buf, 0⟩ : Vect).emplaceBack t).2 >>= fun a => pure a.toList) = _
    rw [e]
    rfl
  rw [Vect.run, e2]

/-- A type with an alignment of 32 bytes in a block from `malloc`, and integers in a byte array at an odd address. -/
example : (⟨32, 32⟩ : Ty).Valid ∧ (16 : Nat) ∣ 4112 ∧ ¬ (⟨32, 32⟩ : Ty).align ∣ 4112 ∧ (⟨4, 4⟩ : Ty).Valid ∧
    ¬ (⟨4, 4⟩ : Ty).align ∣ 4097 :=
  ⟨⟨⟨5, by decide, rfl⟩, by decide, by decide⟩, by decide, by decide, ⟨⟨2, by decide, rfl⟩, by decide, by decide⟩, by decide⟩

/-- **C104, negation**: in every view with room for one more byte than an object of an aligned type, `dataAs` is undefined
at offset 0 or at offset 1, although the object fits at both. -/
theorem C104_dataAs {t : Ty} (h1 : 1 < t.align) (v : View) (hm : v.Machine) (hroom : t.size + 1 ≤ v.size) :
    v.dataAsAt t 0 = .ub ∨ v.dataAsAt t 1 = .ub := by
  have hm' : v.addr + v.size < 2 ^ 64 := hm
  rw [View.dataAsAt, View.dataAsAt, wrap64_of_lt (n := 0 + t.size) (by omega), wrap64_of_lt (n := 1 + t.size) (by omega),
    if_pos (by omega), if_pos (by omega)]
  by_cases h : t.align ∣ v.addr
  · refine Or.inr (refTo_ub fun h2 => ?_)
    have := (Nat.dvd_add_right h).1 h2
    have := Nat.le_of_dvd (by decide) this
    omega
  · exact Or.inl (refTo_ub h)

example : (⟨4, 4⟩ : Ty).Valid ∧ 1 < (⟨4, 4⟩ : Ty).align ∧ (⟨0x7000, 8⟩ : View).Machine :=
  ⟨⟨⟨2, by decide, rfl⟩, by decide, by decide⟩, by decide, by show 0x7000 + 8 < 2 ^ 64; decide⟩

/-! ### The registry of error domains -/

theorem word_valid : word.Valid := ⟨⟨3, by decide, rfl⟩, by decide, by decide⟩

theorem put_aligned {tk tv : Ty} (htk : tk.Valid) (htv : tv.Valid) {ks vs : Vect} (hk : ks.Ok tk) (hv : vs.Ok tv) :
    ∃ ks' vs' b, put tk tv ks vs = .ok (ks', vs', b) ∧ ks'.Ok tk ∧ vs'.Ok tv ∧ ks'.buf = ks.buf ∧ vs'.buf = vs.buf := by
  rw [put, emplaceBack_aligned htv hv]
  by_cases h1 : vs.next < vs.buf.size / tv.size
  · have hv1 : ({ vs with next := vs.next + 1 } : Vect).Ok tv := ⟨hv.1, hv.2.1, h1⟩
    rw [if_pos h1]
    simp only
    rw [emplaceBack_aligned htk hk]
    by_cases h2 : ks.next < ks.buf.size / tk.size
    · rw [if_pos h2]
      exact ⟨_, _, _, rfl, ⟨hk.1, hk.2.1, h2⟩, hv1, rfl, rfl⟩
    · rw [if_neg h2]
      simp only
      rw [popBack_aligned htv hv1, if_neg (Nat.succ_ne_zero _)]
      exact ⟨_, _, _, rfl, hk, ⟨hv.1, hv.2.1, hv.2.2⟩, rfl, rfl⟩
  · rw [if_neg h1]
    exact ⟨_, _, _, rfl, hk, hv, rfl, rfl⟩

/-- The first `put` into a dictionary with room. -/
theorem put_misaligned {tk tv : Ty} (htk : tk.Valid) (htv : tv.Valid) (kb vb : View) (hk : kb.Machine) (hv : vb.Machine)
    (rk : tk.size ≤ kb.size) (rv : tv.size ≤ vb.size) (hbad : ¬ (tk.align ∣ kb.addr ∧ tv.align ∣ vb.addr)) :
    put tk tv ⟨kb, 0⟩ ⟨vb, 0⟩ = .ub := by
  rw [put]
  by_cases h2 : tv.align ∣ vb.addr
  · have h1 : ¬ tk.align ∣ kb.addr := fun h1 => hbad ⟨h1, h2⟩
    rw [emplaceBack_aligned htv (v := ⟨vb, 0⟩) ⟨hv, h2, Nat.zero_le _⟩, if_pos (Nat.div_pos rv htv.2.2)]
    simp only
    rw [emplaceBack_ub htk kb hk rk h1]
  · rw [emplaceBack_ub htv vb hv rv h2]

/-- **C104**, the registry: registering error domains is defined if and only if both static byte arrays happen to lie at
multiples of 8; the language only promises multiples of 1. -/
theorem C104_registry (keysAddr valuesAddr n : Nat) (hn : 0 < n) (hk : keysAddr + 128 * 8 < 2 ^ 64)
    (hv : valuesAddr + 128 * 8 < 2 ^ 64) :
    registrations keysAddr valuesAddr n ≠ .ub ↔ 8 ∣ keysAddr ∧ 8 ∣ valuesAddr := by
  constructor
  · intro h
    have hub : ¬ (8 ∣ keysAddr ∧ 8 ∣ valuesAddr) → registrations keysAddr valuesAddr n = .ub := by
      intro hbad
      obtain ⟨m, rfl⟩ : ∃ m, n = m + 1 := ⟨n - 1, by omega⟩
      have e : put word word ⟨⟨keysAddr, 128 * 8⟩, 0⟩ ⟨⟨valuesAddr, 128 * 8⟩, 0⟩ = .ub :=
        put_misaligned word_valid word_valid _ _ hk hv (show 8 ≤ 128 * 8 by decide) (show 8 ≤ 128 * 8 by decide) hbad
      rw [registrations, registerLoop, e]
      rfl
    exact Classical.byContradiction fun hbad => h (hub hbad)
  · intro ⟨h1, h2⟩
    have key : ∀ n ks vs, ks.Ok word → vs.Ok word → registerLoop n ks vs ≠ .ub := by
      intro n
      induction n with
      | zero => intro ks vs _ _; rw [registerLoop]; exact fun e => by cases e
      | succ n ih =>
        intro ks vs hk hv
        obtain ⟨ks', vs', b, e, hk', hv', -⟩ := put_aligned word_valid word_valid hk hv
        rw [registerLoop, e]
        exact ih ks' vs' hk' hv'
    exact key n _ _ ⟨hk, h1, Nat.zero_le _⟩ ⟨hv, h2, Nat.zero_le _⟩

example : registrations 0x1001 0x2000 1 = .ub := by
  refine Classical.byContradiction fun h => ?_
  exact absurd ((C104_registry 0x1001 0x2000 1 (by decide) (by decide) (by decide)).1 h) (by decide)

end Solace.Align
