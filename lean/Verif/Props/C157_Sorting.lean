import Verif.Model.Sorting
import Verif.Spec.Sorting
import Verif.Props.C156_Ordered
/-
C157: sorting arrays of values of the library.
-/
namespace Solace.Sorting
open Ordered

/-- What a comparison must tell for an insertion sort: its answers fit an order `le` of the elements in which the order of equal ones is free. -/
structure Fits {α : Type} (cmp : α → α → Outcome Bool) (P : α → Prop) (le : α → α → Prop) : Prop where
  yes_or_no : ∀ a b, P a → P b → cmp a b = .ok true ∧ le a b ∨ cmp a b = .ok false ∧ le b a
  trans : ∀ a b c, P a → P b → P c → le a b → le b c → le a c

section generic
variable {α : Type} {cmp : α → α → Outcome Bool} {P : α → Prop} {le lt : α → α → Prop}

theorem fits_of_weak (h : StrictWeak cmp P lt) : Fits cmp P fun a b => ¬lt b a where
  yes_or_no a b ha hb := by
    by_cases hl : lt a b
    · exact .inl ⟨h.yes ha hb hl, h.asymm ha hb hl⟩
    · exact .inr ⟨h.no ha hb hl, hl⟩
  trans a b c ha hb hc h1 h2 := h.negTrans c b a hc hb ha h2 h1

/-- The walk down stops at the latest at the first element, which is not greater. The list is reversed: descending. -/
theorem unguarded_spec (h : Fits cmp P le) (val : α) (hv : P val) (xs : List α) : (∀ x ∈ xs, P x) → xs.Pairwise (fun a b => le b a) →
    (∃ f, xs.getLast? = some f ∧ cmp val f = .ok false) →
    ∃ ys, unguardedInsert cmp val xs = .ok ys ∧ ys.Perm (val :: xs) ∧ ys.Pairwise (fun a b => le b a) := by
  induction xs with
  | nil => rintro _ _ ⟨f, hf, _⟩; cases hf
  | cons x xs ih =>
    rintro hp hs ⟨f, hf, hc⟩
    have hx := hp x List.mem_cons_self
    obtain ⟨s1, s2⟩ := List.pairwise_cons.mp hs
    rcases h.yes_or_no val x hv hx with ⟨e, hle⟩ | ⟨e, hle⟩
    · cases xs with
      | nil =>
        rw [List.getLast?_singleton] at hf
        obtain rfl := Option.some.inj hf
        rw [e] at hc
        cases hc
      | cons y ys =>
        rw [List.getLast?_cons_cons] at hf
        obtain ⟨zs, e', hperm, hsorted⟩ := ih (fun z hz => hp z (List.mem_cons_of_mem _ hz)) s2 ⟨f, hf, hc⟩
        refine ⟨x :: zs, ?_, ?_, List.pairwise_cons.mpr ⟨fun z hz => ?_, hsorted⟩⟩
        · rw [unguardedInsert, e, Outcome.bind_ok, if_pos rfl, e']; rfl
        · exact (hperm.cons x).trans (List.Perm.swap val x _)
        · rcases List.mem_cons.mp (hperm.mem_iff.mp hz) with rfl | hz'
          · exact hle
          · exact s1 z hz'
    · refine ⟨val :: x :: xs, ?_, .refl _, List.pairwise_cons.mpr ⟨fun z hz => ?_, hs⟩⟩
      · rw [unguardedInsert, e, Outcome.bind_ok, if_neg Bool.false_ne_true]; rfl
      · rcases List.mem_cons.mp hz with rfl | hz
        · exact hle
        · exact h.trans z x val (hp z (List.mem_cons_of_mem _ hz)) hx hv (s1 z hz) hle

theorem insertStep_spec (h : Fits cmp P le) (pre : List α) (val : α) (hv : P val) (hp : ∀ x ∈ pre, P x) (hs : pre.Pairwise le) :
    ∃ ys, insertStep cmp pre val = .ok ys ∧ ys.Perm (val :: pre) ∧ ys.Pairwise le := by
  cases pre with
  | nil => exact ⟨[val], rfl, .refl _, List.pairwise_singleton _ _⟩
  | cons f pre =>
    have hf := hp f List.mem_cons_self
    obtain ⟨s1, s2⟩ := List.pairwise_cons.mp hs
    rcases h.yes_or_no val f hv hf with ⟨e, hle⟩ | ⟨e, hle⟩
    · refine ⟨val :: f :: pre, ?_, .refl _, List.pairwise_cons.mpr ⟨fun z hz => ?_, hs⟩⟩
      · simp only [insertStep, e, Outcome.bind_ok, if_true]; rfl
      · rcases List.mem_cons.mp hz with rfl | hz
        · exact hle
        · exact h.trans val f z hv hf (hp z (List.mem_cons_of_mem _ hz)) hle (s1 z hz)
    · obtain ⟨ys, e', hperm, hsorted⟩ := unguarded_spec h val hv (f :: pre).reverse (fun x hx => hp x (List.mem_reverse.mp hx))
        (List.pairwise_reverse.mpr hs) ⟨f, by rw [List.getLast?_reverse]; rfl, e⟩
      refine ⟨ys.reverse, ?_, ?_, List.pairwise_reverse.mpr hsorted⟩
      · simp only [insertStep, e, Outcome.bind_ok, Bool.false_eq_true, if_false, e']; rfl
      · exact (List.reverse_perm ys).trans (hperm.trans ((List.reverse_perm _).cons val))

theorem insertionSort_spec (h : Fits cmp P le) (xs : List α) : ∀ pre : List α, (∀ x ∈ pre, P x) → (∀ x ∈ xs, P x) → pre.Pairwise le →
    ∃ ys, insertionSort cmp pre xs = .ok ys ∧ ys.Perm (pre ++ xs) ∧ ys.Pairwise le := by
  induction xs with
  | nil => exact fun pre _ _ hs => ⟨pre, rfl, by rw [List.append_nil], hs⟩
  | cons x xs ih =>
    intro pre hp hx hs
    obtain ⟨pre', e, hperm, hs'⟩ := insertStep_spec h pre x (hx x List.mem_cons_self) hp hs
    obtain ⟨ys, e', hperm', hs''⟩ := ih pre' (fun z hz => by
      rcases List.mem_cons.mp (hperm.mem_iff.mp hz) with rfl | hz
      · exact hx z List.mem_cons_self
      · exact hp z hz) (fun z hz => hx z (List.mem_cons_of_mem _ hz)) hs'
    refine ⟨ys, by rw [insertionSort, e, Outcome.bind_ok, e'], hperm'.trans ?_, hs''⟩
    exact (hperm.append_right xs).trans List.perm_middle.symm

theorem Moved.refl (xs : List α) (a b : Nat) : Moved xs xs a b :=
  ⟨.refl _, fun _ _ => rfl, fun t h1 h2 => ⟨t, h1, h2, rfl⟩⟩

theorem Moved.trans {xs ys zs : List α} {a b : Nat} (h1 : Moved xs ys a b) (h2 : Moved ys zs a b) : Moved xs zs a b where
  perm := h2.perm.trans h1.perm
  outside t ht := (h2.outside t ht).trans (h1.outside t ht)
  inside t ha hb := by
    obtain ⟨s, s1, s2, e⟩ := h2.inside t ha hb
    obtain ⟨r, r1, r2, e'⟩ := h1.inside s s1 s2
    exact ⟨r, r1, r2, e.trans e'⟩

theorem Moved.wider {xs ys : List α} {a b a' b' : Nat} (h : Moved xs ys a b) (ha : a' ≤ a) (hb : b ≤ b') : Moved xs ys a' b' where
  perm := h.perm
  outside t ht := h.outside t (by omega)
  inside t h1 h2 := by
    by_cases hi : a ≤ t ∧ t < b
    · obtain ⟨s, s1, s2, e⟩ := h.inside t hi.1 hi.2
      exact ⟨s, by omega, by omega, e⟩
    · exact ⟨t, h1, h2, h.outside t (by omega)⟩

theorem Moved.length {xs ys : List α} {a b : Nat} (h : Moved xs ys a b) : ys.length = xs.length := h.perm.length_eq

theorem Moved.all {xs ys : List α} {a b : Nat} (h : Moved xs ys a b) (hp : ∀ x ∈ xs, P x) : ∀ y ∈ ys, P y :=
  fun y hy => hp y (h.perm.mem_iff.mp hy)

theorem exchange_spec (xs : List α) (i j : Nat) (hi : i < xs.length) (hj : j < xs.length) :
    ∃ ys, exchange xs i j = .ok ys ∧ ys.Perm xs ∧ ys[i]? = xs[j]? ∧ ys[j]? = xs[i]? ∧ ∀ t, t ≠ i → t ≠ j → ys[t]? = xs[t]? := by
  unfold exchange
  rw [List.getElem?_eq_getElem hi, List.getElem?_eq_getElem hj]
  refine ⟨_, rfl, List.set_set_perm hi hj, ?_, ?_, fun t h1 h2 => ?_⟩
  · by_cases e : j = i
    · subst e
      rw [List.getElem?_set_self (by rwa [List.length_set])]
    · rw [List.getElem?_set_ne e, List.getElem?_set_self hi]
  · rw [List.getElem?_set_self (by rwa [List.length_set])]
  · rw [List.getElem?_set_ne (Ne.symm h2), List.getElem?_set_ne (Ne.symm h1)]

theorem exchange_moved {xs ys : List α} {i j a b : Nat} (hp : ys.Perm xs) (h1 : ys[i]? = xs[j]?) (h2 : ys[j]? = xs[i]?)
    (h3 : ∀ t, t ≠ i → t ≠ j → ys[t]? = xs[t]?) (hi : a ≤ i ∧ i < b) (hj : a ≤ j ∧ j < b) : Moved xs ys a b where
  perm := hp
  outside t ht := h3 t (by omega) (by omega)
  inside t ha hb := by
    by_cases e1 : t = i
    · subst e1; exact ⟨j, hj.1, hj.2, h1⟩
    · by_cases e2 : t = j
      · subst e2; exact ⟨i, hi.1, hi.2, h2⟩
      · exact ⟨t, ha, hb, h3 t e1 e2⟩

/-- The median is at the front, and behind it is an element that is not less. -/
theorem median_spec (h : StrictWeak cmp P lt) (xs : List α) (hp : ∀ x ∈ xs, P x) (r a b c e : Nat) (hr : r < a) (hab : a < b) (hbc : b < c) (hce : c < e)
    (he : e ≤ xs.length) :
    ∃ ys pivot g v, medianToFirst cmp xs r a b c = .ok ys ∧ Moved xs ys r e ∧ ys[r]? = some pivot ∧ r < g ∧ g < e ∧ ys[g]? = some v ∧ ¬lt v pivot := by
  have la : a < xs.length := by omega
  have lb : b < xs.length := by omega
  have lc : c < xs.length := by omega
  have pa := hp _ (List.getElem_mem la)
  have pb := hp _ (List.getElem_mem lb)
  have pc := hp _ (List.getElem_mem lc)
  have put : ∀ (i g : Nat) (li : i < xs.length) (lg : g < xs.length), r < i → i < e → r < g → g < e → g ≠ i → ¬lt xs[g] xs[i] →
      ∃ ys pivot g v, exchange xs r i = .ok ys ∧ Moved xs ys r e ∧ ys[r]? = some pivot ∧ r < g ∧ g < e ∧ ys[g]? = some v ∧ ¬lt v pivot := by
    intro i g li lg h1 h2 h3 h4 h5 h6
    obtain ⟨ys, e1, e2, e3, e4, e5⟩ := exchange_spec xs r i (by omega) li
    refine ⟨ys, xs[i], g, xs[g], e1, exchange_moved e2 e3 e4 e5 (by omega) (by omega), by rw [e3, List.getElem?_eq_getElem li], h3, h4, ?_, h6⟩
    rw [e5 g (by omega) h5, List.getElem?_eq_getElem lg]
  unfold medianToFirst
  rw [List.getElem?_eq_getElem la, List.getElem?_eq_getElem lb, List.getElem?_eq_getElem lc]
  dsimp only
  by_cases ab : lt xs[a] xs[b]
  · rw [h.yes pa pb ab, Outcome.bind_ok, if_pos rfl]
    by_cases bc : lt xs[b] xs[c]
    · rw [h.yes pb pc bc, Outcome.bind_ok, if_pos rfl]
      exact put b c lb lc (by omega) (by omega) (by omega) (by omega) (by omega) (h.asymm pb pc bc)
    · rw [h.no pb pc bc, Outcome.bind_ok, if_neg Bool.false_ne_true]
      by_cases ac : lt xs[a] xs[c]
      · rw [h.yes pa pc ac, Outcome.bind_ok, if_pos rfl]
        exact put c b lc lb (by omega) (by omega) (by omega) (by omega) (by omega) bc
      · rw [h.no pa pc ac, Outcome.bind_ok, if_neg Bool.false_ne_true]
        exact put a b la lb (by omega) (by omega) (by omega) (by omega) (by omega) (h.asymm pa pb ab)
  · rw [h.no pa pb ab, Outcome.bind_ok, if_neg Bool.false_ne_true]
    by_cases ac : lt xs[a] xs[c]
    · rw [h.yes pa pc ac, Outcome.bind_ok, if_pos rfl]
      exact put a c la lc (by omega) (by omega) (by omega) (by omega) (by omega) (h.asymm pa pc ac)
    · rw [h.no pa pc ac, Outcome.bind_ok, if_neg Bool.false_ne_true]
      by_cases bc : lt xs[b] xs[c]
      · rw [h.yes pb pc bc, Outcome.bind_ok, if_pos rfl]
        exact put c a lc la (by omega) (by omega) (by omega) (by omega) (by omega) ac
      · rw [h.no pb pc bc, Outcome.bind_ok, if_neg Bool.false_ne_true]
        exact put b a lb la (by omega) (by omega) (by omega) (by omega) (by omega) ab

theorem scanUp_spec (h : StrictWeak cmp P lt) (xs : List α) (hp : ∀ x ∈ xs, P x) (pivot : α) (hv : P pivot) (g : Nat) (v : α) (hg : xs[g]? = some v) (hn : ¬lt v pivot)
    (fuel : Nat) : ∀ first, first ≤ g → g - first < fuel →
    ∃ i x, scanUp cmp xs pivot fuel first = .ok i ∧ first ≤ i ∧ i ≤ g ∧ xs[i]? = some x ∧ ¬lt x pivot ∧
      ∀ t y, first ≤ t → t < i → xs[t]? = some y → lt y pivot := by
  induction fuel with
  | zero => intro first _ h0; omega
  | succ fuel ih =>
    intro first hf hfu
    have lg : g < xs.length := (List.getElem?_eq_some_iff.mp hg).1
    have lf : first < xs.length := by omega
    rw [scanUp, List.getElem?_eq_getElem lf]
    dsimp only
    have px := hp _ (List.getElem_mem lf)
    by_cases hl : lt xs[first] pivot
    · rw [h.yes px hv hl, Outcome.bind_ok, if_pos rfl]
      have hne : first ≠ g := by
        rintro rfl
        rw [List.getElem?_eq_getElem lf] at hg
        rw [Option.some.inj hg] at hl
        exact hn hl
      obtain ⟨i, x, e, h1, h2, h3, h4, h5⟩ := ih (first + 1) (by omega) (by omega)
      refine ⟨i, x, e, by omega, h2, h3, h4, fun t y t1 t2 hy => ?_⟩
      by_cases ht : t = first
      · subst ht
        rw [List.getElem?_eq_getElem lf] at hy
        rwa [← Option.some.inj hy]
      · exact h5 t y (by omega) t2 hy
    · rw [h.no px hv hl, Outcome.bind_ok, if_neg Bool.false_ne_true]
      exact ⟨first, xs[first], rfl, Nat.le_refl _, hf, List.getElem?_eq_getElem lf, hl, fun t y t1 t2 _ => by omega⟩

theorem scanDown_spec (h : StrictWeak cmp P lt) (xs : List α) (hp : ∀ x ∈ xs, P x) (pivot : α) (hv : P pivot) (p : Nat) (hg : xs[p]? = some pivot) :
    ∀ last, p < last → last ≤ xs.length →
    ∃ j x, scanDown cmp xs pivot last = .ok j ∧ p ≤ j ∧ j < last ∧ xs[j]? = some x ∧ ¬lt pivot x ∧
      ∀ t y, j < t → t < last → xs[t]? = some y → lt pivot y := by
  intro last
  induction last with
  | zero => intro h0; omega
  | succ last ih =>
    intro hl hx
    have lf : last < xs.length := by omega
    rw [scanDown, List.getElem?_eq_getElem lf]
    dsimp only
    have px := hp _ (List.getElem_mem lf)
    by_cases hc : lt pivot xs[last]
    · rw [h.yes hv px hc, Outcome.bind_ok, if_pos rfl]
      have hne : last ≠ p := by
        rintro rfl
        rw [List.getElem?_eq_getElem lf] at hg
        rw [Option.some.inj hg] at hc
        exact h.irrefl pivot hv hc
      obtain ⟨j, x, e, h1, h2, h3, h4, h5⟩ := ih (by omega) (by omega)
      refine ⟨j, x, e, h1, by omega, h3, h4, fun t y t1 t2 hy => ?_⟩
      by_cases ht : t = last
      · subst ht
        rw [List.getElem?_eq_getElem lf] at hy
        rwa [← Option.some.inj hy]
      · exact h5 t y t1 (by omega) hy
    · rw [h.no hv px hc, Outcome.bind_ok, if_neg Bool.false_ne_true]
      exact ⟨last, xs[last], rfl, by omega, by omega, List.getElem?_eq_getElem lf, hc, fun t y t1 t2 _ => by omega⟩

theorem partition_spec (h : StrictWeak cmp P lt) (p e : Nat) (pivot : α) (hv : P pivot) (fuel : Nat) : ∀ (xs : List α) (first last : Nat), (∀ x ∈ xs, P x) →
    xs[p]? = some pivot → p < first → p < last → last ≤ e → e ≤ xs.length → e - first < fuel →
    (∃ g v, first ≤ g ∧ g < e ∧ xs[g]? = some v ∧ ¬lt v pivot) →
    (∀ t x, p < t → t < first → xs[t]? = some x → ¬lt pivot x) → (∀ t x, last ≤ t → t < e → xs[t]? = some x → ¬lt x pivot) →
    ∃ ys c, partition cmp p fuel xs first last = .ok (ys, c) ∧ Moved xs ys (p + 1) e ∧ p < c ∧ c < e ∧
      (∀ t x, p < t → t < c → ys[t]? = some x → ¬lt pivot x) ∧ ∀ t x, c ≤ t → t < e → ys[t]? = some x → ¬lt x pivot := by
  induction fuel with
  | zero => intro xs first last _ _ _ _ _ _ h0; omega
  | succ fuel ih =>
    rintro xs first last hp hpv hpf hpl hle hex hfu ⟨g, v, g1, g2, g3, g4⟩ hlow hup
    rw [partition, hpv]
    dsimp only
    obtain ⟨i, x, e1, i1, i2, i3, i4, i5⟩ := scanUp_spec h xs hp pivot hv g v g3 g4 (xs.length - first + 1) first g1 (by omega)
    obtain ⟨j, y, e2, j1, j2, j3, j4, j5⟩ := scanDown_spec h xs hp pivot hv p hpv last hpl (by omega)
    rw [e1, Outcome.bind_ok, e2, Outcome.bind_ok]
    have px := hp x (List.mem_of_getElem? i3)
    split
    · rename_i hji
      refine ⟨xs, i, rfl, .refl _ _ _, by omega, by omega, fun t z t1 t2 hz => ?_, fun t z t1 t2 hz => ?_⟩
      · by_cases ht : t < first
        · exact hlow t z t1 ht hz
        · exact h.asymm (hp z (List.mem_of_getElem? hz)) hv (i5 t z (by omega) t2 hz)
      · by_cases ht : last ≤ t
        · exact hup t z ht t2 hz
        · by_cases hti : t = i
          · subst hti
            rw [i3] at hz
            rwa [← Option.some.inj hz]
          · exact h.asymm hv (hp z (List.mem_of_getElem? hz)) (j5 t z (by omega) (by omega) hz)
    · rename_i hji
      obtain ⟨ys, e3, q1, q2, q3, q4⟩ := exchange_spec xs i j (by omega) (by omega)
      rw [e3, Outcome.bind_ok]
      have hm : Moved xs ys (p + 1) e := exchange_moved q1 q2 q3 q4 (by omega) (by omega)
      obtain ⟨zs, c, f1, f2, f3, f4, f5, f6⟩ := ih ys (i + 1) j (hm.all hp) (by rw [hm.outside p (by omega), hpv]) (by omega) (by omega) (by omega)
        (by rw [hm.length]; exact hex) (by omega) ⟨j, x, by omega, by omega, by rw [q3, i3], i4⟩
        (fun t z t1 t2 hz => by
          by_cases hti : t = i
          · subst hti
            rw [q2, j3] at hz
            rwa [← Option.some.inj hz]
          · rw [q4 t hti (by omega)] at hz
            by_cases ht : t < first
            · exact hlow t z t1 ht hz
            · exact h.asymm (hp z (List.mem_of_getElem? hz)) hv (i5 t z (by omega) (by omega) hz))
        (fun t z t1 t2 hz => by
          by_cases htj : t = j
          · subst htj
            rw [q3, i3] at hz
            rwa [← Option.some.inj hz]
          · rw [q4 t (by omega) htj] at hz
            by_cases ht : last ≤ t
            · exact hup t z ht t2 hz
            · exact h.asymm hv (hp z (List.mem_of_getElem? hz)) (j5 t z (by omega) (by omega) hz))
      exact ⟨zs, c, f1, hm.trans f2, f3, f4, f5, f6⟩

theorem introsort_spec (h : StrictWeak cmp P lt) {heap : List α → Nat → Nat → Outcome (List α)} (hh : SortsRange P lt heap) (depth : Nat) :
    ∀ (a b : Nat) (xs : List α), (∀ x ∈ xs, P x) → b ≤ xs.length →
    ∃ ys, introsort cmp heap depth a b xs = .ok ys ∧ Moved xs ys a b ∧
      (16 < b - a → ∃ m v, a ≤ m ∧ m < a + 16 ∧ ys[m]? = some v ∧ ∀ t x, a + 16 ≤ t → t < b → ys[t]? = some x → ¬lt x v) := by
  induction depth with
  | zero =>
    intro a b xs hp hb
    rw [introsort]
    split
    · exact ⟨xs, rfl, .refl _ _ _, fun h0 => by omega⟩
    · obtain ⟨ys, e, hm, hs⟩ := hh xs a b hp (by omega) hb
      have la : a < ys.length := by rw [hm.length]; omega
      exact ⟨ys, e, hm, fun _ => ⟨a, ys[a], Nat.le_refl _, by omega, List.getElem?_eq_getElem la,
        fun t x t1 t2 hx => hs a t _ x (Nat.le_refl _) (by omega) t2 (List.getElem?_eq_getElem la) hx⟩⟩
  | succ depth ih =>
    intro a b xs hp hb
    rw [introsort]
    split
    · exact ⟨xs, rfl, .refl _ _ _, fun h0 => by omega⟩
    · rename_i hab
      obtain ⟨ys, pivot, g, v, e1, m1, hpv, g1, g2, g3, g4⟩ := median_spec h xs hp a (a + 1) (a + (b - a) / 2) (b - 1) b (by omega) (by omega) (by omega)
        (by omega) hb
      have hpy := m1.all hp
      have pv : P pivot := hpy pivot (List.mem_of_getElem? hpv)
      obtain ⟨zs, c, e2, m2, c1, c2, lo, hi⟩ := partition_spec h a b pivot pv (ys.length + 1) ys (a + 1) b hpy hpv (by omega) (by omega) (Nat.le_refl _)
        (by rw [m1.length]; exact hb) (by rw [m1.length]; omega) ⟨g, v, by omega, g2, g3, g4⟩ (fun t x t1 t2 _ => by omega) (fun t x t1 t2 _ => by omega)
      have hpz := m2.all hpy
      have hza : zs[a]? = some pivot := by rw [m2.outside a (by omega), hpv]
      obtain ⟨us, e3, m3, _⟩ := ih c b zs hpz (by rw [m2.length, m1.length]; exact hb)
      have hpu := m3.all hpz
      obtain ⟨ws, e4, m4, hw⟩ := ih a c us hpu (by rw [m3.length, m2.length, m1.length]; omega)
      have hpw := m4.all hpu
      have hup : ∀ t x, c ≤ t → t < b → ws[t]? = some x → ¬lt x pivot := by
        intro t x t1 t2 hx
        rw [m4.outside t (by omega)] at hx
        obtain ⟨s, s1, s2, es⟩ := m3.inside t t1 t2
        rw [es] at hx
        exact hi s x s1 s2 hx
      have hlow : ∀ t x, a ≤ t → t < c → ws[t]? = some x → ¬lt pivot x := by
        intro t x t1 t2 hx
        obtain ⟨s, s1, s2, es⟩ := m4.inside t t1 t2
        rw [es, m3.outside s (by omega)] at hx
        by_cases hs : s = a
        · subst hs
          rw [hza] at hx
          rw [← Option.some.inj hx]
          exact h.irrefl pivot pv
        · exact lo s x (by omega) s2 hx
      refine ⟨ws, ?_, ((m1.trans (m2.wider (by omega) (Nat.le_refl _))).trans (m3.wider (by omega) (Nat.le_refl _))).trans (m4.wider (Nat.le_refl _) (by omega)), fun _ => ?_⟩
      · rw [e1, Outcome.bind_ok, e2, Outcome.bind_ok, e3, Outcome.bind_ok, e4]
      · have lift : ∀ m v, a ≤ m → m < c → ws[m]? = some v → ∀ t x, c ≤ t → t < b → ws[t]? = some x → ¬lt x v := by
          intro m v m1' m2' hv' t x t1 t2 hx
          exact h.negTrans x pivot v (hpw x (List.mem_of_getElem? hx)) pv (hpw v (List.mem_of_getElem? hv')) (hup t x t1 t2 hx) (hlow m v m1' m2' hv')
        by_cases hc : 16 < c - a
        · obtain ⟨m, v, q1, q2, q3, q4⟩ := hw hc
          refine ⟨m, v, q1, q2, q3, fun t x t1 t2 hx => ?_⟩
          by_cases ht : t < c
          · exact q4 t x t1 ht hx
          · exact lift m v q1 (by omega) q3 t x (by omega) t2 hx
        · have la : a < ws.length := by rw [m4.length, m3.length, m2.length, m1.length]; omega
          exact ⟨a, ws[a], Nat.le_refl _, by omega, List.getElem?_eq_getElem la,
            fun t x t1 t2 hx => lift a _ (Nat.le_refl _) c1 (List.getElem?_eq_getElem la) t x (by omega) t2 hx⟩

theorem unguardedSort_spec (h : StrictWeak cmp P lt) (v : α) (hv : P v) (xs : List α) : ∀ pre : List α, (∀ x ∈ pre, P x) → (∀ x ∈ xs, P x) →
    pre.Pairwise (fun a b => ¬lt b a) → v ∈ pre → (∀ x ∈ xs, ¬lt x v) →
    ∃ ys, unguardedSort cmp pre xs = .ok ys ∧ ys.Perm (pre ++ xs) ∧ ys.Pairwise fun a b => ¬lt b a := by
  induction xs with
  | nil => exact fun pre _ _ hs _ _ => ⟨pre, rfl, by rw [List.append_nil], hs⟩
  | cons x xs ih =>
    intro pre hp hx hs hm hmin
    have px := hx x List.mem_cons_self
    obtain ⟨f, pre', rfl⟩ : ∃ f pre', pre = f :: pre' := by
      cases pre with
      | nil => cases hm
      | cons f pre' => exact ⟨f, pre', rfl⟩
    have pf := hp f List.mem_cons_self
    have hxf : ¬lt x f := by
      rcases List.mem_cons.mp hm with rfl | hm'
      · exact hmin x List.mem_cons_self
      · exact h.negTrans x v f px hv pf (hmin x List.mem_cons_self) ((List.pairwise_cons.mp hs).1 v hm')
    obtain ⟨zs, e, hperm, hsorted⟩ := unguarded_spec (fits_of_weak h) x px (f :: pre').reverse (fun z hz => hp z (List.mem_reverse.mp hz))
      (List.pairwise_reverse.mpr hs) ⟨f, by rw [List.getLast?_reverse]; rfl, h.no px pf hxf⟩
    have hperm' : zs.reverse.Perm (x :: f :: pre') := (List.reverse_perm zs).trans (hperm.trans ((List.reverse_perm _).cons x))
    obtain ⟨ys, e', q1, q2⟩ := ih zs.reverse (fun z hz => by
      rcases List.mem_cons.mp (hperm'.mem_iff.mp hz) with rfl | hz
      · exact px
      · exact hp z hz) (fun z hz => hx z (List.mem_cons_of_mem _ hz)) (List.pairwise_reverse.mpr hsorted)
      (hperm'.mem_iff.mpr (List.mem_cons_of_mem _ hm)) (fun z hz => hmin z (List.mem_cons_of_mem _ hz))
    exact ⟨ys, by rw [unguardedSort, e, Outcome.bind_ok, e'], q1.trans ((hperm'.append_right xs).trans List.perm_middle.symm), q2⟩

/-- **C157** (full): with a comparison as the standard asks for, and a heap sort that sorts, `std::sort` gives the same elements in order, for arrays of every length,
and does not leave the array. -/
theorem C157_sort (h : StrictWeak cmp P lt) (heap : List α → Nat → Nat → Outcome (List α)) (hh : SortsRange P lt heap) (xs : List α) (hp : ∀ x ∈ xs, P x) :
    ∃ ys, sort cmp heap xs = .ok ys ∧ ys.Perm xs ∧ Sorted lt ys := by
  obtain ⟨zs, e, hm, hmin⟩ := introsort_spec h hh (2 * Nat.log2 xs.length) 0 xs.length xs hp (Nat.le_refl _)
  have hpz := hm.all hp
  rw [sort, e, Outcome.bind_ok, finalSort]
  split
  · rename_i hl
    rw [hm.length] at hl
    obtain ⟨m, v, m1, m2, m3, m4⟩ := hmin (by omega)
    obtain ⟨pre, e1, p1, s1⟩ := insertionSort_spec (fits_of_weak h) (zs.take 16) [] nofun (fun x hx => hpz x (List.mem_of_mem_take hx)) .nil
    rw [List.nil_append] at p1
    have hv : v ∈ zs.take 16 := List.mem_of_getElem? (i := m) (by rw [List.getElem?_take_of_lt (by omega), m3])
    obtain ⟨ys, e2, p2, s2⟩ := unguardedSort_spec h v (hpz v (List.mem_of_getElem? m3)) (zs.drop 16) pre
      (fun x hx => hpz x (List.mem_of_mem_take (p1.mem_iff.mp hx))) (fun x hx => hpz x (List.mem_of_mem_drop hx)) s1 (p1.mem_iff.mpr hv)
      (fun x hx => by
        obtain ⟨t, ht⟩ := List.mem_iff_getElem?.mp hx
        rw [List.getElem?_drop] at ht
        have := (List.getElem?_eq_some_iff.mp ht).1
        rw [hm.length] at this
        exact m4 (16 + t) x (by omega) this ht)
    rw [e1, Outcome.bind_ok, e2]
    refine ⟨ys, rfl, p2.trans (((p1.append_right _)).trans ?_ |>.trans hm.perm), s2⟩
    rw [List.take_append_drop]
  · obtain ⟨ys, e1, p1, s1⟩ := insertionSort_spec (fits_of_weak h) zs [] nofun hpz .nil
    exact ⟨ys, e1, p1.trans hm.perm, s1⟩

/-- **C157**, up to 16 elements: any comparison that fits an order will do, also one that holds for equal elements. -/
theorem C157_sort_small (h : Fits cmp P le) (heap : List α → Nat → Nat → Outcome (List α)) (xs : List α) (hp : ∀ x ∈ xs, P x) (hl : xs.length ≤ 16) :
    ∃ ys, sort cmp heap xs = .ok ys ∧ ys.Perm xs ∧ ys.Pairwise le := by
  have e : introsort cmp heap (2 * Nat.log2 xs.length) 0 xs.length xs = .ok xs := by
    cases 2 * Nat.log2 xs.length <;> rw [introsort, if_pos (by omega)] <;> rfl
  rw [sort, e, Outcome.bind_ok, finalSort, if_neg (by omega)]
  exact insertionSort_spec h xs [] nofun hp .nil

/-- A loop that finds nothing to stop it leaves the array. -/
theorem scanUp_ub (xs : List α) (pivot : α) (fuel : Nat) : ∀ first, (∀ i x, first ≤ i → xs[i]? = some x → cmp x pivot = .ok true) →
    scanUp cmp xs pivot fuel first = .ub := by
  induction fuel with
  | zero => exact fun _ _ => rfl
  | succ fuel ih =>
    intro first h
    rw [scanUp]
    cases hx : xs[first]? with
    | none => rfl
    | some x =>
      dsimp only
      rw [h first x (Nat.le_refl _) hx, Outcome.bind_ok, if_pos rfl]
      exact ih (first + 1) fun i y hi hy => h i y (by omega) hy

theorem median_any (hc : ∀ a b, ∃ r, cmp a b = .ok r) (xs : List α) (r a b c : Nat) (hr : r < xs.length) (ha : a < xs.length) (hb : b < xs.length)
    (hcc : c < xs.length) : ∃ ys, medianToFirst cmp xs r a b c = .ok ys ∧ ys.Perm xs := by
  have put : ∀ i, i < xs.length → ∃ ys, exchange xs r i = .ok ys ∧ ys.Perm xs := fun i hi => by
    obtain ⟨ys, e, p, _⟩ := exchange_spec xs r i hr hi
    exact ⟨ys, e, p⟩
  unfold medianToFirst
  rw [List.getElem?_eq_getElem ha, List.getElem?_eq_getElem hb, List.getElem?_eq_getElem hcc]
  dsimp only
  obtain ⟨r1, e1⟩ := hc xs[a] xs[b]
  obtain ⟨r2, e2⟩ := hc xs[b] xs[c]
  obtain ⟨r3, e3⟩ := hc xs[a] xs[c]
  rw [e1, e2, e3]
  simp only [Outcome.bind_ok]
  cases r1 <;> cases r2 <;> cases r3 <;> simp only [if_true, Bool.false_eq_true, if_false] <;>
    first | exact put a ha | exact put b hb | exact put c hcc

/-- There are such heap sorts. -/
theorem sortsRange_exists (h : StrictWeak cmp P lt) : ∃ heap, SortsRange P lt heap := by
  refine ⟨fun xs a b => (insertionSort cmp [] ((xs.drop a).take (b - a))) >>= fun s => .ok (xs.take a ++ (s ++ xs.drop b)), fun xs a b hp hab hb => ?_⟩
  obtain ⟨s, e, hperm, hs⟩ := insertionSort_spec (fits_of_weak h) ((xs.drop a).take (b - a)) [] nofun
    (fun x hx => hp x (List.mem_of_mem_drop (List.mem_of_mem_take hx))) .nil
  rw [List.nil_append] at hperm
  have hsl : s.length = b - a := by rw [hperm.length_eq, List.length_take, List.length_drop]; omega
  have hxs : xs = xs.take a ++ ((xs.drop a).take (b - a) ++ xs.drop b) := by
    conv => lhs; rw [← List.take_append_drop a xs, ← List.take_append_drop (b - a) (xs.drop a), List.drop_drop, show a + (b - a) = b by omega]
  have hta : (xs.take a).length = a := by rw [List.length_take]; omega
  have at' : ∀ t, a ≤ t → t < b → (xs.take a ++ (s ++ xs.drop b))[t]? = s[t - a]? := by
    intro t h1 h2
    rw [List.getElem?_append_right (by omega), hta, List.getElem?_append_left (by omega)]
  refine ⟨_, by dsimp only; rw [e, Outcome.bind_ok], ⟨?_, ?_, ?_⟩, ?_⟩
  · conv => rhs; rw [hxs]
    exact (hperm.append_right _).append_left _
  · rintro t (ht | ht)
    · rw [List.getElem?_append_left (by omega), List.getElem?_take_of_lt ht]
    · rw [List.getElem?_append_right (by omega), hta, List.getElem?_append_right (by omega), hsl, List.getElem?_drop]
      congr 1
      omega
  · intro t h1 h2
    rw [at' t h1 h2]
    have hl : t - a < s.length := by omega
    obtain ⟨k, hk⟩ := List.mem_iff_getElem?.mp (hperm.mem_iff.mp (List.getElem_mem hl))
    have hk' : k < b - a := by
      have := (List.getElem?_eq_some_iff.mp hk).1
      rw [List.length_take] at this
      omega
    refine ⟨a + k, by omega, by omega, ?_⟩
    rw [List.getElem?_take_of_lt hk', List.getElem?_drop] at hk
    rw [List.getElem?_eq_getElem hl, hk]
  · intro i j x y h1 h2 h3 hx hy
    rw [at' i h1 (by omega)] at hx
    rw [at' j (by omega) h3] at hy
    obtain ⟨hi, rfl⟩ := List.getElem?_eq_some_iff.mp hx
    obtain ⟨hj, rfl⟩ := List.getElem?_eq_some_iff.mp hy
    exact List.pairwise_iff_getElem.mp hs _ _ hi hj (by omega)

end generic

/-! ### The values of the library -/

theorem version_fits : Fits versionLess (fun _ => True) fun a b => ¬Version.Precedes b a where
  yes_or_no a b _ _ := by
    have h := (Version.C34_lt_exact a b).1
    cases hl : Version.lt a b with
    | true => exact .inl ⟨by rw [versionLess, hl], h.mp hl⟩
    | false =>
      refine .inr ⟨by rw [versionLess, hl], ?_⟩
      rw [hl] at h
      have h2 : Version.Precedes b a := Classical.byContradiction fun hn => Bool.false_ne_true (h.mpr hn)
      revert h2
      unfold Version.Precedes
      omega
  trans a b c _ _ _ := by unfold Version.Precedes; omega

/-- **C157** (full for UUIDs, characters, and versions with `operator>`): UUIDs get the order of their texts, characters that of their values, versions the highest first. -/
theorem C157_values (big : Bool) :
    (∀ heap, SortsRange (fun u => u.length = 16) (fun a b => Uuid.lt a b = true) heap → ∀ xs, (∀ x ∈ xs, x.length = 16) →
      ∃ ys, sort uuidLess heap xs = .ok ys ∧ ys.Perm xs ∧ ys.Pairwise fun a b => ¬Strings.lexLt (Uuid.text b) (Uuid.text a)) ∧
    (∀ heap, SortsRange (fun c : Chr => c.bytes.length = 4) (fun a b => a.value big < b.value big) heap → ∀ xs, (∀ x ∈ xs, x.bytes.length = 4) →
      ∃ ys, sort (charLess big) heap xs = .ok ys ∧ ys.Perm xs ∧ ys.Pairwise fun a b => a.value big ≤ b.value big) ∧
    (∀ heap, SortsRange (fun _ => True) (fun a b => Version.Precedes b a) heap → ∀ xs,
      ∃ ys, sort versionGreater heap xs = .ok ys ∧ ys.Perm xs ∧ ys.Pairwise fun a b => ¬Version.Precedes a b) := by
  refine ⟨fun heap hh xs hp => ?_, fun heap hh xs hp => ?_, fun heap hh xs => ?_⟩
  · obtain ⟨ys, e, h1, h2⟩ := C157_sort uuid_weak heap hh xs hp
    refine ⟨ys, e, h1, List.Pairwise.imp_of_mem (fun {a b} ha hb h hn => h ?_) h2⟩
    have hb' := hp b (h1.mem_iff.mp hb)
    exact (Uuid.C39_strict_total_order b a b hb' (hp a (h1.mem_iff.mp ha)) hb').2.2.2.2.2.2.2.mpr hn
  · obtain ⟨ys, e, h1, h2⟩ := C157_sort (char_weak big) heap hh xs hp
    exact ⟨ys, e, h1, List.Pairwise.imp (fun h => Nat.not_lt.mp h) h2⟩
  · exact C157_sort version_weak heap hh xs fun _ _ => trivial

/-- **C157** (partial: strings that are not empty, of characters 1 to 127): the shorter ones first. Missing: other strings, whose order is not one (C22). -/
theorem C157_string_partial (heap : List (List Byte) → Nat → Nat → Outcome (List (List Byte))) (hh : SortsRange Name Strings.shortlexLt heap)
    (xs : List (List Byte)) (hp : ∀ x ∈ xs, Name x) :
    ∃ ys, sort stringLess heap xs = .ok ys ∧ ys.Perm xs ∧ ys.Pairwise fun a b => ¬Strings.shortlexLt b a :=
  C157_sort string_weak heap hh xs hp

/-- **C157** (partial: up to 16), versions with `operator<`: although it is not a strict order, they are sorted. Missing: more than 16, where the negation below holds. -/
theorem C157_versions_partial (heap : List Version → Nat → Nat → Outcome (List Version)) (xs : List Version) (hl : xs.length ≤ 16) :
    ∃ ys, sort versionLess heap xs = .ok ys ∧ ys.Perm xs ∧ ys.Pairwise fun a b => ¬Version.Precedes b a :=
  C157_sort_small version_fits heap xs (fun _ _ => trivial) hl

/-- **C157, negation**: to sort 17 or more versions with the same numbers reads behind the array, whatever the labels: the loop that looks for an element that is not
less than the median finds none. -/
theorem C157_versions_negation (heap : List Version → Nat → Nat → Outcome (List Version)) (xs : List Version) (hl : 16 < xs.length)
    (hs : ∀ a ∈ xs, ∀ b ∈ xs, Version.SameNumbers a b) : sort versionLess heap xs = .ub := by
  obtain ⟨d, hd⟩ : ∃ d, 2 * Nat.log2 xs.length = d + 1 := by
    have : 1 ≤ Nat.log2 xs.length := (Nat.le_log2 (by omega)).mpr (by omega)
    exact ⟨2 * Nat.log2 xs.length - 1, by omega⟩
  rw [sort, hd, introsort, if_neg (by omega)]
  obtain ⟨ys, e, hperm⟩ := median_any (cmp := versionLess) (fun a b => ⟨_, rfl⟩) xs 0 (0 + 1) (0 + (xs.length - 0) / 2) (xs.length - 1)
    (by omega) (by omega) (by omega) (by omega)
  have hlen := hperm.length_eq
  rw [e, Outcome.bind_ok, partition]
  have h0 : 0 < ys.length := by omega
  rw [List.getElem?_eq_getElem h0]
  dsimp only
  rw [scanUp_ub ys ys[0] _ (0 + 1) fun i x _ hx => by
    rw [versionLess, ((Version.C34_lt_negation x ys[0]).2
      (hs x (hperm.mem_iff.mp (List.mem_of_getElem? hx)) _ (hperm.mem_iff.mp (List.getElem_mem h0)))).1]]
  rfl

/-- Seventeen times 1.2.3; three versions. -/
example : sort versionLess (fun ys _ _ => .ok ys) (List.replicate 17 ⟨1, 2, 3, [], []⟩) = .ub :=
  C157_versions_negation _ _ (by decide) fun a ha b hb => by
    rw [List.eq_of_mem_replicate ha, List.eq_of_mem_replicate hb]; exact ⟨rfl, rfl, rfl⟩
example : sort versionLess (fun ys _ _ => .ok ys) [⟨1, 2, 3, [], []⟩, ⟨1, 0, 7, [], []⟩, ⟨1, 2, 3, [0x61#8], []⟩]
    = .ok [⟨1, 0, 7, [], []⟩, ⟨1, 2, 3, [0x61#8], []⟩, ⟨1, 2, 3, [], []⟩] := by decide +kernel

/-- The hypotheses on the heap sort can be met for each kind. -/
example : (∃ heap, SortsRange (fun u => u.length = 16) (fun a b => Uuid.lt a b = true) heap) ∧
    (∃ heap, SortsRange (fun c : Chr => c.bytes.length = 4) (fun a b => a.value true < b.value true) heap) ∧
    (∃ heap, SortsRange (fun _ => True) (fun a b => Version.Precedes b a) heap) ∧ ∃ heap, SortsRange Name Strings.shortlexLt heap :=
  ⟨sortsRange_exists uuid_weak, sortsRange_exists (char_weak true), sortsRange_exists version_weak, sortsRange_exists string_weak⟩

/-- Twenty numbers, with a partition. -/
example : sort (fun a b : Nat => .ok (decide (a < b))) (fun ys _ _ => .ok ys) [5, 3, 19, 0, 7, 7, 2, 11, 4, 18, 6, 1, 9, 10, 8, 12, 13, 17, 16, 14]
    = .ok [0, 1, 2, 3, 4, 5, 6, 7, 7, 8, 9, 10, 11, 12, 13, 14, 16, 17, 18, 19] := by decide +kernel

end Solace.Sorting
