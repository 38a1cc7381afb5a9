import Verif.Model.HeapSort
import Verif.Props.C157_Sorting
/-
C157: the heap sort that `std::sort` falls back to.
-/
namespace Solace.Sorting
open Ordered
variable {α : Type} {cmp : α → α → Outcome Bool} {P : α → Prop} {lt : α → α → Prop}

/-- The child is not greater. -/
def Edge (lt : α → α → Prop) (base : Nat) (xs : List α) (p c : Nat) : Prop :=
  ∀ x y, xs[base + p]? = some x → xs[base + c]? = some y → ¬lt x y

/-- The index is that of a descendant. -/
inductive Under (top : Nat) : Nat → Prop
  | refl : Under top top
  | child {p c : Nat} : Under top p → c = 2 * p + 1 ∨ c = 2 * p + 2 → Under top c

theorem Under.le {top k : Nat} (h : Under top k) : top ≤ k := by
  induction h with
  | refl => exact Nat.le_refl _
  | child _ hc ih => omega

theorem Under.parent {top k : Nat} (h : Under top k) (hk : top < k) : Under top ((k - 1) / 2) := by
  cases h with
  | refl => omega
  | @child p c hp hc => rwa [show (k - 1) / 2 = p by omega]

theorem hole_move (xs : List α) (i j a b : Nat) (v w : α) (hij : i ≠ j) (hi : a ≤ i ∧ i < b) (hj : a ≤ j ∧ j < b) (hb : b ≤ xs.length) (hw : xs[j]? = some w) :
    Moved (xs.set i v) ((xs.set i w).set j v) a b := by
  have li : i < (xs.set i v).length := by rw [List.length_set]; omega
  have lj : j < (xs.set i v).length := by rw [List.length_set]; omega
  obtain ⟨ys, e, p1, p2, p3, p4⟩ := exchange_spec (xs.set i v) i j li lj
  have : ys = (xs.set i w).set j v := by
    unfold exchange at e
    rw [List.getElem?_set_self (by omega), List.getElem?_set_ne hij, hw] at e
    injection e with e
    rw [← e, List.set_set]
  rw [← this]
  exact exchange_moved p1 p2 p3 p4 hi hj

theorem get_set_ne (xs : List α) {i j : Nat} (v : α) (h : i ≠ j) : (xs.set i v)[j]? = xs[j]? := List.getElem?_set_ne h

theorem pushHeap_spec (h : StrictWeak cmp P lt) (base top len : Nat) (v : α) (hv : P v) (hole : Nat) : ∀ xs : List α, (∀ x ∈ xs, P x) → Under top hole → hole < len →
    base + len ≤ xs.length →
    (∀ p c, top ≤ p → c = 2 * p + 1 ∨ c = 2 * p + 2 → c < len → p ≠ hole → c ≠ hole → Edge lt base xs p c) →
    (top < hole → ∀ c, c = 2 * hole + 1 ∨ c = 2 * hole + 2 → c < len → Edge lt base xs ((hole - 1) / 2) c) →
    (∀ c y, c = 2 * hole + 1 ∨ c = 2 * hole + 2 → c < len → xs[base + c]? = some y → ¬lt v y) →
    ∃ ys, pushHeap cmp base top v xs hole = .ok ys ∧ Moved (xs.set (base + hole) v) ys base (base + len) ∧
      ∀ p c, top ≤ p → c = 2 * p + 1 ∨ c = 2 * p + 2 → c < len → Edge lt base ys p c := by
  induction hole using Nat.strongRecOn with
  | _ hole ih =>
    intro xs hp hu hl hb e1 e2 e3
    have ht := hu.le
    have done : (top < hole → ∀ x, xs[base + (hole - 1) / 2]? = some x → ¬lt x v) → ∃ ys, store xs (base + hole) v = .ok ys ∧
        Moved (xs.set (base + hole) v) ys base (base + len) ∧ ∀ p c, top ≤ p → c = 2 * p + 1 ∨ c = 2 * p + 2 → c < len → Edge lt base ys p c := by
      intro hx
      refine ⟨_, by rw [store, if_pos (by omega)], .refl _ _ _, fun p c h1 h2 h3 x y hx' hy' => ?_⟩
      by_cases hc : c = hole
      · subst hc
        rw [List.getElem?_set_self (by omega)] at hy'
        rw [get_set_ne _ _ (by omega)] at hx'
        obtain rfl := Option.some.inj hy'
        exact hx (by omega) x (by rw [show (c - 1) / 2 = p by omega]; exact hx')
      · rw [get_set_ne _ _ (by omega)] at hy'
        by_cases hph : p = hole
        · subst hph
          rw [List.getElem?_set_self (by omega)] at hx'
          obtain rfl := Option.some.inj hx'
          exact e3 c y h2 h3 hy'
        · rw [get_set_ne _ _ (by omega)] at hx'
          exact e1 p c h1 h2 h3 hph hc x y hx' hy'
    rw [pushHeap]
    split
    · rename_i hth
      have hu' := hu.parent hth
      have ht' := hu'.le
      have lq : base + (hole - 1) / 2 < xs.length := by omega
      rw [List.getElem?_eq_getElem lq]
      dsimp only
      have pq := hp _ (List.getElem_mem lq)
      have hq : xs[base + (hole - 1) / 2]? = some xs[base + (hole - 1) / 2] := List.getElem?_eq_getElem lq
      generalize xs[base + (hole - 1) / 2] = w at pq hq
      by_cases hlt : lt w v
      · rw [h.yes pq hv hlt, Outcome.bind_ok, if_pos rfl, store, if_pos (by omega), Outcome.bind_ok]
        have hpy : ∀ x ∈ xs.set (base + hole) w, P x := fun x hx => by
          rcases List.mem_or_eq_of_mem_set hx with hx | rfl
          · exact hp x hx
          · exact pq
        obtain ⟨ys, e, m, g⟩ := ih ((hole - 1) / 2) (by omega) (xs.set (base + hole) w) hpy hu' (by omega) (by rw [List.length_set]; exact hb)
          (fun p c h1 h2 h3 h4 h5 x y hx hy => by
            by_cases hph : p = hole
            · subst hph
              rw [List.getElem?_set_self (by omega)] at hx
              rw [get_set_ne _ _ (by omega)] at hy
              obtain rfl := Option.some.inj hx
              exact e2 hth c h2 h3 w y hq hy
            · rw [get_set_ne _ _ (by omega)] at hx
              by_cases hc : c = hole
              · exfalso; omega
              · rw [get_set_ne _ _ (by omega)] at hy
                exact e1 p c h1 h2 h3 hph hc x y hx hy)
          (fun htq c h2 h3 x y hx hy => by
            have ht2 := (hu'.parent htq).le
            rw [get_set_ne _ _ (by omega)] at hx
            have hxw : ¬lt x w := e1 (((hole - 1) / 2 - 1) / 2) ((hole - 1) / 2) (by omega) (by omega) (by omega) (by omega) (by omega) x w hx hq
            by_cases hc : c = hole
            · subst hc
              rw [List.getElem?_set_self (by omega)] at hy
              rwa [← Option.some.inj hy]
            · rw [get_set_ne _ _ (by omega)] at hy
              have hwy := e1 ((hole - 1) / 2) c (by omega) h2 h3 (by omega) hc w y hq hy
              exact h.negTrans x w y (hp x (List.mem_of_getElem? hx)) pq (hp y (List.mem_of_getElem? hy)) hxw hwy)
          (fun c y h2 h3 hy => by
            by_cases hc : c = hole
            · subst hc
              rw [List.getElem?_set_self (by omega)] at hy
              rw [← Option.some.inj hy]
              exact h.asymm pq hv hlt
            · rw [get_set_ne _ _ (by omega)] at hy
              have py := hp y (List.mem_of_getElem? hy)
              have hwy := e1 ((hole - 1) / 2) c (by omega) h2 h3 (by omega) hc w y hq hy
              exact h.negTrans v w y hv pq py (h.asymm pq hv hlt) hwy)
        exact ⟨ys, e, (hole_move xs (base + hole) (base + (hole - 1) / 2) base (base + len) v w (by omega) (by omega) (by omega) hb hq).trans m, g⟩
      · rw [h.no pq hv hlt, Outcome.bind_ok, if_neg Bool.false_ne_true]
        exact done fun _ x hx => by
          rw [hq] at hx
          rwa [← Option.some.inj hx]
    · rename_i hth
      exact done fun h' => absurd h' hth

theorem walkDown_spec (h : StrictWeak cmp P lt) (base top len : Nat) (v : α) (d : Nat) : ∀ (hole : Nat) (xs : List α), len - hole ≤ d → (∀ x ∈ xs, P x) →
    Under top hole → hole < len → base + len ≤ xs.length →
    (∀ p c, top ≤ p → c = 2 * p + 1 ∨ c = 2 * p + 2 → c < len → p ≠ hole → c ≠ hole → Edge lt base xs p c) →
    (top < hole → ∀ c, c = 2 * hole + 1 ∨ c = 2 * hole + 2 → c < len → Edge lt base xs ((hole - 1) / 2) c) →
    ∃ ys k, walkDown cmp base len xs hole = .ok (ys, k) ∧ (∀ y ∈ ys, P y) ∧ ys.length = xs.length ∧ Under top k ∧ k < len ∧ len ≤ 2 * k + 1 ∧
      Moved (xs.set (base + hole) v) (ys.set (base + k) v) base (base + len) ∧
      ∀ p c, top ≤ p → c = 2 * p + 1 ∨ c = 2 * p + 2 → c < len → p ≠ k → c ≠ k → Edge lt base ys p c := by
  induction d with
  | zero => intro hole xs h0 _ _ hl; omega
  | succ d ih =>
    intro hole xs hd hp hu hl hb e1 e2
    have ht := hu.le
    -- the step to the child `s` with the value `w`
    have edges : ∀ s w, s = 2 * hole + 1 ∨ s = 2 * hole + 2 → s < len → xs[base + s]? = some w →
        (∀ c y, c = 2 * hole + 1 ∨ c = 2 * hole + 2 → c < len → xs[base + c]? = some y → ¬lt w y) →
        (∀ p c, top ≤ p → c = 2 * p + 1 ∨ c = 2 * p + 2 → c < len → p ≠ s → c ≠ s → Edge lt base (xs.set (base + hole) w) p c) ∧
        ∀ c, c = 2 * s + 1 ∨ c = 2 * s + 2 → c < len → Edge lt base (xs.set (base + hole) w) ((s - 1) / 2) c := by
      intro s w hs hsl hw hbig
      constructor
      · intro p c h1 h2 h3 h4 h5 x y hx hy
        by_cases hph : p = hole
        · subst hph
          rw [List.getElem?_set_self (by omega)] at hx
          rw [get_set_ne _ _ (by omega)] at hy
          obtain rfl := Option.some.inj hx
          exact hbig c y h2 h3 hy
        · rw [get_set_ne _ _ (by omega)] at hx
          by_cases hc : c = hole
          · subst hc
            rw [List.getElem?_set_self (by omega)] at hy
            obtain rfl := Option.some.inj hy
            exact e2 (by omega) s hs hsl x w (by rw [show (c - 1) / 2 = p by omega]; exact hx) hw
          · rw [get_set_ne _ _ (by omega)] at hy
            exact e1 p c h1 h2 h3 hph hc x y hx hy
      · intro c h2 h3 x y hx hy
        rw [show (s - 1) / 2 = hole by omega, List.getElem?_set_self (by omega)] at hx
        rw [get_set_ne _ _ (by omega)] at hy
        obtain rfl := Option.some.inj hx
        exact e1 s c (by omega) h2 h3 (by omega) (by omega) w y hw hy
    have goDown : ∀ s w, s = 2 * hole + 1 ∨ s = 2 * hole + 2 → s < len → xs[base + s]? = some w →
        (∀ c y, c = 2 * hole + 1 ∨ c = 2 * hole + 2 → c < len → xs[base + c]? = some y → ¬lt w y) →
        ∃ ys k, (store xs (base + hole) w >>= fun ys => walkDown cmp base len ys s) = .ok (ys, k) ∧ (∀ y ∈ ys, P y) ∧ ys.length = xs.length ∧ Under top k ∧ k < len ∧
          len ≤ 2 * k + 1 ∧ Moved (xs.set (base + hole) v) (ys.set (base + k) v) base (base + len) ∧
          ∀ p c, top ≤ p → c = 2 * p + 1 ∨ c = 2 * p + 2 → c < len → p ≠ k → c ≠ k → Edge lt base ys p c := by
      intro s w hs hsl hw hbig
      have pw := hp w (List.mem_of_getElem? hw)
      rw [store, if_pos (by omega), Outcome.bind_ok]
      obtain ⟨g1, g2⟩ := edges s w hs hsl hw hbig
      obtain ⟨ys, k, r1, r2, r3, r4, r5, r6, r7, r8⟩ := ih s (xs.set (base + hole) w) (by omega) (fun x hx => by
        rcases List.mem_or_eq_of_mem_set hx with hx | rfl
        · exact hp x hx
        · exact pw) (hu.child hs) hsl (by rw [List.length_set]; exact hb) g1 (fun _ => g2)
      rw [List.length_set] at r3
      exact ⟨ys, k, r1, r2, r3, r4, r5, r6,
        (hole_move xs (base + hole) (base + s) base (base + len) v w (by omega) (by omega) (by omega) hb hw).trans r7, r8⟩
    rw [walkDown]
    split
    · rename_i hlt
      have lr : base + 2 * (hole + 1) < xs.length := by omega
      have ll : base + (2 * (hole + 1) - 1) < xs.length := by omega
      have hr := List.getElem?_eq_getElem lr
      have hl' := List.getElem?_eq_getElem ll
      have pr := hp _ (List.getElem_mem lr)
      have pl := hp _ (List.getElem_mem ll)
      rw [hr, hl']
      dsimp only
      generalize xs[base + 2 * (hole + 1)] = r at hr pr
      generalize xs[base + (2 * (hole + 1) - 1)] = l at hl' pl
      have which : ∀ c, c = 2 * hole + 1 ∨ c = 2 * hole + 2 → ∀ y, xs[base + c]? = some y → y = l ∧ c = 2 * hole + 1 ∨ y = r ∧ c = 2 * hole + 2 := by
        rintro c (rfl | rfl) y hy
        · rw [show 2 * hole + 1 = 2 * (hole + 1) - 1 by omega, hl'] at hy
          exact .inl ⟨(Option.some.inj hy).symm, rfl⟩
        · rw [show 2 * hole + 2 = 2 * (hole + 1) by omega, hr] at hy
          exact .inr ⟨(Option.some.inj hy).symm, rfl⟩
      by_cases hc : lt r l
      · rw [h.yes pr pl hc, Outcome.bind_ok, if_pos rfl]
        refine goDown (2 * (hole + 1) - 1) l (by omega) (by omega) hl' fun c y h2 h3 hy => ?_
        rcases which c h2 y hy with ⟨rfl, _⟩ | ⟨rfl, _⟩
        · exact h.irrefl y pl
        · exact h.asymm pr pl hc
      · rw [h.no pr pl hc, Outcome.bind_ok, if_neg Bool.false_ne_true]
        refine goDown (2 * (hole + 1)) r (by omega) (by omega) hr fun c y h2 h3 hy => ?_
        rcases which c h2 y hy with ⟨rfl, _⟩ | ⟨rfl, _⟩
        · exact hc
        · exact h.irrefl y pr
    · rename_i hlt
      split
      · rename_i heven
        have ll : base + (2 * (hole + 1) - 1) < xs.length := by omega
        have hl' := List.getElem?_eq_getElem ll
        have pl := hp _ (List.getElem_mem ll)
        rw [hl']
        dsimp only
        generalize xs[base + (2 * (hole + 1) - 1)] = l at hl' pl
        rw [store, if_pos (by omega), Outcome.bind_ok]
        obtain ⟨g1, _⟩ := edges (2 * (hole + 1) - 1) l (by omega) (by omega) hl' (fun c y h2 h3 hy => by
          rw [show c = 2 * (hole + 1) - 1 by omega, hl'] at hy
          rw [← Option.some.inj hy]
          exact h.irrefl l pl)
        exact ⟨_, _, rfl, fun x hx => by
          rcases List.mem_or_eq_of_mem_set hx with hx | rfl
          · exact hp x hx
          · exact pl, List.length_set .., hu.child (by omega), by omega, by omega,
          hole_move xs (base + hole) (base + (2 * (hole + 1) - 1)) base (base + len) v l (by omega) (by omega) (by omega) hb hl', g1⟩
      · exact ⟨xs, hole, rfl, hp, rfl, hu, hl, by omega, .refl _ _ _, e1⟩

theorem adjustHeap_spec (h : StrictWeak cmp P lt) (base top len : Nat) (v : α) (hv : P v) (xs : List α) (hp : ∀ x ∈ xs, P x) (hl : top < len)
    (hb : base + len ≤ xs.length)
    (e1 : ∀ p c, top < p → c = 2 * p + 1 ∨ c = 2 * p + 2 → c < len → Edge lt base xs p c) :
    ∃ ys, adjustHeap cmp base top len v xs = .ok ys ∧ Moved (xs.set (base + top) v) ys base (base + len) ∧
      ∀ p c, top ≤ p → c = 2 * p + 1 ∨ c = 2 * p + 2 → c < len → Edge lt base ys p c := by
  obtain ⟨ys, k, r1, r2, r3, r4, r5, r6, r7, r8⟩ := walkDown_spec h base top len v (len - top) top xs (Nat.le_refl _) hp .refl hl hb
    (fun p c h1 h2 h3 h4 _ => e1 p c (by omega) h2 h3) (fun h0 => absurd h0 (Nat.lt_irrefl _))
  obtain ⟨zs, q1, q2, q3⟩ := pushHeap_spec h base top len v hv k ys r2 r4 r5 (by rw [r3]; exact hb) r8 (fun _ c h2 h3 => by omega) (fun c y h2 h3 => by omega)
  exact ⟨zs, by rw [adjustHeap, r1, Outcome.bind_ok, q1], r7.trans q2, q3⟩

theorem set_self (xs : List α) (i : Nat) (v : α) (h : xs[i]? = some v) : xs.set i v = xs := by
  obtain ⟨hi, rfl⟩ := List.getElem?_eq_some_iff.mp h
  exact List.set_getElem_self hi

theorem makeHeapLoop_spec (h : StrictWeak cmp P lt) (base len n : Nat) : ∀ xs : List α, (∀ x ∈ xs, P x) → n ≤ len → base + len ≤ xs.length →
    (∀ p c, n ≤ p → c = 2 * p + 1 ∨ c = 2 * p + 2 → c < len → Edge lt base xs p c) →
    ∃ ys, makeHeapLoop cmp base len n xs = .ok ys ∧ Moved xs ys base (base + len) ∧
      ∀ p c, c = 2 * p + 1 ∨ c = 2 * p + 2 → c < len → Edge lt base ys p c := by
  induction n with
  | zero => exact fun xs _ _ _ e => ⟨xs, rfl, .refl _ _ _, fun p c => e p c (Nat.zero_le _)⟩
  | succ n ih =>
    intro xs hp hn hb e
    have ln : base + n < xs.length := by omega
    have hv := List.getElem?_eq_getElem ln
    rw [makeHeapLoop, hv]
    dsimp only
    obtain ⟨ys, q1, q2, q3⟩ := adjustHeap_spec h base n len xs[base + n] (hp _ (List.getElem_mem ln)) xs hp (by omega) hb (fun p c h1 => e p c (by omega))
    rw [set_self _ _ _ hv] at q2
    obtain ⟨zs, r1, r2, r3⟩ := ih ys (q2.all hp) (by omega) (by rw [q2.length]; exact hb) q3
    exact ⟨zs, by rw [q1, Outcome.bind_ok, r1], q2.trans r2, r3⟩

theorem root_max (h : StrictWeak cmp P lt) (base len : Nat) (xs : List α) (hp : ∀ x ∈ xs, P x) (hb : base + len ≤ xs.length)
    (e : ∀ p c, c = 2 * p + 1 ∨ c = 2 * p + 2 → c < len → Edge lt base xs p c) (x : α) (hx : xs[base]? = some x) :
    ∀ i y, i < len → xs[base + i]? = some y → ¬lt x y := by
  intro i
  induction i using Nat.strongRecOn with
  | _ i ih =>
    intro y hi hy
    by_cases h0 : i = 0
    · subst h0
      rw [Nat.add_zero, hx] at hy
      rw [← Option.some.inj hy]
      exact h.irrefl x (hp x (List.mem_of_getElem? hx))
    · have lp : base + (i - 1) / 2 < xs.length := by omega
      have hz := List.getElem?_eq_getElem lp
      exact h.negTrans x _ y (hp x (List.mem_of_getElem? hx)) (hp _ (List.getElem_mem lp)) (hp y (List.mem_of_getElem? hy))
        (ih ((i - 1) / 2) (by omega) _ (by omega) hz) (e ((i - 1) / 2) i (by omega) hi _ y hz hy)

theorem sortHeap_spec (h : StrictWeak cmp P lt) (base n : Nat) : ∀ xs : List α, (∀ x ∈ xs, P x) → base + n ≤ xs.length →
    (∀ p c, c = 2 * p + 1 ∨ c = 2 * p + 2 → c < n → Edge lt base xs p c) →
    ∃ ys, sortHeap cmp base n xs = .ok ys ∧ Moved xs ys base (base + n) ∧
      ∀ s t x y, base ≤ s → s < t → t < base + n → ys[s]? = some x → ys[t]? = some y → ¬lt y x := by
  induction n with
  | zero => exact fun xs _ _ _ => ⟨xs, rfl, .refl _ _ _, fun s t x y h1 h2 h3 => by omega⟩
  | succ n ih =>
    intro xs hp hb e
    cases n with
    | zero => exact ⟨xs, rfl, .refl _ _ _, fun s t x y h1 h2 h3 => by omega⟩
    | succ n =>
      have l0 : base < xs.length := by omega
      have ln : base + (n + 1) < xs.length := by omega
      have h0 := List.getElem?_eq_getElem l0
      have hn := List.getElem?_eq_getElem ln
      have p0 := hp _ (List.getElem_mem l0)
      have pn := hp _ (List.getElem_mem ln)
      rw [sortHeap, hn, h0]
      dsimp only
      generalize xs[base] = x at h0 p0
      generalize xs[base + (n + 1)] = v at hn pn
      rw [store, if_pos ln, Outcome.bind_ok]
      have hmax := root_max h base (n + 1 + 1) xs hp hb e x h0
      obtain ⟨ys, q1, q2, q3⟩ := adjustHeap_spec h base 0 (n + 1) v pn (xs.set (base + (n + 1)) x) (fun z hz => by
          rcases List.mem_or_eq_of_mem_set hz with hz | rfl
          · exact hp z hz
          · exact p0) (by omega) (by rw [List.length_set]; omega) (fun p c h1 h2 h3 a b ha hb' => by
          rw [get_set_ne _ _ (by omega)] at ha hb'
          exact e p c h2 (by omega) a b ha hb')
      -- first and last element change places
      have m0 : Moved xs ((xs.set (base + (n + 1)) x).set (base + 0) v) base (base + (n + 1 + 1)) := by
        have := hole_move xs (base + (n + 1)) base base (base + (n + 1 + 1)) v x (by omega) (by omega) (by omega) hb h0
        rwa [set_self xs _ v hn] at this
      have m1 := m0.trans (q2.wider (Nat.le_refl _) (by omega))
      obtain ⟨zs, r1, r2, r3⟩ := ih ys (m1.all hp) (by rw [m1.length]; omega) (fun p c h2 h3 => q3 p c (Nat.zero_le _) h2 h3)
      have m2 := m1.trans (r2.wider (Nat.le_refl _) (by omega))
      refine ⟨zs, by rw [q1, Outcome.bind_ok, r1], m2, fun s t a b h1 h2 h3 ha hb' => ?_⟩
      by_cases ht : t = base + (n + 1)
      · subst ht
        rw [r2.outside _ (by omega), q2.outside _ (by omega), get_set_ne _ _ (by omega), List.getElem?_set_self ln] at hb'
        obtain rfl := Option.some.inj hb'
        obtain ⟨u, u1, u2, u3⟩ := m2.inside s h1 (by omega)
        rw [u3] at ha
        exact hmax (u - base) a (by omega) (by rw [show base + (u - base) = u by omega]; exact ha)
      · exact r3 s t a b h1 h2 (by omega) ha hb'

/-- **C157** (full): the heap sort of libstdc++ sorts its range and leaves the rest of the array alone. -/
theorem C157_heapSort (h : StrictWeak cmp P lt) : SortsRange P lt (heapSort cmp) := by
  intro xs a b hp hab hb
  have hn : a + (b - a) = b := by omega
  obtain ⟨ys, q1, q2, q3⟩ : ∃ ys, makeHeap cmp a (b - a) xs = .ok ys ∧ Moved xs ys a (a + (b - a)) ∧
      ∀ p c, c = 2 * p + 1 ∨ c = 2 * p + 2 → c < b - a → Edge lt a ys p c := by
    rw [makeHeap]
    split
    · exact ⟨xs, rfl, .refl _ _ _, fun p c h2 h3 => by omega⟩
    · exact makeHeapLoop_spec h a (b - a) _ xs hp (by omega) (by omega) fun p c h1 h2 h3 => by omega
  obtain ⟨zs, r1, r2, r3⟩ := sortHeap_spec h a (b - a) ys (q2.all hp) (by rw [q2.length]; omega) q3
  rw [hn] at q2 r2 r3
  exact ⟨zs, by rw [heapSort, q1, Outcome.bind_ok, r1], q2.trans r2, r3⟩

/-- **C157** (full): `std::sort` with a comparison as the standard asks for, without any assumption: the same elements in order, for arrays of every length. -/
theorem C157_std_sort (h : StrictWeak cmp P lt) (xs : List α) (hp : ∀ x ∈ xs, P x) :
    ∃ ys, sort cmp (heapSort cmp) xs = .ok ys ∧ ys.Perm xs ∧ Sorted lt ys :=
  C157_sort h _ (C157_heapSort h) xs hp

/-- **C157** (full): UUIDs, characters, and versions with `operator>`, by the whole of `std::sort`. -/
theorem C157_std_values (big : Bool) :
    (∀ xs, (∀ x ∈ xs, x.length = 16) →
      ∃ ys, sort uuidLess (heapSort uuidLess) xs = .ok ys ∧ ys.Perm xs ∧ ys.Pairwise fun a b => ¬Strings.lexLt (Uuid.text b) (Uuid.text a)) ∧
    (∀ xs : List Chr, (∀ x ∈ xs, x.bytes.length = 4) →
      ∃ ys, sort (charLess big) (heapSort (charLess big)) xs = .ok ys ∧ ys.Perm xs ∧ ys.Pairwise fun a b => a.value big ≤ b.value big) ∧
    (∀ xs, ∃ ys, sort versionGreater (heapSort versionGreater) xs = .ok ys ∧ ys.Perm xs ∧ ys.Pairwise fun a b => ¬Version.Precedes a b) :=
  ⟨(C157_values big).1 _ (C157_heapSort uuid_weak), (C157_values big).2.1 _ (C157_heapSort (char_weak big)),
    (C157_values big).2.2 _ (C157_heapSort version_weak)⟩

/-- **C157** (partial: names that are not empty, of characters 1..127), strings by the whole of `std::sort`. -/
theorem C157_std_string_partial (xs : List (List Byte)) (hp : ∀ x ∈ xs, Name x) :
    ∃ ys, sort stringLess (heapSort stringLess) xs = .ok ys ∧ ys.Perm xs ∧ ys.Pairwise fun a b => ¬Strings.shortlexLt b a :=
  C157_string_partial _ (C157_heapSort string_weak) xs hp

example : ∃ xs : List (List Byte), 1 < xs.length ∧ ∀ x ∈ xs, Name x := ⟨[[98#8], [97#8, 98#8]], by decide, by simp [Name, StringView.Plain]⟩

/-- **C157** (full): when the new element is less than all before it the unguarded insertion reads before the array: it needs an element that stops it. -/
theorem C157_unguarded (val : α) (xs : List α) (hx : ∀ x ∈ xs, cmp val x = .ok true) : unguardedInsert cmp val xs = .ub := by
  induction xs with
  | nil => rfl
  | cons x xs ih =>
    rw [unguardedInsert, hx x List.mem_cons_self, Outcome.bind_ok, if_pos rfl, ih fun y hy => hx y (List.mem_cons_of_mem _ hy), Outcome.bind_ub]

example : unguardedInsert (fun a b : Nat => .ok (decide (a < b))) 1 [4, 3, 2] = .ub ∧
    unguardedInsert (fun a b : Nat => .ok (decide (a < b))) 1 [4, 3, 0] = .ok [4, 3, 1, 0] := by decide

/-- Ten numbers by heap sort alone, the first and the last left alone. -/
example : heapSort (fun a b : Nat => .ok (decide (a < b))) [9, 3, 7, 1, 8, 8, 2, 5, 0, 4, 6, 1] 1 11 = .ok [9, 0, 1, 2, 3, 4, 5, 6, 7, 8, 8, 1] := by
  decide +kernel

end Solace.Sorting
