import Verif.Spec.Ordered
import Verif.Props.C37_C39_Uuid
import Verif.Props.C34_C36_Exact
import Verif.Props.C71_C74_Char
import Verif.Props.C21_C28_StringView
/-
C156: values of the library as keys of ordered containers.
-/
namespace Solace.Ordered

section generic
variable {α : Type} {cmp : α → α → Outcome Bool} {P : α → Prop} {lt : α → α → Prop}

theorem StrictWeak.yes (h : StrictWeak cmp P lt) {a b : α} (ha : P a) (hb : P b) (hl : lt a b) : cmp a b = .ok true := by
  obtain ⟨r, e, hr⟩ := h.answers a b ha hb
  rw [e, hr.mpr hl]

theorem StrictWeak.no (h : StrictWeak cmp P lt) {a b : α} (ha : P a) (hb : P b) (hl : ¬lt a b) : cmp a b = .ok false := by
  obtain ⟨r, e, hr⟩ := h.answers a b ha hb
  rw [e]
  cases r with
  | false => rfl
  | true => exact absurd (hr.mp rfl) hl

theorem StrictWeak.asymm (h : StrictWeak cmp P lt) {a b : α} (ha : P a) (hb : P b) (hl : lt a b) : ¬lt b a :=
  fun h' => h.irrefl a ha (h.trans a b a ha hb ha hl h')

/-- Strictly ascending keys of the kind. -/
def Asc (P : α → Prop) (lt : α → α → Prop) (xs : List α) : Prop := (∀ x ∈ xs, P x) ∧ xs.Pairwise lt

theorem asc_left {xs ys : List α} (h : Asc P lt (xs ++ ys)) : Asc P lt xs :=
  ⟨fun x hx => h.1 x (List.mem_append_left _ hx), (List.pairwise_append.mp h.2).1⟩

theorem asc_right {xs ys : List α} (h : Asc P lt (xs ++ ys)) : Asc P lt ys :=
  ⟨fun x hx => h.1 x (List.mem_append_right _ hx), (List.pairwise_append.mp h.2).2.1⟩

/-- The search for the first key that is not before `k`. -/
theorem lower_spec (h : StrictWeak cmp P lt) {k : α} (hk : P k) : ∀ (t : Tree α) (y : Option α), Asc P lt t.keys →
    ∃ A B, t.keys = A ++ B ∧ (∀ a ∈ A, lt a k) ∧ (∀ b ∈ B, ¬lt b k) ∧ lower cmp k t y = .ok (B.head?.or y) := by
  intro t
  induction t with
  | leaf => intro y _; exact ⟨[], [], rfl, nofun, nofun, rfl⟩
  | node l x r ihl ihr =>
    intro y ha
    rw [Tree.keys] at ha
    have hx : P x := ha.1 x (by simp)
    have hp := List.pairwise_append.mp ha.2
    have hc := List.pairwise_cons.mp hp.2.1
    by_cases hl : lt x k
    · obtain ⟨A, B, e, h1, h2, h3⟩ := ihr y (asc_right (xs := l.keys ++ [x]) (by simpa using ha))
      refine ⟨l.keys ++ x :: A, B, by rw [Tree.keys, e]; simp, ?_, h2, ?_⟩
      · intro a hm
        rcases List.mem_append.mp hm with hm | hm
        · exact h.trans a x k (ha.1 a (List.mem_append_left _ hm)) hx hk (hp.2.2 a hm x (by simp)) hl
        · rcases List.mem_cons.mp hm with rfl | hm
          · exact hl
          · exact h1 a hm
      · rw [lower, h.yes hx hk hl, Outcome.bind_ok, if_pos rfl, h3]
    · obtain ⟨A, B, e, h1, h2, h3⟩ := ihl (some x) (asc_left ha)
      refine ⟨A, B ++ x :: r.keys, by rw [Tree.keys, e]; simp, h1, ?_, ?_⟩
      · intro b hm
        rcases List.mem_append.mp hm with hm | hm
        · exact h2 b hm
        · rcases List.mem_cons.mp hm with rfl | hm
          · exact hl
          · intro hbk
            exact hl (h.trans x b k hx (ha.1 b (by simp [hm])) hk (hc.1 b hm) hbk)
      · rw [lower, h.no hx hk hl, Outcome.bind_ok, if_neg Bool.false_ne_true, h3]
        cases B <;> rfl

theorem find_spec (h : StrictWeak cmp P lt) {k : α} (hk : P k) (t : Tree α) (ha : Asc P lt t.keys) :
    ∃ r, find cmp k t = .ok r ∧ ∀ j, r = some j ↔ j ∈ t.keys ∧ Same lt j k := by
  obtain ⟨A, B, e, h1, h2, h3⟩ := lower_spec h hk t none ha
  rw [find, h3, Outcome.bind_ok]
  rw [e] at ha
  have memP : ∀ x, x ∈ A ++ B → P x := ha.1
  cases B with
  | nil =>
    refine ⟨none, rfl, fun j => ⟨nofun, ?_⟩⟩
    rintro ⟨hj, hs, -⟩
    rw [e, List.append_nil] at hj
    exact absurd (h1 j hj) hs
  | cons b B =>
    have hb : P b := memP b (by simp)
    have hasc := (List.pairwise_cons.mp (List.pairwise_append.mp ha.2).2.1).1
    simp only [List.head?_cons, Option.some_or]
    by_cases hl : lt k b
    · rw [h.yes hk hb hl]
      refine ⟨none, rfl, fun j => ⟨nofun, ?_⟩⟩
      rintro ⟨hj, hs1, hs2⟩
      rw [e] at hj
      rcases List.mem_append.mp hj with hj | hj
      · exact absurd (h1 j hj) hs1
      · rcases List.mem_cons.mp hj with rfl | hj
        · exact absurd hl hs2
        · exact absurd (h.trans k b j hk hb (memP j (by simp [hj])) hl (hasc j hj)) hs2
    · rw [h.no hk hb hl]
      refine ⟨some b, rfl, fun j => ⟨?_, ?_⟩⟩
      · intro hj
        obtain rfl := Option.some.inj hj
        exact ⟨by rw [e]; simp, h2 b (by simp), hl⟩
      · rintro ⟨hj, hs1, hs2⟩
        rw [e] at hj
        rcases List.mem_append.mp hj with hj | hj
        · exact absurd (h1 j hj) hs1
        · rcases List.mem_cons.mp hj with rfl | hj
          · rfl
          · exact absurd (hasc j hj) (h.negTrans b k j hb hk (memP j (by simp [hj])) (h2 b (by simp)) hs2)

theorem insert_spec (h : StrictWeak cmp P lt) {k : α} (hk : P k) : ∀ (t : Tree α) (p : Option α), Asc P lt t.keys → (∀ q, p = some q → P q) →
    ∃ A B, t.keys = A ++ B ∧ (∀ a ∈ A, ¬lt k a) ∧ (∀ b ∈ B, lt k b) ∧
      ∃ r, insert cmp k t p = .ok r ∧
        match A.getLast?.or p with
        | some q => (lt q k → ∃ t', r = some t' ∧ t'.keys = A ++ k :: B) ∧ (¬lt q k → r = none)
        | none => ∃ t', r = some t' ∧ t'.keys = A ++ k :: B := by
  intro t
  induction t with
  | leaf =>
    intro p _ hp
    refine ⟨[], [], rfl, nofun, nofun, ?_⟩
    cases p with
    | none => exact ⟨_, rfl, _, rfl, rfl⟩
    | some q =>
      have hq := hp q rfl
      by_cases hl : lt q k
      · exact ⟨_, by rw [insert, h.yes hq hk hl]; rfl, fun _ => ⟨_, rfl, rfl⟩, fun n => absurd hl n⟩
      · exact ⟨_, by rw [insert, h.no hq hk hl]; rfl, fun n => absurd n hl, fun _ => rfl⟩
  | node l x r ihl ihr =>
    intro p ha hp
    rw [Tree.keys] at ha
    have hx : P x := ha.1 x (by simp)
    have hpw := List.pairwise_append.mp ha.2
    have hc := List.pairwise_cons.mp hpw.2.1
    by_cases hl : lt k x
    · obtain ⟨A, B, e, h1, h2, res, h3, h4⟩ := ihl p (asc_left ha) hp
      refine ⟨A, B ++ x :: r.keys, by rw [Tree.keys, e]; simp, h1, ?_, res.map fun l' => .node l' x r, ?_, ?_⟩
      · intro b hm
        rcases List.mem_append.mp hm with hm | hm
        · exact h2 b hm
        · rcases List.mem_cons.mp hm with rfl | hm
          · exact hl
          · exact h.trans k x b hk hx (ha.1 b (by simp [hm])) hl (hc.1 b hm)
      · rw [insert, h.yes hk hx hl, Outcome.bind_ok, if_pos rfl, h3]; rfl
      · split <;> rename_i hq <;> rw [hq] at h4 <;> dsimp only at h4
        · refine ⟨fun hlt => ?_, fun hn => by rw [h4.2 hn]; rfl⟩
          obtain ⟨t', rfl, ht⟩ := h4.1 hlt
          exact ⟨_, rfl, by rw [Tree.keys, ht]; simp⟩
        · obtain ⟨t', rfl, ht⟩ := h4
          exact ⟨_, rfl, by rw [Tree.keys, ht]; simp⟩
    · obtain ⟨A, B, e, h1, h2, res, h3, h4⟩ := ihr (some x) (asc_right (xs := l.keys ++ [x]) (by simpa using ha)) (by rintro q hq; cases hq; exact hx)
      refine ⟨l.keys ++ x :: A, B, by rw [Tree.keys, e]; simp, ?_, h2, res.map fun r' => .node l x r', ?_, ?_⟩
      · intro a hm
        rcases List.mem_append.mp hm with hm | hm
        · intro hka
          exact hl (h.trans k a x hk (ha.1 a (List.mem_append_left _ hm)) hx hka (hpw.2.2 a hm x (by simp)))
        · rcases List.mem_cons.mp hm with rfl | hm
          · exact hl
          · exact h1 a hm
      · rw [insert, h.no hk hx hl, Outcome.bind_ok, if_neg Bool.false_ne_true, h3]; rfl
      · have hlast : (l.keys ++ x :: A).getLast?.or p = A.getLast?.or (some x) := by
          rw [List.getLast?_append]
          cases A <;> simp [List.getLast?_cons]
        rw [hlast]
        split <;> rename_i hq <;> rw [hq] at h4 <;> dsimp only at h4
        · refine ⟨fun hlt => ?_, fun hn => by rw [h4.2 hn]; rfl⟩
          obtain ⟨t', rfl, ht⟩ := h4.1 hlt
          exact ⟨_, rfl, by rw [Tree.keys, ht]; simp⟩
        · obtain ⟨t', rfl, ht⟩ := h4
          exact ⟨_, rfl, by rw [Tree.keys, ht]; simp⟩

theorem StrictWeak.same_trans (h : StrictWeak cmp P lt) {a b c : α} (ha : P a) (hb : P b) (hc : P c) (h1 : Same lt a b) (h2 : Same lt b c) : Same lt a c :=
  ⟨h.negTrans a b c ha hb hc h1.1 h2.1, h.negTrans c b a hc hb ha h2.2 h1.2⟩

/-- What an insertion does with a tree in order. -/
theorem insert_root (h : StrictWeak cmp P lt) {k : α} (hk : P k) (t : Tree α) (ha : Asc P lt t.keys) :
    (∃ q ∈ t.keys, Same lt q k) ∧ insert cmp k t none = .ok none ∨
    (¬∃ q ∈ t.keys, Same lt q k) ∧ ∃ t', insert cmp k t none = .ok (some t') ∧ Asc P lt t'.keys ∧ ∀ x, x ∈ t'.keys ↔ x = k ∨ x ∈ t.keys := by
  obtain ⟨A, B, e, h1, h2, r, h3, h4⟩ := insert_spec h hk t none ha nofun
  rw [e] at ha
  have hpw := List.pairwise_append.mp ha.2
  have memP : ∀ x, x ∈ A ++ B → P x := ha.1
  have good : (∀ a ∈ A, lt a k) → ∀ t' : Tree α, t'.keys = A ++ k :: B →
      (¬∃ q ∈ t.keys, Same lt q k) ∧ Asc P lt t'.keys ∧ ∀ x, x ∈ t'.keys ↔ x = k ∨ x ∈ t.keys := by
    intro hA t' ht
    refine ⟨?_, ⟨?_, ?_⟩, ?_⟩
    · rintro ⟨q, hq, hs⟩
      rw [e] at hq
      rcases List.mem_append.mp hq with hq | hq
      · exact hs.1 (hA q hq)
      · exact hs.2 (h2 q hq)
    · intro x hx
      rw [ht] at hx
      rcases List.mem_append.mp hx with hx | hx
      · exact memP x (List.mem_append_left _ hx)
      · rcases List.mem_cons.mp hx with rfl | hx
        · exact hk
        · exact memP x (List.mem_append_right _ hx)
    · rw [ht]
      refine List.pairwise_append.mpr ⟨hpw.1, List.pairwise_cons.mpr ⟨h2, hpw.2.1⟩, ?_⟩
      intro a ham b hbm
      rcases List.mem_cons.mp hbm with rfl | hbm
      · exact hA a ham
      · exact hpw.2.2 a ham b hbm
    · intro x
      rw [ht, e]
      simp only [List.mem_append, List.mem_cons]
      constructor
      · rintro (hx | hx | hx)
        · exact .inr (.inl hx)
        · exact .inl hx
        · exact .inr (.inr hx)
      · rintro (hx | hx | hx)
        · exact .inr (.inl hx)
        · exact .inl hx
        · exact .inr (.inr hx)
  rw [Option.or_none] at h4
  cases hl : A.getLast? with
  | none =>
    rw [hl] at h4
    obtain ⟨t', rfl, ht⟩ := h4
    have hA : A = [] := List.getLast?_eq_none_iff.mp hl
    obtain ⟨g1, g2, g3⟩ := good (by rw [hA]; exact nofun) t' ht
    exact .inr ⟨g1, t', h3, g2, g3⟩
  | some q =>
    rw [hl] at h4
    dsimp only at h4
    obtain ⟨A', rfl⟩ := List.getLast?_eq_some_iff.mp hl
    have hq : P q := memP q (by simp)
    by_cases hlt : lt q k
    · obtain ⟨t', rfl, ht⟩ := h4.1 hlt
      obtain ⟨g1, g2, g3⟩ := good (by
        intro a ham
        rcases List.mem_append.mp ham with hm | hm
        · exact h.trans a q k (memP a (List.mem_append_left _ ham)) hq hk ((List.pairwise_append.mp hpw.1).2.2 a hm q (by simp)) hlt
        · rw [List.mem_singleton.mp hm]; exact hlt) t' ht
      exact .inr ⟨g1, t', h3, g2, g3⟩
    · rw [h4.2 hlt] at h3
      exact .inl ⟨⟨q, by rw [e]; simp, hlt, h1 q (by simp)⟩, h3⟩

theorem built_asc (h : StrictWeak cmp P lt) {ks : List α} {t : Tree α} (hb : Built cmp ks t) : (∀ k ∈ ks, P k) →
    Asc P lt t.keys ∧ (∀ x ∈ t.keys, x ∈ ks) ∧ ∀ k ∈ ks, ∃ x ∈ t.keys, Same lt x k := by
  induction hb with
  | empty => exact fun _ => ⟨⟨nofun, .nil⟩, nofun, nofun⟩
  | @added ks t t' k _ hi ih =>
    intro hp
    obtain ⟨h1, h2, h3⟩ := ih fun x hx => hp x (List.mem_append_left _ hx)
    have hk : P k := hp k (by simp)
    rcases insert_root h hk t h1 with ⟨_, e⟩ | ⟨_, t2, e, g1, g2⟩
    · rw [e] at hi; cases hi
    · rw [e] at hi
      injection hi with hi
      obtain rfl := Option.some.inj hi
      refine ⟨g1, fun x hx => ?_, fun x hx => ?_⟩
      · rcases (g2 x).mp hx with rfl | hx
        · simp
        · exact List.mem_append_left _ (h2 x hx)
      · rcases List.mem_append.mp hx with hx | hx
        · obtain ⟨y, hy, hs⟩ := h3 x hx
          exact ⟨y, (g2 y).mpr (.inr hy), hs⟩
        · obtain rfl := List.mem_singleton.mp hx
          exact ⟨x, (g2 x).mpr (.inl rfl), h.irrefl x hk, h.irrefl x hk⟩
  | @refused ks t k _ hi ih =>
    intro hp
    obtain ⟨h1, h2, h3⟩ := ih fun x hx => hp x (List.mem_append_left _ hx)
    have hk : P k := hp k (by simp)
    rcases insert_root h hk t h1 with ⟨hq, e⟩ | ⟨_, t2, e, g1, g2⟩
    · refine ⟨h1, fun x hx => List.mem_append_left _ (h2 x hx), fun x hx => ?_⟩
      rcases List.mem_append.mp hx with hx | hx
      · exact h3 x hx
      · obtain rfl := List.mem_singleton.mp hx
        exact hq
    · rw [e] at hi; cases hi
  | @shape ks t t' _ he ih =>
    intro hp
    rw [he]
    exact ih hp

theorem built_exists (h : StrictWeak cmp P lt) (ks : List α) : (∀ k ∈ ks, P k) → ∃ t, Built cmp ks t := by
  suffices hr : ∀ rs : List α, (∀ k ∈ rs.reverse, P k) → ∃ t, Built cmp rs.reverse t by
    have := hr ks.reverse
    rwa [List.reverse_reverse] at this
  clear ks
  intro rs
  induction rs with
  | nil => exact fun _ => ⟨_, .empty⟩
  | cons k rs ih =>
    rw [List.reverse_cons]
    generalize rs.reverse = ks at *
    intro hp
    obtain ⟨t, ht⟩ := ih fun x hx => hp x (List.mem_append_left _ hx)
    rcases insert_root h (hp k (by simp)) t (built_asc h ht fun x hx => hp x (List.mem_append_left _ hx)).1 with ⟨_, e⟩ | ⟨_, t2, e, _⟩
    · exact ⟨t, .refused ht e⟩
    · exact ⟨t2, .added ht e⟩

/-- **C156**: with a comparison as the standard asks for, a container into which the keys were put holds them in order, one of each kind; it finds
exactly these, and takes exactly the others. -/
theorem C156_container (h : StrictWeak cmp P lt) (ks : List α) (hp : ∀ k ∈ ks, P k) :
    (∃ t, Built cmp ks t) ∧ ∀ t, Built cmp ks t → t.keys.Pairwise lt ∧ (∀ x ∈ t.keys, x ∈ ks) ∧ ∀ k, P k →
      (∃ r, find cmp k t = .ok r ∧ (r = none ↔ ¬∃ k' ∈ ks, Same lt k' k) ∧ ∀ j, r = some j → j ∈ ks ∧ Same lt j k) ∧
      ∃ r, insert cmp k t none = .ok r ∧ (r = none ↔ ∃ k' ∈ ks, Same lt k' k) := by
  refine ⟨built_exists h ks hp, fun t ht => ?_⟩
  obtain ⟨h1, h2, h3⟩ := built_asc h ht hp
  refine ⟨h1.2, h2, fun k hk => ?_⟩
  have hmem : (∃ q ∈ t.keys, Same lt q k) ↔ ∃ k' ∈ ks, Same lt k' k := by
    constructor
    · rintro ⟨q, hq, hs⟩; exact ⟨q, h2 q hq, hs⟩
    · rintro ⟨k', hk', hs⟩
      obtain ⟨x, hx, hxs⟩ := h3 k' hk'
      exact ⟨x, hx, h.same_trans (h1.1 x hx) (hp k' hk') hk hxs hs⟩
  constructor
  · obtain ⟨r, e, hr⟩ := find_spec h hk t h1
    refine ⟨r, e, ?_, fun j hj => ?_⟩
    · rw [← hmem]
      constructor
      · rintro rfl ⟨q, hq⟩
        exact nomatch (hr q).mpr hq
      · intro hn
        cases r with
        | none => rfl
        | some j => exact absurd ⟨j, (hr j).mp rfl⟩ hn
    · obtain ⟨a, b⟩ := (hr j).mp hj
      exact ⟨h2 j a, b⟩
  · rw [← hmem]
    rcases insert_root h hk t h1 with ⟨hq, e⟩ | ⟨hq, t', e, _⟩
    · exact ⟨none, e, fun _ => hq, fun _ => rfl⟩
    · exact ⟨some t', e, nofun, fun hq' => absurd hq' hq⟩

/-- The search in a sorted array. -/
theorem bisect_spec (xs : List α) (k : α) (n : Nat) (hn : n ≤ xs.length) (h1 : ∀ i x, i < n → xs[i]? = some x → cmp x k = .ok true)
    (h2 : ∀ i x, n ≤ i → xs[i]? = some x → cmp x k = .ok false) :
    ∀ len first, first ≤ n → n ≤ first + len → first + len ≤ xs.length → bisect cmp xs k first len = .ok n := by
  intro len
  induction len using Nat.strongRecOn with
  | _ len ih =>
    intro first hf hl hx
    rw [bisect]
    split
    · congr 1; omega
    · rename_i h0
      have hi : first + len / 2 < xs.length := by omega
      rw [List.getElem?_eq_getElem hi]
      dsimp only
      rcases Nat.lt_or_ge (first + len / 2) n with hlt | hge
      · rw [h1 _ _ hlt (List.getElem?_eq_getElem hi), Outcome.bind_ok, if_pos rfl]
        exact ih _ (by omega) _ (by omega) (by omega) (by omega)
      · rw [h2 _ _ hge (List.getElem?_eq_getElem hi), Outcome.bind_ok, if_neg Bool.false_ne_true]
        exact ih _ (by omega) _ (by omega) (by omega) (by omega)

/-- A comparison of numbers by their tens: 12 and 17 are taken for the same. -/
example : StrictWeak (fun a b : Nat => .ok (decide (a / 10 < b / 10))) (fun _ => True) (fun a b => a / 10 < b / 10) :=
  ⟨fun _ _ _ _ => ⟨_, rfl, decide_eq_true_iff⟩, fun _ _ => by omega, fun _ _ _ _ _ _ => by omega, fun _ _ _ _ _ _ => by omega⟩

theorem sorted_split (h : StrictWeak cmp P lt) {k : α} (hk : P k) (xs : List α) (hp : ∀ x ∈ xs, P x) (hs : Sorted lt xs) :
    ∃ A B, xs = A ++ B ∧ (∀ a ∈ A, lt a k) ∧ ∀ b ∈ B, ¬lt b k := by
  induction xs with
  | nil => exact ⟨[], [], rfl, nofun, nofun⟩
  | cons x xs ih =>
    obtain ⟨h1, h2⟩ := List.pairwise_cons.mp hs
    by_cases hx : lt x k
    · obtain ⟨A, B, e, ha, hb⟩ := ih (fun y hy => hp y (List.mem_cons_of_mem _ hy)) h2
      refine ⟨x :: A, B, by rw [e]; rfl, fun a ha' => ?_, hb⟩
      rcases List.mem_cons.mp ha' with rfl | ha'
      · exact hx
      · exact ha a ha'
    · refine ⟨[], x :: xs, rfl, nofun, fun b hb => ?_⟩
      rcases List.mem_cons.mp hb with rfl | hb
      · exact hx
      · exact h.negTrans b x k (hp b (List.mem_cons_of_mem _ hb)) (hp x List.mem_cons_self) hk (h1 b hb) hx

/-- **C156**: the search in a sorted array finds exactly the keys in it. -/
theorem C156_binarySearch (h : StrictWeak cmp P lt) (xs : List α) (k : α) (hk : P k) (hp : ∀ x ∈ xs, P x) (hs : Sorted lt xs) :
    ∃ r, binarySearch cmp xs k = .ok r ∧ (r = true ↔ ∃ x ∈ xs, Same lt x k) := by
  obtain ⟨A, B, rfl, ha, hb⟩ := sorted_split h hk xs hp hs
  have e : bisect cmp (A ++ B) k 0 (A ++ B).length = .ok A.length := by
    refine bisect_spec _ _ _ (by rw [List.length_append]; omega) ?_ ?_ _ _ (by omega) (by rw [List.length_append]; omega) (by omega)
    · intro i x hi hx
      rw [List.getElem?_append_left hi] at hx
      have := List.mem_of_getElem? hx
      exact h.yes (hp x (List.mem_append_left _ this)) hk (ha x this)
    · intro i x hi hx
      rw [List.getElem?_append_right hi] at hx
      have := List.mem_of_getElem? hx
      exact h.no (hp x (List.mem_append_right _ this)) hk (hb x this)
  unfold binarySearch
  rw [e, Outcome.bind_ok, List.getElem?_append_right (Nat.le_refl _), Nat.sub_self]
  cases B with
  | nil =>
    refine ⟨false, rfl, nofun, ?_⟩
    rintro ⟨x, hx, hs'⟩
    rw [List.append_nil] at hx
    exact absurd (ha x hx) hs'.1
  | cons b B =>
    have hbm : b ∈ A ++ b :: B := by simp
    dsimp only [List.getElem?_cons_zero]
    by_cases hlt : lt k b
    · rw [h.yes hk (hp b hbm) hlt]
      refine ⟨false, rfl, nofun, ?_⟩
      rintro ⟨x, hx, hs'⟩
      rcases List.mem_append.mp hx with hxa | hxb
      · exact absurd (ha x hxa) hs'.1
      · rcases List.mem_cons.mp hxb with rfl | hxb
        · exact absurd hlt hs'.2
        · have hnb := (List.pairwise_cons.mp (List.pairwise_append.mp hs).2.1).1 x hxb
          exact absurd hlt (h.negTrans k x b hk (hp x hx) (hp b hbm) hs'.2 hnb)
    · rw [h.no hk (hp b hbm) hlt]
      exact ⟨true, rfl, fun _ => ⟨b, hbm, hb b (by simp), hlt⟩, fun _ => rfl⟩

end generic

/-! ### UUIDs -/

theorem uuid_weak : StrictWeak uuidLess (fun u => u.length = 16) fun a b => Uuid.lt a b = true where
  answers a b _ _ := ⟨_, rfl, Iff.rfl⟩
  irrefl a ha := by rw [(Uuid.C39_strict_total_order a a a ha ha ha).1]; exact nofun
  trans a b c ha hb hc := (Uuid.C39_strict_total_order a b c ha hb hc).2.1
  negTrans a b c ha hb hc h1 h2 h3 := by
    have g := Uuid.C39_strict_total_order
    rcases (g a b c ha hb hc).2.2.1 with h | h | h
    · exact h1 h
    · rw [(g a b c ha hb hc).2.2.2.1.mp h] at h3
      exact h2 h3
    · exact h2 ((g b a c hb ha hc).2.1 h h3)

theorem uuid_same {a b : List Byte} (ha : a.length = 16) (hb : b.length = 16) (h : Same (fun a b => Uuid.lt a b = true) a b) : a = b := by
  have g := Uuid.C39_strict_total_order a b a ha hb ha
  rcases g.2.2.1 with e | e | e
  · exact absurd e h.1
  · exact g.2.2.2.1.mp e
  · exact absurd e h.2

/-- **C156**, UUIDs: a set of them holds each that was put into it once, in the order of their texts, and finds exactly these; so does a search in a sorted array. -/
theorem C156_uuid (ks : List (List Byte)) (hk : ∀ k ∈ ks, k.length = 16) :
    (∃ t, Built uuidLess ks t) ∧
    (∀ t, Built uuidLess ks t → (t.keys.Pairwise fun a b => Strings.lexLt (Uuid.text a) (Uuid.text b)) ∧ (∀ x, x ∈ t.keys ↔ x ∈ ks) ∧
      ∀ k, k.length = 16 → find uuidLess k t = .ok (if k ∈ ks then some k else none)) ∧
    ∀ k, k.length = 16 → Sorted (fun a b => Strings.lexLt (Uuid.text a) (Uuid.text b)) ks → binarySearch uuidLess ks k = .ok (decide (k ∈ ks)) := by
  have hlt : ∀ a b : List Byte, a.length = 16 → b.length = 16 → (Uuid.lt a b = true ↔ Strings.lexLt (Uuid.text a) (Uuid.text b)) :=
    fun a b ha hb => (Uuid.C39_strict_total_order a b a ha hb ha).2.2.2.2.2.2.2
  refine ⟨(C156_container uuid_weak ks hk).1, fun t ht => ?_, fun k hk' hs => ?_⟩
  · obtain ⟨h1, h2, h3⟩ := built_asc uuid_weak ht hk
    have hm : ∀ x, x ∈ t.keys ↔ x ∈ ks := by
      intro x
      refine ⟨h2 x, fun hx => ?_⟩
      obtain ⟨y, hy, hs⟩ := h3 x hx
      rwa [← uuid_same (h1.1 y hy) (hk x hx) hs]
    refine ⟨List.Pairwise.imp_of_mem (fun {a b} ha hb h => (hlt a b (h1.1 a ha) (h1.1 b hb)).mp h) h1.2, hm, fun k hk' => ?_⟩
    obtain ⟨r, e, hr⟩ := find_spec uuid_weak hk' t h1
    rw [e]
    split
    · rename_i hmem
      rw [(hr k).mpr ⟨(hm k).mpr hmem, uuid_weak.irrefl k hk', uuid_weak.irrefl k hk'⟩]
    · rename_i hmem
      cases r with
      | none => rfl
      | some j =>
        obtain ⟨a, b⟩ := (hr j).mp rfl
        exact absurd ((uuid_same (h1.1 j a) hk' b) ▸ h2 j a) hmem
  · have hs' : Sorted (fun a b => Uuid.lt a b = true) ks :=
      List.Pairwise.imp_of_mem (fun {a b} ha hb h h' => h ((hlt b a (hk b hb) (hk a ha)).mp h')) hs
    obtain ⟨r, e, hr⟩ := C156_binarySearch uuid_weak ks k hk' hk hs'
    rw [e]
    congr 1
    rw [Bool.eq_iff_iff, hr, decide_eq_true_iff]
    constructor
    · rintro ⟨x, hx, hs⟩
      rwa [← uuid_same (hk x hx) hk' hs]
    · exact fun hx => ⟨k, hx, uuid_weak.irrefl k hk', uuid_weak.irrefl k hk'⟩

example : Built uuidLess [List.replicate 16 2#8, List.replicate 16 1#8, List.replicate 16 2#8]
    (.node (.node .leaf (List.replicate 16 1#8) .leaf) (List.replicate 16 2#8) .leaf) :=
  .refused (ks := [_, _]) (.added (ks := [_]) (.added (ks := []) .empty rfl) (by decide +kernel)) (by decide +kernel)

/-! ### Versions -/

theorem version_weak : StrictWeak versionGreater (fun _ => True) fun a b => Version.Precedes b a where
  answers a b _ _ := ⟨_, rfl, Version.gt_iff a b⟩
  irrefl a _ := by unfold Version.Precedes; omega
  trans a b c _ _ _ := by unfold Version.Precedes; omega
  negTrans a b c _ _ _ := by unfold Version.Precedes; omega

theorem version_same (a b : Version) : Same (fun a b => Version.Precedes b a) a b ↔ Version.SameNumbers a b := by
  unfold Same Version.Precedes Version.SameNumbers
  omega

/-- **C156**, versions compared with `std::greater`: a set holds one version for each three numbers that were put into it, the highest first, and finds by the
numbers alone. -/
theorem C156_version_greater (ks : List Version) :
    (∃ t, Built versionGreater ks t) ∧ ∀ t, Built versionGreater ks t → (t.keys.Pairwise fun a b => Version.Precedes b a) ∧ (∀ x ∈ t.keys, x ∈ ks) ∧ ∀ k,
      (∃ r, find versionGreater k t = .ok r ∧ (r = none ↔ ¬∃ k' ∈ ks, Version.SameNumbers k' k) ∧ ∀ j, r = some j → j ∈ ks ∧ Version.SameNumbers j k) ∧
      ∃ r, insert versionGreater k t none = .ok r ∧ (r = none ↔ ∃ k' ∈ ks, Version.SameNumbers k' k) := by
  have h := C156_container version_weak ks fun _ _ => trivial
  simp only [version_same] at h
  exact ⟨h.1, fun t ht => ⟨(h.2 t ht).1, (h.2 t ht).2.1, fun k => (h.2 t ht).2.2 k trivial⟩⟩

/-- 1.2.3-a and 1.2.3-b are one key. -/
example : Built versionGreater [⟨1, 2, 3, [0x61#8], []⟩, ⟨1, 2, 3, [0x62#8], []⟩] (.node .leaf ⟨1, 2, 3, [0x61#8], []⟩ .leaf) :=
  .refused (ks := [_]) (.added (ks := []) .empty rfl) (by decide +kernel)

theorem version_less_false {a b : Version} (h : Version.lt a b = false) : Version.lt b a = true := by
  have h1 := (Version.C34_lt_exact a b).1
  rw [(Version.C34_lt_exact b a).1]
  rw [h] at h1
  have h2 : Version.Precedes b a := Classical.byContradiction fun hn => Bool.false_ne_true (h1.mpr hn)
  revert h2
  unfold Version.Precedes
  omega

theorem version_lower (k : Version) (t : Tree Version) : ∀ y : Option Version, (∀ j, y = some j → Version.lt k j = true) →
    ∃ r, lower versionLess k t y = .ok r ∧ ∀ j, r = some j → Version.lt k j = true := by
  induction t with
  | leaf => exact fun y hy => ⟨y, rfl, hy⟩
  | node l x r ihl ihr =>
    intro y hy
    simp only [lower, versionLess, Outcome.bind_ok]
    cases hx : Version.lt x k with
    | true => exact ihr y hy
    | false =>
      refine ihl (some x) fun j hj => ?_
      obtain rfl := Option.some.inj hj
      exact version_less_false hx

theorem version_insert (k : Version) (t : Tree Version) : ∀ p : Option Version, (∀ q, p = some q → Version.lt q k = true) →
    ∃ t', insert versionLess k t p = .ok (some t') ∧ t'.keys.length = t.keys.length + 1 ∧ ∀ x, x ∈ t'.keys ↔ x = k ∨ x ∈ t.keys := by
  induction t with
  | leaf =>
    intro p hp
    refine ⟨.node .leaf k .leaf, ?_, rfl, fun x => by simp [Tree.keys]⟩
    cases p with
    | none => rfl
    | some q =>
      simp only [insert, versionLess, Outcome.bind_ok, hp q rfl]
      rfl
  | node l x r ihl ihr =>
    intro p hp
    simp only [insert, versionLess, Outcome.bind_ok]
    cases hx : Version.lt k x with
    | true =>
      obtain ⟨t', e, h1, h2⟩ := ihl p hp
      refine ⟨.node t' x r, by simp only [e, Outcome.bind_ok, if_true]; rfl, ?_, fun z => ?_⟩
      · simp only [Tree.keys, List.length_append, List.length_cons, h1]; omega
      · simp only [Tree.keys, List.mem_append, List.mem_cons, h2 z, or_assoc]
    | false =>
      obtain ⟨t', e, h1, h2⟩ := ihr (some x) fun q hq => by
        obtain rfl := Option.some.inj hq
        exact version_less_false hx
      refine ⟨.node l x t', by simp only [e, Outcome.bind_ok, Bool.false_eq_true, if_false]; rfl, ?_, fun z => ?_⟩
      · simp only [Tree.keys, List.length_append, List.length_cons, h1]; omega
      · simp only [Tree.keys, List.mem_append, List.mem_cons, h2 z]
        constructor
        · rintro (h | h | h | h)
          · exact .inr (.inl h)
          · exact .inr (.inr (.inl h))
          · exact .inl h
          · exact .inr (.inr (.inr h))
        · rintro (h | h | h | h)
          · exact .inr (.inr (.inl h))
          · exact .inl h
          · exact .inr (.inl h)
          · exact .inr (.inr (.inr h))

theorem version_bisect (xs : List Version) (k : Version) : ∀ len first, first + len ≤ xs.length →
    (∀ x, xs[first + len]? = some x → Version.lt k x = true) →
    ∃ i, bisect versionLess xs k first len = .ok i ∧ ∀ x, xs[i]? = some x → Version.lt k x = true := by
  intro len
  induction len using Nat.strongRecOn with
  | _ len ih =>
    intro first hx hl
    rw [bisect]
    split
    · rename_i h0
      subst h0
      exact ⟨first, rfl, hl⟩
    · have hi : first + len / 2 < xs.length := by omega
      rw [List.getElem?_eq_getElem hi]
      simp only [versionLess, Outcome.bind_ok]
      cases hc : Version.lt xs[first + len / 2] k with
      | true =>
        have := ih (len - len / 2 - 1) (by omega) (first + len / 2 + 1) (by omega)
        rw [show first + len / 2 + 1 + (len - len / 2 - 1) = first + len by omega] at this
        exact this hl
      | false =>
        refine ih (len / 2) (by omega) first (by omega) fun x hx => ?_
        rw [List.getElem?_eq_getElem hi] at hx
        obtain rfl := Option.some.inj hx
        exact version_less_false hc

/-- **C156, negation**, versions compared with `operator<`: no version is ever found, whatever the tree or the array, also when it was just put in; and no version is
ever refused, so a set keeps every copy. -/
theorem C156_version_less_negation (ks : List Version) (k : Version) :
    (∀ t, find versionLess k t = .ok none) ∧ binarySearch versionLess ks k = .ok false ∧ (∃ t, Built versionLess ks t) ∧
    ∀ t, Built versionLess ks t → t.keys.length = ks.length ∧ ∀ x, x ∈ t.keys ↔ x ∈ ks := by
  refine ⟨fun t => ?_, ?_, ?_, fun t ht => ?_⟩
  · obtain ⟨r, e, hr⟩ := version_lower k t none nofun
    unfold find
    rw [e, Outcome.bind_ok]
    cases r with
    | none => rfl
    | some j =>
      simp only [versionLess, Outcome.bind_ok, hr j rfl]
      rfl
  · obtain ⟨i, e, hi⟩ := version_bisect ks k ks.length 0 (by omega) fun x hx => by
      rw [Nat.zero_add, List.getElem?_eq_none (Nat.le_refl _)] at hx
      cases hx
    unfold binarySearch
    rw [e, Outcome.bind_ok]
    cases hx : ks[i]? with
    | none => rfl
    | some x =>
      simp only [versionLess, Outcome.bind_ok, hi x hx]
      rfl
  · suffices hr : ∀ rs : List Version, ∃ t, Built versionLess rs.reverse t by
      have := hr ks.reverse
      rwa [List.reverse_reverse] at this
    intro rs
    induction rs with
    | nil => exact ⟨_, .empty⟩
    | cons k rs ih =>
      obtain ⟨t, ht⟩ := ih
      obtain ⟨t', e, _⟩ := version_insert k t none nofun
      rw [List.reverse_cons]
      exact ⟨t', .added ht e⟩
  · clear k
    induction ht with
    | empty => exact ⟨rfl, fun _ => Iff.rfl⟩
    | @added ks t t' k _ hi ih =>
      obtain ⟨t2, e, h1, h2⟩ := version_insert k t none nofun
      rw [e] at hi
      injection hi with hi
      obtain rfl := Option.some.inj hi
      refine ⟨by rw [h1, ih.1, List.length_append]; rfl, fun x => ?_⟩
      rw [h2, ih.2, List.mem_append, List.mem_singleton, or_comm]
    | @refused ks t k _ hi ih =>
      obtain ⟨t2, e, _⟩ := version_insert k t none nofun
      rw [e] at hi
      cases hi
    | @shape ks t t' _ he ih =>
      rw [he]
      exact ih

/-- The same version twice: two keys, neither of which is found. -/
example : Built versionLess [⟨1, 2, 3, [], []⟩, ⟨1, 2, 3, [], []⟩] (.node (.node .leaf ⟨1, 2, 3, [], []⟩ .leaf) ⟨1, 2, 3, [], []⟩ .leaf) :=
  .added (ks := [_]) (.added (ks := []) .empty rfl) (by decide +kernel)

/-! ### Characters -/

theorem char_weak (big : Bool) : StrictWeak (charLess big) (fun c => c.bytes.length = 4) fun a b => a.value big < b.value big where
  answers a b _ _ := ⟨_, rfl, by rw [Chr.lt, decide_eq_true_iff]⟩
  irrefl a _ := Nat.lt_irrefl _
  trans a b c _ _ _ := Nat.lt_trans
  negTrans a b c _ _ _ h1 h2 := by omega

theorem char_same {big : Bool} {a b : Chr} (ha : a.bytes.length = 4) (hb : b.bytes.length = 4)
    (h : Same (fun a b : Chr => a.value big < b.value big) a b) : a = b := by
  obtain ⟨x⟩ := a
  obtain ⟨y⟩ := b
  have e : Chr.equals big ⟨x⟩ ⟨y⟩ = true := by
    rw [Chr.equals, beq_iff_eq]
    have := h.1
    have := h.2
    omega
  rw [(Chr.C71_equals big x y ha hb).mp e]

/-- **C156**, characters: a set holds each once, in the order of the values, and finds exactly these. -/
theorem C156_char (big : Bool) (ks : List Chr) (hk : ∀ k ∈ ks, k.bytes.length = 4) :
    (∃ t, Built (charLess big) ks t) ∧ ∀ t, Built (charLess big) ks t → (t.keys.Pairwise fun a b => a.value big < b.value big) ∧ (∀ x, x ∈ t.keys ↔ x ∈ ks) ∧
      ∀ k : Chr, k.bytes.length = 4 → find (charLess big) k t = .ok (if k ∈ ks then some k else none) := by
  refine ⟨(C156_container (char_weak big) ks hk).1, fun t ht => ?_⟩
  obtain ⟨h1, h2, h3⟩ := built_asc (char_weak big) ht hk
  have hm : ∀ x, x ∈ t.keys ↔ x ∈ ks := by
    intro x
    refine ⟨h2 x, fun hx => ?_⟩
    obtain ⟨y, hy, hs⟩ := h3 x hx
    rwa [← char_same (h1.1 y hy) (hk x hx) hs]
  refine ⟨h1.2, hm, fun k hk' => ?_⟩
  obtain ⟨r, e, hr⟩ := find_spec (char_weak big) hk' t h1
  rw [e]
  split
  · rename_i hmem
    rw [(hr k).mpr ⟨(hm k).mpr hmem, Nat.lt_irrefl _, Nat.lt_irrefl _⟩]
  · rename_i hmem
    cases r with
    | none => rfl
    | some j =>
      obtain ⟨a, b⟩ := (hr j).mp rfl
      exact absurd ((char_same (h1.1 j a) hk' b) ▸ h2 j a) hmem

example : Built (charLess false) [Chr.ofByte 0x62#8, Chr.ofByte 0x61#8]
    (.node (.node .leaf (Chr.ofByte 0x61#8) .leaf) (Chr.ofByte 0x62#8) .leaf) :=
  .added (ks := [_]) (.added (ks := []) .empty rfl) (by decide +kernel)

/-! ### Strings -/

/-- The strings that can be keys. -/
def Name (s : List Byte) : Prop := StringView.Plain s ∧ s ≠ [] ∧ s.length < 2 ^ 16

theorem string_weak : StrictWeak stringLess Name Strings.shortlexLt where
  answers a b ha hb := by
    obtain ⟨r, e, h1, _, _⟩ := StringView.C22_shortlex_partial a b ha.1 hb.1 ha.2.2 hb.2.2 (.inl hb.2.1)
    refine ⟨decide (r < 0), by unfold stringLess; rw [e]; rfl, ?_⟩
    rw [decide_eq_true_iff, h1]
  irrefl a _ := StringView.shortlex_irrefl a
  trans a b c _ _ _ := StringView.shortlex_trans
  negTrans a b c _ _ _ h1 h2 h3 := by
    rcases StringView.C22_shortlex_total a b with h | h | h
    · exact h1 h
    · rw [h] at h3; exact h2 h3
    · exact h2 (StringView.shortlex_trans h h3)

theorem string_same {a b : List Byte} (h : Same Strings.shortlexLt a b) : a = b := by
  rcases StringView.C22_shortlex_total a b with e | e | e
  · exact absurd e h.1
  · exact e
  · exact absurd e h.2

/-- **C156** (partial: strings that are not empty, of characters 1 to 127, of less than 65536 characters). A set of such strings holds each once, the shorter ones first,
and finds exactly these; so does a search in a sorted array. Missing: other strings, for which the theorems below show what happens. -/
theorem C156_string_partial (ks : List (List Byte)) (hk : ∀ k ∈ ks, Name k) :
    (∃ t, Built stringLess ks t) ∧
    (∀ t, Built stringLess ks t → t.keys.Pairwise Strings.shortlexLt ∧ (∀ x, x ∈ t.keys ↔ x ∈ ks) ∧
      ∀ k, Name k → find stringLess k t = .ok (if k ∈ ks then some k else none)) ∧
    ∀ k, Name k → Sorted Strings.shortlexLt ks → binarySearch stringLess ks k = .ok (decide (k ∈ ks)) := by
  refine ⟨(C156_container string_weak ks hk).1, fun t ht => ?_, fun k hk' hs => ?_⟩
  · obtain ⟨h1, h2, h3⟩ := built_asc string_weak ht hk
    have hm : ∀ x, x ∈ t.keys ↔ x ∈ ks := by
      intro x
      refine ⟨h2 x, fun hx => ?_⟩
      obtain ⟨y, hy, hs⟩ := h3 x hx
      rwa [← string_same hs]
    refine ⟨h1.2, hm, fun k hk' => ?_⟩
    obtain ⟨r, e, hr⟩ := find_spec string_weak hk' t h1
    rw [e]
    split
    · rename_i hmem
      rw [(hr k).mpr ⟨(hm k).mpr hmem, StringView.shortlex_irrefl k, StringView.shortlex_irrefl k⟩]
    · rename_i hmem
      cases r with
      | none => rfl
      | some j =>
        obtain ⟨a, b⟩ := (hr j).mp rfl
        exact absurd ((string_same b) ▸ h2 j a) hmem
  · obtain ⟨r, e, hr⟩ := C156_binarySearch string_weak ks k hk' hk hs
    rw [e]
    congr 1
    rw [Bool.eq_iff_iff, hr, decide_eq_true_iff]
    constructor
    · rintro ⟨x, hx, hs⟩
      rwa [← string_same hs]
    · exact fun hx => ⟨k, hx, StringView.shortlex_irrefl k, StringView.shortlex_irrefl k⟩

/-- "b", "aa", "b". -/
example : Name [0x62#8] ∧ Name [0x61#8, 0x61#8] ∧ Built stringLess [[0x62#8], [0x61#8, 0x61#8], [0x62#8]]
    (.node .leaf [0x62#8] (.node .leaf [0x61#8, 0x61#8] .leaf)) :=
  ⟨⟨by unfold StringView.Plain; decide +kernel, nofun, by decide⟩, ⟨by unfold StringView.Plain; decide +kernel, nofun, by decide⟩,
    .refused (ks := [_, _]) (.added (ks := [_]) (.added (ks := []) .empty rfl) (by decide +kernel)) (by decide +kernel)⟩

/-- **C156, negation**, the empty string: to look it up in a set whose root is any other string ends the program, and so does to add any other string to a set whose
root it is. -/
theorem C156_string_empty_negation (s : List Byte) (hs : s ≠ []) (hl : s.length < 2 ^ 16) (l r : Tree (List Byte)) (p : Option (List Byte)) :
    find stringLess [] (.node l s r) = .terminate ∧ insert stringLess s (.node l [] r) p = .terminate := by
  have e : stringLess s [] = .terminate := by
    unfold stringLess
    rw [StringView.C22_empty_terminates s hs hl]
    rfl
  constructor
  · simp only [find, lower, e]; rfl
  · simp only [insert, e]; rfl

/-- Two strings, neither of which is less: a set that holds one refuses the other, and gives the one when asked for the other. -/
theorem taken_for (a b : List Byte) (h1 : stringLess a b = .ok false) (h2 : stringLess b a = .ok false) :
    find stringLess b (.node .leaf a .leaf) = .ok (some a) ∧ insert stringLess b (.node .leaf a .leaf) none = .ok none := by
  constructor
  · simp only [find, lower, h1, Outcome.bind_ok, Bool.false_eq_true, if_false, h2]; rfl
  · simp only [insert, h1, h2, Outcome.bind_ok, Bool.false_eq_true, if_false]; rfl

/-- **C156, negation**, other strings: strings of the same length that agree up to a null character are taken for the same; and so are a string and any longer one that
ends with a byte from 128 on (in UTF-8: a character that is not ASCII) and has a smaller byte at the last index of the first. -/
theorem C156_string_negation (a b : List Byte) (ha : a.length < 2 ^ 16) (hb : b.length < 2 ^ 16)
    (h : a.length = b.length ∧ StringView.cText a = StringView.cText b ∨
      a ≠ [] ∧ a.length < b.length ∧ (∃ c, b.getLast? = some c ∧ 128 ≤ c.toNat) ∧ ∃ d, b[a.length - 1]? = some d ∧ d.toNat < 128) :
    find stringLess b (.node .leaf a .leaf) = .ok (some a) ∧ insert stringLess b (.node .leaf a .leaf) none = .ok none := by
  have mk : ∀ (x y : List Byte) (r : Int), StringView.compareTo x y = .ok r → ¬r < 0 → stringLess x y = .ok false := by
    intro x y r e hr
    unfold stringLess
    rw [e]
    show Outcome.ok (decide (r < 0)) = _
    rw [decide_eq_false hr]
  rcases h with ⟨hl, ht⟩ | ⟨hne, hl, ⟨c, hc, hc'⟩, d, hd, hd'⟩
  · obtain ⟨r, e, _, h2, _⟩ := (StringView.C22_exact a b ha hb).2.2.2 hl
    obtain ⟨r', e', _, h2', _⟩ := (StringView.C22_exact b a hb ha).2.2.2 hl.symm
    have h0 := h2.mpr ht
    have h0' := h2'.mpr ht.symm
    exact taken_for a b (mk _ _ _ e (by omega)) (mk _ _ _ e' (by omega))
  · have e := (StringView.C22_exact a b ha hb).2.2.1 c hl hc
    have e' := (StringView.C22_exact b a hb ha).2.1 d hl hne hd
    have i1 : c.toInt < 0 := by rw [BitVec.toInt_eq_toNat_cond]; have := c.isLt; split <;> omega
    have i2 : 0 ≤ d.toInt := by rw [BitVec.toInt_eq_toNat_cond]; split <;> omega
    exact taken_for a b (mk _ _ _ e (by omega)) (mk _ _ _ e' (by omega))

/-- A set that holds "b" refuses "a\u00e0". -/
example : insert stringLess [0x61#8, 0xC3#8, 0xA0#8] (.node .leaf [0x62#8] .leaf) none = .ok none :=
  (C156_string_negation [0x62#8] [0x61#8, 0xC3#8, 0xA0#8] (by decide) (by decide)
    (.inr ⟨nofun, by decide, ⟨_, rfl, by decide⟩, _, rfl, by decide⟩)).2

/-- A NUL inside makes two different strings the same. -/
example : find stringLess [0x61#8, 0#8, 0x63#8] (.node .leaf [0x61#8, 0#8, 0x62#8] .leaf) = .ok (some [0x61#8, 0#8, 0x62#8]) :=
  (C156_string_negation [0x61#8, 0#8, 0x62#8] [0x61#8, 0#8, 0x63#8] (by decide) (by decide) (.inl ⟨rfl, by decide⟩)).1

end Solace.Ordered
