import Verif.Model.VersionValue
import Verif.Props.C86_StringOwner
/-
C120: versions as values.
-/
namespace Solace.VersionValue

open Owner (World)

/-! Specification: variables simply hold versions. -/

abbrev Text := List Byte

/-- The text a label argument stands for, and whether the caller could make it. -/
def given : Label → Option Text
  | .none => some []
  | .lit s => some s
  | .str s mem => if Owner.granted s mem then some s else Option.none

/-- What each operation means. Move assignment is the odd one: the source keeps its numbers and gets the labels of the
target. -/
def specStep (vs : List (Option Version)) : Op → List (Option Version)
  | .make a b c x y =>
    match given x, given y with
    | some s, some t => vs ++ [some ⟨a, b, c, s, t⟩]
    | _, _ => vs
  | .moveCtor i =>
    match vs[i]? with
    | some (some v) => vs.set i (some ⟨v.major, v.minor, v.patch, [], []⟩) ++ [some v]
    | _ => vs
  | .moveAssign i j =>
    match vs[i]?, vs[j]? with
    | some (some a), some (some b) =>
      (vs.set j (some ⟨b.major, b.minor, b.patch, a.preRelease, a.build⟩)).set i (some b)
    | _, _ => vs
  | .swap i j =>
    match vs[i]?, vs[j]? with
    | some (some a), some (some b) => (vs.set i (some b)).set j (some a)
    | _, _ => vs
  | .destroy i => vs.set i none

def spec (ops : List Op) : List (Option Version) := ops.foldl specStep []

/-! The string variables behind the versions. -/

structure Rel (p : Prog) (a : List (Option Text)) (vs : List (Option Version)) : Prop where
  inv : Owner.Inv p.w
  shown : Owner.shown p.w = a.map (Option.map Outcome.ok)
  len : p.vs.length = vs.length
  dead : ∀ i : Nat, p.vs[i]? = some none → vs[i]? = some none
  live : ∀ (i : Nat) (v : VObj), p.vs[i]? = some (some v) → ∃ s t, a[v.pre]? = some (some s) ∧ a[v.build]? = some (some t) ∧
    vs[i]? = some (some ⟨v.major, v.minor, v.patch, s, t⟩)
  pre : ∀ (i j : Nat) (v u : VObj), p.vs[i]? = some (some v) → p.vs[j]? = some (some u) → v.pre = u.pre → i = j
  build : ∀ (i j : Nat) (v u : VObj), p.vs[i]? = some (some v) → p.vs[j]? = some (some u) → v.build = u.build → i = j
  apart : ∀ (i j : Nat) (v u : VObj), p.vs[i]? = some (some v) → p.vs[j]? = some (some u) → v.pre ≠ u.build
  all : ∀ (n : Nat) (s : Text), a[n]? = some (some s) → ∃ (i : Nat) (v : VObj), p.vs[i]? = some (some v) ∧ (v.pre = n ∨ v.build = n)

theorem rel_init : Rel Prog.init [] [] := by
  constructor <;> try simp [Prog.init]
  · exact Owner.inv_init
  · rfl

theorem lt_of_some {α} {l : List α} {i : Nat} {x : α} (h : l[i]? = some x) : i < l.length := by
  rw [List.getElem?_eq_some_iff] at h; exact h.1

theorem shown_len {w : World} {a : List (Option Text)} (h : Owner.shown w = a.map (Option.map Outcome.ok)) :
    w.vars.length = a.length := by
  have := congrArg List.length h
  simpa [Owner.shown] using this

/-- A live entry in the program is one in the specification and conversely. -/
theorem Rel.back {p a vs} (h : Rel p a vs) {i : Nat} {x : Version} (hx : vs[i]? = some (some x)) :
    ∃ v, p.vs[i]? = some (some v) ∧ v.major = x.major ∧ v.minor = x.minor ∧ v.patch = x.patch ∧
      a[v.pre]? = some (some x.preRelease) ∧ a[v.build]? = some (some x.build) := by
  have hl := lt_of_some hx
  rw [← h.len] at hl
  cases hv : p.vs[i] with
  | none =>
    have := h.dead i (by rw [List.getElem?_eq_getElem hl, hv])
    rw [this] at hx; cases hx
  | some v =>
    have hv' : p.vs[i]? = some (some v) := by rw [List.getElem?_eq_getElem hl, hv]
    obtain ⟨s, t, h1, h2, h3⟩ := h.live i v hv'
    rw [h3] at hx
    cases hx
    exact ⟨v, hv', rfl, rfl, rfl, h1, h2⟩

/-- What making a label does to the string variables. -/
theorem label_spec {w : World} {a : List (Option Text)} (hi : Owner.Inv w)
    (hs : Owner.shown w = a.map (Option.map Outcome.ok)) (l : Label) :
    ∃ a' : List (Option Text), Owner.Inv (label w l).1 ∧ Owner.shown (label w l).1 = a'.map (Option.map Outcome.ok) ∧
      (∀ k, k < a.length → a'[k]? = a[k]?) ∧
      match given l with
      | none => (label w l).2 = none ∧ ∀ k s, a.length ≤ k → a'[k]? ≠ some (some s)
      | some s => ∃ n, (label w l).2 = some n ∧ a.length ≤ n ∧ a'[n]? = some (some s) ∧
          ∀ k t, a.length ≤ k → k ≠ n → a'[k]? ≠ some (some t) := by
  have hlen := shown_len hs
  cases l with
  | none =>
    refine ⟨_, Owner.inv_step hi .empty, Owner.shown_step hi a hs .empty, ?_, ?_⟩
    · intro k hk
      rw [Owner.specStep, List.getElem?_append_left hk]
    · refine ⟨_, rfl, by omega, ?_, ?_⟩
      · rw [hlen, Owner.specStep, List.getElem?_append_right (Nat.le_refl _)]; simp
      · intro k t hk hne
        rw [Owner.specStep, List.getElem?_eq_none (by simp; omega)]; simp
  | lit s =>
    refine ⟨_, Owner.inv_step hi (.literal s), Owner.shown_step hi a hs (.literal s), ?_, ?_⟩
    · intro k hk
      rw [Owner.specStep, List.getElem?_append_left hk]
    · refine ⟨_, rfl, by omega, ?_, ?_⟩
      · rw [hlen, Owner.specStep, List.getElem?_append_right (Nat.le_refl _)]; simp
      · intro k t hk hne
        rw [Owner.specStep, List.getElem?_eq_none (by simp; omega)]; simp
  | str s mem =>
    have i1 : Owner.Inv (Owner.make w s mem) := Owner.inv_step hi (.make s mem)
    have s1 : Owner.shown (Owner.make w s mem) = _ := Owner.shown_step hi a hs (.make s mem)
    have l1 := shown_len s1
    by_cases hg : Owner.granted s mem
    · rw [Owner.specStep, if_pos hg] at s1 l1
      have hc : ¬(Owner.make w s mem).vars.length = w.vars.length := by
        rw [l1, hlen]; simp
      have e : label w (.str s mem) = (Owner.destroy (Owner.destroy (Owner.moveCtor (Owner.moveCtor (Owner.make w s mem)
          w.vars.length) (w.vars.length + 1)) (w.vars.length + 1)) w.vars.length, some (w.vars.length + 2)) := by
        rw [label]; rw [if_neg hc]
      rw [e, given, if_pos hg]
      have i2 := Owner.inv_runFrom i1 [.moveCtor w.vars.length, .moveCtor (w.vars.length + 1),
        .destroy (w.vars.length + 1), .destroy w.vars.length]
      have s2 := Owner.shown_runFrom _ i1 _ s1 [.moveCtor w.vars.length, .moveCtor (w.vars.length + 1),
        .destroy (w.vars.length + 1), .destroy w.vars.length]
      simp only [hlen, Owner.runFrom, List.foldl_cons, List.foldl_nil, Owner.step] at i2 s2 ⊢
      have f : Owner.specStep (Owner.specStep (Owner.specStep (Owner.specStep (a ++ [some s]) (.moveCtor a.length))
          (.moveCtor (a.length + 1))) (.destroy (a.length + 1))) (.destroy a.length) = a ++ [none, none, some s] := by
        simp [Owner.specStep]
      rw [f] at s2
      refine ⟨_, i2, s2, ?_, _, rfl, by omega, ?_, ?_⟩
      · intro k hk
        rw [List.getElem?_append_left hk]
      · rw [List.getElem?_append_right (by omega), show a.length + 2 - a.length = 2 by omega]; rfl
      · intro k t hk hne
        rw [List.getElem?_append_right hk]
        obtain ⟨d, rfl⟩ : ∃ d, k = a.length + d := ⟨k - a.length, by omega⟩
        rw [Nat.add_sub_cancel_left]
        match d, hne with
        | 0, _ => simp
        | 1, _ => simp
        | 2, hne => omega
        | d + 3, _ => simp
    · rw [Owner.specStep, if_neg hg] at s1 l1
      have e : label w (.str s mem) = (Owner.make w s mem, none) := by
        rw [label]; rw [if_pos (by rw [l1, hlen])]
      rw [e, given, if_neg hg]
      refine ⟨a, i1, s1, fun _ _ => rfl, rfl, fun k t hk => ?_⟩
      rw [List.getElem?_eq_none hk]; simp

theorem rel_make {p a vs} (h : Rel p a vs) (x y z : Nat) (l m : Label) :
    ∃ a', Rel (construct p x y z l m) a' (specStep vs (.make x y z l m)) := by
  obtain ⟨a1, i1, s1, k1, g1⟩ := label_spec h.inv h.shown l
  have low : ∀ (i : Nat) (v : VObj), p.vs[i]? = some (some v) → v.pre < a.length ∧ v.build < a.length := by
    intro i v hv
    obtain ⟨s, t, h1, h2, _⟩ := h.live i v hv
    exact ⟨lt_of_some h1, lt_of_some h2⟩
  rw [specStep, construct]
  cases hl : given l with
  | none =>
    rw [hl] at g1
    obtain ⟨e, g1⟩ := g1
    have e' : label p.w l = ((label p.w l).1, none) := by rw [← e]
    rw [e']
    refine ⟨a1, i1, s1, h.len, h.dead, ?_, h.pre, h.build, h.apart, ?_⟩
    · intro i v hv
      obtain ⟨s, t, h1, h2, h3⟩ := h.live i v hv
      obtain ⟨b1, b2⟩ := low i v hv
      exact ⟨s, t, by rw [k1 _ b1, h1], by rw [k1 _ b2, h2], h3⟩
    · intro n s hn
      by_cases hlt : n < a.length
      · rw [k1 n hlt] at hn; exact h.all n s hn
      · exact absurd hn (g1 n s (by omega))
  | some s =>
    rw [hl] at g1
    obtain ⟨n, e, hn, hs, g1⟩ := g1
    have e' : label p.w l = ((label p.w l).1, some n) := by rw [← e]
    rw [e']
    simp only
    obtain ⟨a2, i2, s2, k2, g2⟩ := label_spec i1 s1 m
    have hn1 := lt_of_some hs
    have hle : a.length ≤ a1.length := by omega
    cases hm : given m with
    | none =>
      rw [hm] at g2
      obtain ⟨e2, g2⟩ := g2
      have e2' : label (label p.w l).1 m = ((label (label p.w l).1 m).1, none) := by rw [← e2]
      rw [e2']
      simp only
      have i3 := Owner.inv_step i2 (.destroy n)
      have s3 := Owner.shown_step i2 a2 s2 (.destroy n)
      refine ⟨_, i3, s3, h.len, h.dead, ?_, h.pre, h.build, h.apart, ?_⟩
      · intro i v hv
        obtain ⟨s, t, h1, h2, h3⟩ := h.live i v hv
        obtain ⟨b1, b2⟩ := low i v hv
        refine ⟨s, t, ?_, ?_, h3⟩
        · rw [Owner.specStep, List.getElem?_set_ne (by omega), k2 _ (by omega), k1 _ b1, h1]
        · rw [Owner.specStep, List.getElem?_set_ne (by omega), k2 _ (by omega), k1 _ b2, h2]
      · intro k t hk
        rw [Owner.specStep] at hk
        by_cases hkn : k = n
        · subst hkn
          rw [List.getElem?_set_self' ] at hk
          cases hq : a2[k]? <;> rw [hq] at hk <;> cases hk
        · rw [List.getElem?_set_ne (Ne.symm hkn)] at hk
          by_cases h1 : k < a1.length
          · rw [k2 k h1] at hk
            by_cases h0 : k < a.length
            · rw [k1 k h0] at hk; exact h.all k t hk
            · exact absurd hk (g1 k t (by omega) hkn)
          · exact absurd hk (g2 k t (by omega))
    | some t =>
      rw [hm] at g2
      obtain ⟨k, e2, hk, ht, g2⟩ := g2
      have e2' : label (label p.w l).1 m = ((label (label p.w l).1 m).1, some k) := by rw [← e2]
      rw [e2']
      simp only
      have new : ∀ (i : Nat) (v : VObj), (p.vs ++ [some ⟨x, y, z, n, k⟩])[i]? = some (some v) ↔
          p.vs[i]? = some (some v) ∨ (i = p.vs.length ∧ v = ⟨x, y, z, n, k⟩) := by
        intro i v
        rw [Owner.get_append_one]
        constructor
        · rintro (h | ⟨rfl, h⟩)
          · exact .inl h
          · cases h; exact .inr ⟨rfl, rfl⟩
        · rintro (h | ⟨rfl, rfl⟩)
          · exact .inl h
          · exact .inr ⟨rfl, rfl⟩
      refine ⟨a2, i2, s2, by simp [h.len], ?_, ?_, ?_, ?_, ?_, ?_⟩
      · intro i hi
        simp only [Owner.get_append_one] at hi ⊢
        rcases hi with hi | ⟨rfl, hi⟩
        · exact .inl (h.dead i hi)
        · cases hi
      · intro i v hv
        simp only [new] at hv
        rcases hv with hv | ⟨rfl, rfl⟩
        · obtain ⟨s', t', h1, h2, h3⟩ := h.live i v hv
          obtain ⟨b1, b2⟩ := low i v hv
          refine ⟨s', t', ?_, ?_, (Owner.get_append_one _ _ _ _).mpr (.inl h3)⟩
          · rw [k2 _ (by omega), k1 _ b1, h1]
          · rw [k2 _ (by omega), k1 _ b2, h2]
        · exact ⟨s, t, by rw [k2 n hn1, hs], ht, (Owner.get_append_one _ _ _ _).mpr (.inr ⟨h.len, rfl⟩)⟩
      · intro i j v u hv hu huv
        simp only [new] at hv hu
        rcases hv with hv | ⟨rfl, rfl⟩ <;> rcases hu with hu | ⟨rfl, rfl⟩
        · exact h.pre i j v u hv hu huv
        · have := (low i v hv).1; simp only at huv; omega
        · have := (low j u hu).1; simp only at huv; omega
        · rfl
      · intro i j v u hv hu huv
        simp only [new] at hv hu
        rcases hv with hv | ⟨rfl, rfl⟩ <;> rcases hu with hu | ⟨rfl, rfl⟩
        · exact h.build i j v u hv hu huv
        · have := (low i v hv).2; simp only at huv; omega
        · have := (low j u hu).2; simp only at huv; omega
        · rfl
      · intro i j v u hv hu huv
        simp only [new] at hv hu
        rcases hv with hv | ⟨rfl, rfl⟩ <;> rcases hu with hu | ⟨rfl, rfl⟩
        · exact h.apart i j v u hv hu huv
        · have := (low i v hv).1; simp only at huv; omega
        · have := (low j u hu).2; simp only at huv; omega
        · simp only at huv; omega
      · intro q r hq
        by_cases h1 : q < a1.length
        · rw [k2 q h1] at hq
          by_cases h0 : q < a.length
          · rw [k1 q h0] at hq
            obtain ⟨i, v, hv, hc⟩ := h.all q r hq
            exact ⟨i, v, (new i v).mpr (.inl hv), hc⟩
          · by_cases hqn : q = n
            · exact ⟨_, _, (new _ _).mpr (.inr ⟨rfl, rfl⟩), .inl hqn.symm⟩
            · exact absurd hq (g1 q r (by omega) hqn)
        · by_cases hqk : q = k
          · exact ⟨_, _, (new _ _).mpr (.inr ⟨rfl, rfl⟩), .inr hqk.symm⟩
          · exact absurd hq (g2 q r (by omega) hqk)

/-- An operation that leaves every version at its string variables and ends no string. -/
theorem rel_same {p a vs} (h : Rel p a vs) {p' : Prog} {a' : List (Option Text)} {vs' : List (Option Version)}
    (hi : Owner.Inv p'.w) (hs : Owner.shown p'.w = a'.map (Option.map Outcome.ok)) (hlen : p'.vs.length = vs'.length)
    (hdead : ∀ i : Nat, p'.vs[i]? = some none → vs'[i]? = some none)
    (hlive : ∀ (i : Nat) (v : VObj), p'.vs[i]? = some (some v) → ∃ s t, a'[v.pre]? = some (some s) ∧
      a'[v.build]? = some (some t) ∧ vs'[i]? = some (some ⟨v.major, v.minor, v.patch, s, t⟩))
    (h1 : ∀ (i : Nat) (v : VObj), p'.vs[i]? = some (some v) →
      ∃ u : VObj, p.vs[i]? = some (some u) ∧ u.pre = v.pre ∧ u.build = v.build)
    (h2 : ∀ (i : Nat) (u : VObj), p.vs[i]? = some (some u) →
      ∃ v : VObj, p'.vs[i]? = some (some v) ∧ u.pre = v.pre ∧ u.build = v.build)
    (ha : ∀ (n : Nat) (s : Text), a'[n]? = some (some s) → ∃ t, a[n]? = some (some t)) : Rel p' a' vs' := by
  refine ⟨hi, hs, hlen, hdead, hlive, ?_, ?_, ?_, ?_⟩
  · intro i j v u hv hu e
    obtain ⟨v', k1, k2, k3⟩ := h1 i v hv
    obtain ⟨u', l1, l2, l3⟩ := h1 j u hu
    exact h.pre i j v' u' k1 l1 (by rw [k2, l2, e])
  · intro i j v u hv hu e
    obtain ⟨v', k1, k2, k3⟩ := h1 i v hv
    obtain ⟨u', l1, l2, l3⟩ := h1 j u hu
    exact h.build i j v' u' k1 l1 (by rw [k3, l3, e])
  · intro i j v u hv hu e
    obtain ⟨v', k1, k2, k3⟩ := h1 i v hv
    obtain ⟨u', l1, l2, l3⟩ := h1 j u hu
    exact h.apart i j v' u' k1 l1 (by rw [k2, l3, e])
  · intro n s hn
    obtain ⟨t, ht⟩ := ha n s hn
    obtain ⟨i, u, hu, hc⟩ := h.all n t ht
    obtain ⟨v, hv, k2, k3⟩ := h2 i u hu
    exact ⟨i, v, hv, by rw [← k2, ← k3]; exact hc⟩

/-- The position a string variable is exchanged with. -/
def partner (x y : Nat) (n : Nat) : Nat := if n = y then x else if n = x then y else n

theorem get_exchange (a : List (Option Text)) (x y : Nat) (s t : Text) (hx : a[x]? = some (some s))
    (hy : a[y]? = some (some t)) (n : Nat) :
    (Owner.specStep a (.swap x y))[n]? = a[partner x y n]? := by
  have lx := lt_of_some hx
  have ly := lt_of_some hy
  simp only [Owner.specStep, hx, hy, partner]
  by_cases h1 : n = y
  · subst h1
    rw [if_pos rfl, List.getElem?_set_self (by simpa using ly), hx]
  · rw [if_neg h1, List.getElem?_set_ne (Ne.symm h1)]
    by_cases h2 : n = x
    · subst h2
      rw [if_pos rfl, List.getElem?_set_self lx, hy]
    · rw [if_neg h2, List.getElem?_set_ne (Ne.symm h2)]

/-- Both labels of versions `i` and `j` are exchanged. -/
theorem exchanged {p a vs} (h : Rel p a vs) {i j : Nat} {v u : VObj} (hv : p.vs[i]? = some (some v))
    (hu : p.vs[j]? = some (some u)) :
    ∃ a' : List (Option Text), Owner.Inv (Owner.swap (Owner.swap p.w v.pre u.pre) v.build u.build) ∧
      Owner.shown (Owner.swap (Owner.swap p.w v.pre u.pre) v.build u.build) = a'.map (Option.map Outcome.ok) ∧
      (∀ (k : Nat) (q : VObj), p.vs[k]? = some (some q) →
        ∃ r : VObj, p.vs[partner i j k]? = some (some r) ∧ a'[q.pre]? = a[r.pre]? ∧ a'[q.build]? = a[r.build]?) ∧
      ∀ (n : Nat) (s : Text), a'[n]? = some (some s) → ∃ t, a[n]? = some (some t) := by
  obtain ⟨s, t, h1, h2, _⟩ := h.live i v hv
  obtain ⟨s', t', h1', h2', _⟩ := h.live j u hu
  have i1 := Owner.inv_step h.inv (.swap v.pre u.pre)
  have s1 := Owner.shown_step h.inv a h.shown (.swap v.pre u.pre)
  have g1 := get_exchange a v.pre u.pre s s' h1 h1'
  have i2 := Owner.inv_step i1 (.swap v.build u.build)
  have s2 := Owner.shown_step i1 _ s1 (.swap v.build u.build)
  have n1 : v.build ≠ u.pre := fun e => h.apart j i u v hu hv e.symm
  have n2 : v.build ≠ v.pre := fun e => h.apart i i v v hv hv e.symm
  have n3 : u.build ≠ u.pre := fun e => h.apart j j u u hu hu e.symm
  have n4 : u.build ≠ v.pre := fun e => h.apart i j v u hv hu e.symm
  have b1 : partner v.pre u.pre v.build = v.build := by rw [partner, if_neg n1, if_neg n2]
  have b2 : partner v.pre u.pre u.build = u.build := by rw [partner, if_neg n3, if_neg n4]
  have g2 := get_exchange _ v.build u.build t t' (by rw [g1, b1, h2]) (by rw [g1, b2, h2'])
  refine ⟨_, i2, s2, ?_, ?_⟩
  · intro k q hq
    by_cases hkj : k = j
    · subst hkj
      rw [hu] at hq; cases hq
      refine ⟨v, by rw [partner, if_pos rfl]; exact hv, ?_, ?_⟩
      · rw [g2, show partner v.build u.build u.pre = u.pre by rw [partner, if_neg n3.symm, if_neg n1.symm], g1, partner,
          if_pos rfl]
      · rw [g2, show partner v.build u.build u.build = v.build by rw [partner, if_pos rfl], g1, b1]
    · by_cases hki : k = i
      · subst hki
        rw [hv] at hq; cases hq
        have e1 : v.pre ≠ u.pre := fun e => hkj (h.pre _ _ _ _ hv hu e)
        have e2 : v.build ≠ u.build := fun e => hkj (h.build _ _ _ _ hv hu e)
        refine ⟨u, by rw [partner, if_neg hkj, if_pos rfl]; exact hu, ?_, ?_⟩
        · rw [g2, show partner v.build u.build v.pre = v.pre by rw [partner, if_neg n4.symm, if_neg n2.symm], g1, partner,
            if_neg e1, if_pos rfl]
        · rw [g2, show partner v.build u.build v.build = u.build by rw [partner, if_neg e2, if_pos rfl], g1, b2]
      · have e1 : q.pre ≠ u.pre := fun e => hkj (h.pre _ _ _ _ hq hu e)
        have e2 : q.build ≠ u.build := fun e => hkj (h.build _ _ _ _ hq hu e)
        have e3 : q.pre ≠ v.pre := fun e => hki (h.pre _ _ _ _ hq hv e)
        have e4 : q.build ≠ v.build := fun e => hki (h.build _ _ _ _ hq hv e)
        have e5 : q.pre ≠ u.build := h.apart _ _ _ _ hq hu
        have e6 : q.pre ≠ v.build := h.apart _ _ _ _ hq hv
        have e7 : q.build ≠ u.pre := fun e => h.apart _ _ _ _ hu hq e.symm
        have e8 : q.build ≠ v.pre := fun e => h.apart _ _ _ _ hv hq e.symm
        refine ⟨q, by rw [partner, if_neg hkj, if_neg hki]; exact hq, ?_, ?_⟩
        · rw [g2, partner, if_neg e5, if_neg e6, g1, partner, if_neg e1, if_neg e3]
        · rw [g2, partner, if_neg e2, if_neg e4, g1, partner, if_neg e7, if_neg e8]
  · intro n r hn
    rw [g2, g1] at hn
    have c2 : partner v.build u.build n = n ∨ n = v.build ∨ n = u.build := by
      unfold partner; split
      · exact .inr (.inr ‹_›)
      · split
        · exact .inr (.inl ‹_›)
        · exact .inl rfl
    rcases c2 with c | rfl | rfl
    · rw [c] at hn
      unfold partner at hn
      split at hn
      · subst_vars; exact ⟨_, h1'⟩
      · split at hn
        · subst_vars; exact ⟨_, h1⟩
        · exact ⟨_, hn⟩
    · exact ⟨_, h2⟩
    · exact ⟨_, h2'⟩

theorem rel_assign {p a vs} (h : Rel p a vs) (i j : Nat) : ∃ a', Rel (moveAssign p i j) a' (specStep vs (.moveAssign i j)) := by
  rw [moveAssign, specStep]
  split
  · rename_i v u hv hu
    obtain ⟨s, t, h1, h2, h3⟩ := h.live i v hv
    obtain ⟨s', t', h1', h2', h3'⟩ := h.live j u hu
    rw [h3, h3']
    simp only
    obtain ⟨a', hi, hs, hg, ha⟩ := exchanged h hv hu
    have li := lt_of_some hv
    have li' := lt_of_some h3
    have lj' := lt_of_some h3'
    refine ⟨a', rel_same h hi hs (by simp [h.len]) ?_ ?_ ?_ ?_ ha⟩
    · intro k hk
      by_cases hki : k = i
      · subst hki; rw [List.getElem?_set_self li] at hk; cases hk
      · rw [List.getElem?_set_ne (Ne.symm hki)] at hk ⊢
        by_cases hkj : k = j
        · subst hkj; rw [hu] at hk; cases hk
        · rw [List.getElem?_set_ne (Ne.symm hkj)]; exact h.dead k hk
    · intro k q hq
      by_cases hki : k = i
      · subst hki
        rw [List.getElem?_set_self li] at hq
        cases hq
        obtain ⟨r, hr, e1, e2⟩ := hg k v hv
        have hr' : p.vs[j]? = some (some r) := by
          have : partner k j k = j := by unfold partner; split; · assumption
                                         · rw [if_pos rfl]
          rwa [this] at hr
        rw [hu] at hr'; cases hr'
        exact ⟨s', t', by simp only; rw [e1, h1'], by simp only; rw [e2, h2'],
          by rw [List.getElem?_set_self (by simpa using li')]⟩
      · rw [List.getElem?_set_ne (Ne.symm hki)] at hq ⊢
        obtain ⟨r, hr, e1, e2⟩ := hg k q hq
        by_cases hkj : k = j
        · subst hkj
          rw [hu] at hq; cases hq
          rw [partner, if_pos rfl, hv] at hr
          cases hr
          exact ⟨s, t, by rw [e1, h1], by rw [e2, h2], by rw [List.getElem?_set_self lj']⟩
        · rw [partner, if_neg hkj, if_neg hki, hq] at hr
          cases hr
          obtain ⟨x, y, k1, k2, k3⟩ := h.live k q hq
          exact ⟨x, y, by rw [e1, k1], by rw [e2, k2], by rw [List.getElem?_set_ne (Ne.symm hkj)]; exact k3⟩
    · intro k q hq
      by_cases hki : k = i
      · subst hki
        rw [List.getElem?_set_self li] at hq
        cases hq
        exact ⟨v, hv, rfl, rfl⟩
      · rw [List.getElem?_set_ne (Ne.symm hki)] at hq
        exact ⟨q, hq, rfl, rfl⟩
    · intro k q hq
      by_cases hki : k = i
      · subst hki
        rw [hv] at hq; cases hq
        exact ⟨_, List.getElem?_set_self li, rfl, rfl⟩
      · exact ⟨q, by rw [List.getElem?_set_ne (Ne.symm hki)]; exact hq, rfl, rfl⟩
  · rename_i hno
    refine ⟨a, ?_⟩
    split
    · rename_i x y hx hy
      obtain ⟨v, hv, _⟩ := h.back hx
      obtain ⟨u, hu, _⟩ := h.back hy
      exact absurd hu (hno v u hv)
    · exact h

theorem rel_swap {p a vs} (h : Rel p a vs) (i j : Nat) : ∃ a', Rel (swap p i j) a' (specStep vs (.swap i j)) := by
  rw [swap, specStep]
  split
  · rename_i v u hv hu
    obtain ⟨s, t, h1, h2, h3⟩ := h.live i v hv
    obtain ⟨s', t', h1', h2', h3'⟩ := h.live j u hu
    rw [h3, h3']
    simp only
    obtain ⟨a', hi, hs, hg, ha⟩ := exchanged h hv hu
    have li := lt_of_some hv
    have lj := lt_of_some hu
    have li' := lt_of_some h3
    have lj' := lt_of_some h3'
    refine ⟨a', rel_same h hi hs (by simp [h.len]) ?_ ?_ ?_ ?_ ha⟩
    · intro k hk
      by_cases hkj : k = j
      · subst hkj; rw [List.getElem?_set_self (by simpa using lj)] at hk; cases hk
      · rw [List.getElem?_set_ne (Ne.symm hkj)] at hk ⊢
        by_cases hki : k = i
        · subst hki; rw [List.getElem?_set_self li] at hk; cases hk
        · rw [List.getElem?_set_ne (Ne.symm hki)] at hk ⊢; exact h.dead k hk
    · intro k q hq
      by_cases hkj : k = j
      · subst hkj
        rw [List.getElem?_set_self (by simpa using lj)] at hq
        obtain ⟨r, hr, e1, e2⟩ := hg k u hu
        rw [partner, if_pos rfl, hv] at hr
        cases hr
        rw [List.getElem?_set_self (by simpa using lj')]
        by_cases hik : i = k
        · subst hik
          rw [hv] at hu; cases hu
          rw [if_pos rfl] at hq; cases hq
          exact ⟨s, t, by rw [e1, h1], by rw [e2, h2], rfl⟩
        · rw [if_neg hik] at hq; cases hq
          exact ⟨s, t, by simp only; rw [e1, h1], by simp only; rw [e2, h2], rfl⟩
      · rw [List.getElem?_set_ne (Ne.symm hkj)] at hq ⊢
        by_cases hki : k = i
        · subst hki
          rw [List.getElem?_set_self li] at hq
          cases hq
          obtain ⟨r, hr, e1, e2⟩ := hg k v hv
          rw [partner, if_neg hkj, if_pos rfl, hu] at hr
          cases hr
          exact ⟨s', t', by simp only; rw [e1, h1'], by simp only; rw [e2, h2'], by rw [List.getElem?_set_self li']⟩
        · rw [List.getElem?_set_ne (Ne.symm hki)] at hq ⊢
          obtain ⟨r, hr, e1, e2⟩ := hg k q hq
          rw [partner, if_neg hkj, if_neg hki, hq] at hr
          cases hr
          obtain ⟨x, y, k1, k2, k3⟩ := h.live k q hq
          exact ⟨x, y, by rw [e1, k1], by rw [e2, k2], k3⟩
    · intro k q hq
      by_cases hkj : k = j
      · subst hkj
        rw [List.getElem?_set_self (by simpa using lj)] at hq
        by_cases hik : i = k
        · subst hik
          rw [if_pos rfl] at hq; cases hq
          exact ⟨v, hv, rfl, rfl⟩
        · rw [if_neg hik] at hq; cases hq
          exact ⟨u, hu, rfl, rfl⟩
      · rw [List.getElem?_set_ne (Ne.symm hkj)] at hq
        by_cases hki : k = i
        · subst hki
          rw [List.getElem?_set_self li] at hq
          cases hq
          exact ⟨v, hv, rfl, rfl⟩
        · rw [List.getElem?_set_ne (Ne.symm hki)] at hq
          exact ⟨q, hq, rfl, rfl⟩
    · intro k q hq
      by_cases hkj : k = j
      · subst hkj
        rw [hu] at hq; cases hq
        refine ⟨_, List.getElem?_set_self (by simpa using lj), ?_⟩
        by_cases hik : i = k
        · subst hik
          rw [hv] at hu; cases hu
          rw [if_pos rfl]; exact ⟨rfl, rfl⟩
        · rw [if_neg hik]; exact ⟨rfl, rfl⟩
      · rw [List.getElem?_set_ne (Ne.symm hkj)]
        by_cases hki : k = i
        · subst hki
          rw [hv] at hq; cases hq
          exact ⟨_, List.getElem?_set_self li, rfl, rfl⟩
        · exact ⟨q, by rw [List.getElem?_set_ne (Ne.symm hki)]; exact hq, rfl, rfl⟩
  · rename_i hno
    refine ⟨a, ?_⟩
    split
    · rename_i x y hx hy
      obtain ⟨v, hv, _⟩ := h.back hx
      obtain ⟨u, hu, _⟩ := h.back hy
      exact absurd hu (hno v u hv)
    · exact h

theorem rel_destroy {p a vs} (h : Rel p a vs) (i : Nat) : ∃ a', Rel (destroy p i) a' (specStep vs (.destroy i)) := by
  rw [destroy, specStep]
  split
  · rename_i v hv
    have i2 := Owner.inv_runFrom h.inv [.destroy v.build, .destroy v.pre]
    have s2 := Owner.shown_runFrom _ h.inv _ h.shown [.destroy v.build, .destroy v.pre]
    simp only [Owner.runFrom, List.foldl_cons, List.foldl_nil, Owner.step, Owner.specStep] at i2 s2
    have li := lt_of_some hv
    have new : ∀ (k : Nat) (q : VObj), (p.vs.set i none)[k]? = some (some q) ↔ k ≠ i ∧ p.vs[k]? = some (some q) := by
      intro k q
      by_cases hki : k = i
      · subst hki; rw [List.getElem?_set_self li]; simp
      · rw [List.getElem?_set_ne (Ne.symm hki)]; simp [hki]
    have keep : ∀ n, n ≠ v.pre → n ≠ v.build → ((a.set v.build none).set v.pre none)[n]? = a[n]? := by
      intro n h1 h2
      rw [List.getElem?_set_ne (Ne.symm h1), List.getElem?_set_ne (Ne.symm h2)]
    refine ⟨_, i2, s2, by simp [h.len], ?_, ?_, ?_, ?_, ?_, ?_⟩
    · intro k hk
      by_cases hki : k = i
      · subst hki; rw [List.getElem?_set_self (by rw [← h.len]; exact li)]
      · simp only [List.getElem?_set_ne (Ne.symm hki)] at hk ⊢; exact h.dead k hk
    · intro k q hq
      obtain ⟨hki, hq⟩ := (new k q).mp hq
      obtain ⟨s, t, h1, h2, h3⟩ := h.live k q hq
      refine ⟨s, t, ?_, ?_, by rw [List.getElem?_set_ne (Ne.symm hki)]; exact h3⟩
      · rw [keep _ (fun e => hki (h.pre _ _ _ _ hq hv e)) (h.apart _ _ _ _ hq hv), h1]
      · rw [keep _ (fun e => h.apart _ _ _ _ hv hq e.symm) (fun e => hki (h.build _ _ _ _ hq hv e)), h2]
    · intro k l q r hq hr
      exact h.pre k l q r ((new k q).mp hq).2 ((new l r).mp hr).2
    · intro k l q r hq hr
      exact h.build k l q r ((new k q).mp hq).2 ((new l r).mp hr).2
    · intro k l q r hq hr
      exact h.apart k l q r ((new k q).mp hq).2 ((new l r).mp hr).2
    · intro n s hn
      have gone : ∀ m, m = v.pre ∨ m = v.build → ∀ s, ((a.set v.build none).set v.pre none)[m]? ≠ some (some s) := by
        intro m hm s e
        rw [List.getElem?_set] at e
        split at e
        · split at e <;> cases e
        · rw [List.getElem?_set] at e
          split at e
          · split at e <;> cases e
          · rcases hm with rfl | rfl
            · exact absurd rfl ‹_›
            · exact absurd rfl ‹_›
      have c1 : n ≠ v.pre := fun e => gone n (.inl e) s hn
      have c2 : n ≠ v.build := fun e => gone n (.inr e) s hn
      rw [keep n c1 c2] at hn
      obtain ⟨k, q, hq, hc⟩ := h.all n s hn
      refine ⟨k, q, (new k q).mpr ⟨?_, hq⟩, hc⟩
      rintro rfl
      rw [hv] at hq; cases hq
      rcases hc with rfl | rfl
      · exact c1 rfl
      · exact c2 rfl
  · rename_i hno
    refine ⟨a, h.inv, h.shown, by simp [h.len], ?_, ?_, h.pre, h.build, h.apart, h.all⟩
    · intro k hk
      by_cases hki : i = k
      · subst hki
        rw [List.getElem?_set_self]
        rw [← h.len]; exact lt_of_some hk
      · rw [List.getElem?_set_ne hki]; exact h.dead k hk
    · intro k q hq
      obtain ⟨s, t, h1, h2, h3⟩ := h.live k q hq
      refine ⟨s, t, h1, h2, ?_⟩
      rw [List.getElem?_set_ne]
      · exact h3
      · rintro rfl
        exact hno q hq

theorem rel_moveCtor {p a vs} (h : Rel p a vs) (i : Nat) : ∃ a', Rel (moveCtor p i) a' (specStep vs (.moveCtor i)) := by
  rw [moveCtor, specStep]
  split
  · rename_i v hv
    obtain ⟨s, t, h1, h2, h3⟩ := h.live i v hv
    rw [h3]
    simp only
    have hlen := shown_len h.shown
    have i2 := Owner.inv_runFrom h.inv [.moveCtor v.pre, .moveCtor v.build]
    have s2 := Owner.shown_runFrom _ h.inv _ h.shown [.moveCtor v.pre, .moveCtor v.build]
    have hne : v.pre ≠ v.build := h.apart i i v v hv hv
    have l1 := lt_of_some h1
    have l2 := lt_of_some h2
    have f : Owner.specStep (Owner.specStep a (.moveCtor v.pre)) (.moveCtor v.build) =
        (a.set v.pre (some [])).set v.build (some []) ++ [some s, some t] := by
      have g : (a.set v.pre (some []) ++ [some s])[v.build]? = some (some t) := by
        rw [List.getElem?_append_left (by simpa using l2), List.getElem?_set_ne hne, h2]
      simp only [Owner.specStep, h1, g]
      rw [List.set_append_left _ _ (by simpa using l2)]
      simp
    simp only [Owner.runFrom, List.foldl_cons, List.foldl_nil, Owner.step, f] at i2 s2
    have low : ∀ (k : Nat) (q : VObj), p.vs[k]? = some (some q) → q.pre < a.length ∧ q.build < a.length := by
      intro i v hv
      obtain ⟨s, t, h1, h2, _⟩ := h.live i v hv
      exact ⟨lt_of_some h1, lt_of_some h2⟩
    have old : ∀ n, n < a.length → ((a.set v.pre (some [])).set v.build (some []) ++ [some s, some t])[n]? =
        if n = v.pre ∨ n = v.build then some (some []) else a[n]? := by
      intro n hn
      rw [List.getElem?_append_left (by simpa using hn)]
      by_cases c2 : n = v.build
      · subst c2; rw [List.getElem?_set_self (by simpa using l2), if_pos (.inr rfl)]
      · rw [List.getElem?_set_ne (Ne.symm c2)]
        by_cases c1 : n = v.pre
        · subst c1; rw [List.getElem?_set_self l1, if_pos (.inl rfl)]
        · rw [List.getElem?_set_ne (Ne.symm c1), if_neg (by simp [c1, c2])]
    have new : ∀ (k : Nat) (q : VObj),
        (p.vs ++ [some { v with pre := p.w.vars.length, build := p.w.vars.length + 1 }])[k]? = some (some q) ↔
          p.vs[k]? = some (some q) ∨ (k = p.vs.length ∧ q = { v with pre := a.length, build := a.length + 1 }) := by
      intro k q
      rw [hlen, Owner.get_append_one]
      constructor
      · rintro (h | ⟨rfl, h⟩)
        · exact .inl h
        · cases h; exact .inr ⟨rfl, rfl⟩
      · rintro (h | ⟨rfl, rfl⟩)
        · exact .inl h
        · exact .inr ⟨rfl, rfl⟩
    refine ⟨_, i2, s2, by simp [h.len], ?_, ?_, ?_, ?_, ?_, ?_⟩
    · intro k hk
      simp only [Owner.get_append_one] at hk ⊢
      rcases hk with hk | ⟨rfl, hk⟩
      · refine .inl ?_
        rw [List.getElem?_set_ne]
        · exact h.dead k hk
        · rintro rfl; rw [hv] at hk; cases hk
      · cases hk
    · intro k q hq
      simp only [new] at hq
      rcases hq with hq | ⟨rfl, rfl⟩
      · obtain ⟨b1, b2⟩ := low k q hq
        rw [old _ b1, old _ b2]
        by_cases hki : k = i
        · subst hki
          rw [hv] at hq; cases hq
          refine ⟨[], [], by rw [if_pos (.inl rfl)], by rw [if_pos (.inr rfl)], ?_⟩
          rw [Owner.get_append_one, List.getElem?_set_self (lt_of_some h3)]
          exact .inl rfl
        · obtain ⟨x, y, k1, k2, k3⟩ := h.live k q hq
          refine ⟨x, y, ?_, ?_, ?_⟩
          · rw [if_neg, k1]
            rintro (e | e)
            · exact hki (h.pre _ _ _ _ hq hv e)
            · exact h.apart _ _ _ _ hq hv e
          · rw [if_neg, k2]
            rintro (e | e)
            · exact h.apart _ _ _ _ hv hq e.symm
            · exact hki (h.build _ _ _ _ hq hv e)
          · rw [Owner.get_append_one, List.getElem?_set_ne (Ne.symm hki)]
            exact .inl k3
      · refine ⟨s, t, ?_, ?_, ?_⟩
        · simp only
          rw [List.getElem?_append_right (by simp)]; simp
        · simp only
          rw [List.getElem?_append_right (by simp)]; simp
        · rw [Owner.get_append_one]
          exact .inr ⟨by simp [h.len], rfl⟩
    · intro k l q r hq hr e
      simp only [new] at hq hr
      rcases hq with hq | ⟨rfl, rfl⟩ <;> rcases hr with hr | ⟨rfl, rfl⟩
      · exact h.pre _ _ _ _ hq hr e
      · have := (low _ _ hq).1; simp only at e; omega
      · have := (low _ _ hr).1; simp only at e; omega
      · rfl
    · intro k l q r hq hr e
      simp only [new] at hq hr
      rcases hq with hq | ⟨rfl, rfl⟩ <;> rcases hr with hr | ⟨rfl, rfl⟩
      · exact h.build _ _ _ _ hq hr e
      · have := (low _ _ hq).2; simp only at e; omega
      · have := (low _ _ hr).2; simp only at e; omega
      · rfl
    · intro k l q r hq hr e
      simp only [new] at hq hr
      rcases hq with hq | ⟨rfl, rfl⟩ <;> rcases hr with hr | ⟨rfl, rfl⟩
      · exact h.apart _ _ _ _ hq hr e
      · have := (low _ _ hq).1; simp only at e; omega
      · have := (low _ _ hr).2; simp only at e; omega
      · simp only at e; omega
    · intro n r hn
      by_cases hlt : n < a.length
      · rw [old n hlt] at hn
        by_cases c : n = v.pre ∨ n = v.build
        · refine ⟨i, v, (new i v).mpr (.inl hv), ?_⟩
          rcases c with rfl | rfl
          · exact .inl rfl
          · exact .inr rfl
        · rw [if_neg c] at hn
          obtain ⟨k, q, hq, hc⟩ := h.all n r hn
          exact ⟨k, q, (new k q).mpr (.inl hq), hc⟩
      · refine ⟨_, _, (new _ _).mpr (.inr ⟨rfl, rfl⟩), ?_⟩
        have := lt_of_some hn
        simp at this
        simp only
        omega
  · rename_i hno
    refine ⟨a, ?_⟩
    split
    · rename_i x hx
      obtain ⟨v, hv, _⟩ := h.back hx
      exact absurd hv (hno v)
    · exact h

theorem rel_step {p a vs} (h : Rel p a vs) (op : Op) : ∃ a', Rel (step p op) a' (specStep vs op) := by
  cases op with
  | make x y z l m => exact rel_make h x y z l m
  | moveCtor i => exact rel_moveCtor h i
  | moveAssign i j => exact rel_assign h i j
  | swap i j => exact rel_swap h i j
  | destroy i => exact rel_destroy h i

theorem rel_run (ops : List Op) : ∃ a, Rel (run ops) a (spec ops) := by
  have key : ∀ (ops : List Op) (p : Prog) a vs, Rel p a vs → ∃ a', Rel (ops.foldl step p) a' (ops.foldl specStep vs) := by
    intro ops
    induction ops with
    | nil => exact fun p a vs h => ⟨a, h⟩
    | cons op ops ih =>
      intro p a vs h
      obtain ⟨a', h'⟩ := rel_step h op
      exact ih _ _ _ h'
  exact key ops _ _ _ rel_init

/-- What reading each version gives. -/
def shown (p : Prog) : List (Option (Outcome Version)) := p.vs.map (Option.map (read p.w))

theorem shown_of_rel {p a vs} (h : Rel p a vs) : shown p = vs.map (Option.map Outcome.ok) := by
  have tx : ∀ (n : Nat) (s : Text), a[n]? = some (some s) → textOf p.w n = .ok s := by
    intro n s hn
    obtain ⟨o, ho, ht⟩ := (Owner.shown_get p.w a h.shown n).1 s hn
    rw [textOf, ho]; exact ht
  apply List.ext_getElem?
  intro i
  rw [shown, List.getElem?_map, List.getElem?_map]
  cases hx : p.vs[i]? with
  | none =>
    rw [List.getElem?_eq_none_iff] at hx
    rw [List.getElem?_eq_none (by rw [← h.len]; exact hx)]
    rfl
  | some x =>
    cases x with
    | none => rw [h.dead i hx]; rfl
    | some v =>
      obtain ⟨s, t, h1, h2, h3⟩ := h.live i v hx
      rw [h3]
      simp only [Option.map_some, read, tx _ _ h1, tx _ _ h2, Outcome.bind_ok]

/-- **C120** (full): in every program that makes, moves, assigns, swaps and destroys versions (also with themselves), reading
the members of every living version is defined and gives the version of the specification. -/
theorem C120_values (ops : List Op) : shown (run ops) = (spec ops).map (Option.map Outcome.ok) := by
  obtain ⟨a, h⟩ := rel_run ops
  exact shown_of_rel h

/-- **C120** (full): no block that held a label is given back twice or while a version still shows it, and when all versions
have ended every block was given back. -/
theorem C120_blocks (ops : List Op) :
    (run ops).w.log.Nodup ∧
    (∀ id, id ∈ (run ops).w.log → id < (run ops).w.heap.length ∧ ∀ v, ¬Owner.Holds (run ops).w v id) ∧
    ((∀ x ∈ (run ops).vs, x = none) → ∀ id, id < (run ops).w.heap.length → id ∈ (run ops).w.log) := by
  obtain ⟨a, h⟩ := rel_run ops
  have hi := h.inv
  refine ⟨hi.nodup, fun id hid => ?_, fun hall id hid => ?_⟩
  · obtain ⟨b, hb⟩ := (hi.log id).mp hid
    refine ⟨lt_of_some hb, fun v ⟨o, ho, hl⟩ => ?_⟩
    obtain ⟨_, b', hb'⟩ := hi.owner v o id ho hl
    rw [hb] at hb'
    cases hb'
  · rw [hi.log id]
    cases hb : (run ops).w.heap[id]'hid with
    | mk bytes alive =>
      have hb' : (run ops).w.heap[id]? = some ⟨bytes, alive⟩ := by rw [List.getElem?_eq_getElem hid, hb]
      cases alive with
      | false => exact ⟨bytes, hb'⟩
      | true =>
        obtain ⟨v, o, ho, _⟩ := hi.some_ id ⟨bytes, hb'⟩
        obtain ⟨s, hs, _⟩ := (Owner.shown_get _ a h.shown v).2 o ho
        obtain ⟨i, q, hq, _⟩ := h.all v s hs
        have := hall _ (List.mem_of_getElem? hq)
        cases this

/-- The version made by an operation. -/
def made : Op → Option Version
  | .make a b c x y =>
    match given x, given y with
    | some s, some t => some ⟨a, b, c, s, t⟩
    | _, _ => none
  | _ => none

/-- A version with its labels taken away. -/
def bare (v : Version) : Version := { v with preRelease := [], build := [] }

/-- What holds of the versions made and is kept by moves and swaps of whole versions holds of every living version. -/
theorem spec_induction (P : Version → Prop) (Q : Op → Prop) (hbare : ∀ v, P v → P (bare v))
    (hmix : ∀ i j, Q (.moveAssign i j) → ∀ a b, P a → P b → P ⟨b.major, b.minor, b.patch, a.preRelease, a.build⟩)
    (ops : List Op) (hq : ∀ op ∈ ops, Q op) (hmade : ∀ op ∈ ops, ∀ v, made op = some v → P v) :
    ∀ (i : Nat) (v : Version), (spec ops)[i]? = some (some v) → P v := by
  have key : ∀ (ops : List Op) (vs : List (Option Version)), (∀ op ∈ ops, Q op) →
      (∀ op ∈ ops, ∀ v, made op = some v → P v) → (∀ v, some v ∈ vs → P v) →
      ∀ v, some v ∈ ops.foldl specStep vs → P v := by
    intro ops
    induction ops with
    | nil => exact fun vs _ _ h => h
    | cons op ops ih =>
      intro vs hq hm h
      refine ih (specStep vs op) (fun x hx => hq x (by simp [hx])) (fun x hx => hm x (by simp [hx])) ?_
      have hset : ∀ (l : List (Option Version)) (k : Nat) (x : Option Version), (∀ v, some v ∈ l → P v) →
          (∀ v, x = some v → P v) → ∀ v, some v ∈ l.set k x → P v := by
        intro l k x hl hx v hv
        rcases List.mem_or_eq_of_mem_set hv with hv | hv
        · exact hl v hv
        · exact hx v hv.symm
      have at_ : ∀ (k : Nat) (v : Version), vs[k]? = some (some v) → P v :=
        fun k v hv => h v (List.mem_of_getElem? hv)
      cases op with
      | make a b c x y =>
        have hm' := hm (.make a b c x y) (by simp)
        simp only [made] at hm'
        simp only [specStep]
        split
        · rename_i s t hs ht
          intro v hv
          rw [List.mem_append, List.mem_singleton] at hv
          rcases hv with hv | hv
          · exact h v hv
          · rw [hs, ht] at hm'
            exact hm' v hv.symm
        · exact h
      | moveCtor i =>
        simp only [specStep]
        split
        · rename_i u hu
          intro v hv
          rw [List.mem_append, List.mem_singleton] at hv
          rcases hv with hv | hv
          · refine hset vs i _ h ?_ v hv
            intro w hw
            cases hw
            exact hbare u (at_ i u hu)
          · cases hv; exact at_ i _ hu
        · exact h
      | moveAssign i j =>
        simp only [specStep]
        split
        · rename_i a b ha hb
          refine hset _ i _ (hset vs j _ h ?_) ?_
          · intro w hw
            cases hw
            exact hmix i j (hq _ (by simp)) a b (at_ i a ha) (at_ j b hb)
          · intro w hw; cases hw; exact at_ j _ hb
        · exact h
      | swap i j =>
        simp only [specStep]
        split
        · rename_i a b ha hb
          refine hset _ j _ (hset vs i _ h ?_) ?_
          · intro w hw; cases hw; exact at_ j _ hb
          · intro w hw; cases hw; exact at_ i _ ha
        · exact h
      | destroy i =>
        exact hset vs i none h (by simp)
  intro i v hv
  exact key ops [] hq hmade (by simp) v (List.mem_of_getElem? hv)

/-- **C120** (full): a label never changes its place or its text: the pre-release label of a living version is empty or was
given to a constructor as pre-release label, the build label likewise, and its numbers are the numbers given to one
constructor. -/
theorem C120_labels (ops : List Op) (i : Nat) (v : Version) (hv : (spec ops)[i]? = some (some v)) :
    (v.preRelease = [] ∨ ∃ op ∈ ops, ∃ u, made op = some u ∧ v.preRelease = u.preRelease) ∧
    (v.build = [] ∨ ∃ op ∈ ops, ∃ u, made op = some u ∧ v.build = u.build) ∧
    (∃ op ∈ ops, ∃ u, made op = some u ∧ v.major = u.major ∧ v.minor = u.minor ∧ v.patch = u.patch) := by
  refine spec_induction (fun v => (v.preRelease = [] ∨ ∃ op ∈ ops, ∃ u, made op = some u ∧ v.preRelease = u.preRelease) ∧
    (v.build = [] ∨ ∃ op ∈ ops, ∃ u, made op = some u ∧ v.build = u.build) ∧
    (∃ op ∈ ops, ∃ u, made op = some u ∧ v.major = u.major ∧ v.minor = u.minor ∧ v.patch = u.patch))
    (fun _ => True) ?_ ?_ ops (fun _ _ => trivial) ?_ i v hv
  · exact fun v h => ⟨.inl rfl, .inl rfl, h.2.2⟩
  · exact fun _ _ _ a b ha hb => ⟨ha.1, ha.2.1, hb.2.2⟩
  · exact fun op ho u hu => ⟨.inr ⟨op, ho, u, hu, rfl⟩, .inr ⟨op, ho, u, hu, rfl⟩, op, ho, u, hu, rfl, rfl, rfl⟩

/-- Numbers and labels stay together: a living version is one that was made, or one whose labels were moved away. -/
def Together (ops : List Op) : Prop :=
  ∀ (i : Nat) (v : Version), (spec ops)[i]? = some (some v) →
    ∃ op ∈ ops, ∃ u, made op = some u ∧ (v = u ∨ v = bare u)

/-- The full statement is false: after `a = mv(b)` the source `b` has its own numbers and the labels `a` had, a version that
was never made: of 1.0.0-rc1 and 2.0.0 it makes 2.0.0-rc1. -/
theorem C120_together_false : ¬∀ ops, Together ops := by
  intro h
  obtain ⟨op, ho, u, hu, e⟩ := h [.make 1 0 0 (.lit [0x72#8, 0x63#8, 0x31#8]) .none, .make 2 0 0 .none .none, .moveAssign 0 1]
    1 ⟨2, 0, 0, [0x72#8, 0x63#8, 0x31#8], []⟩ rfl
  simp only [List.mem_cons, List.not_mem_nil, or_false] at ho
  rcases ho with rfl | rfl | rfl
  · simp only [made, given, Option.some.injEq] at hu
    subst hu
    rcases e with e | e <;> cases e
  · simp only [made, given, Option.some.injEq] at hu
    subst hu
    rcases e with e | e <;> cases e
  · cases hu

/-- **C120** (partial: the source of a move assignment is excluded, see `C120_together_false`; `C120_assign` says exactly what
becomes of it): without move assignment numbers and labels stay together. -/
theorem C120_together_partial (ops : List Op) (hno : ∀ op ∈ ops, ∀ i j, op ≠ .moveAssign i j) : Together ops := by
  refine spec_induction (fun v => ∃ op ∈ ops, ∃ u, made op = some u ∧ (v = u ∨ v = bare u))
    (fun op => ∀ i j, op ≠ .moveAssign i j) ?_ ?_ ops hno ?_
  · rintro v ⟨op, ho, u, hu, rfl | rfl⟩
    · exact ⟨op, ho, v, hu, .inr rfl⟩
    · exact ⟨op, ho, u, hu, .inr rfl⟩
  · exact fun i j h => absurd rfl (h i j)
  · exact fun op ho u hu => ⟨op, ho, u, hu, .inl rfl⟩

example : ∀ op ∈ [Op.make 1 0 0 (.lit [0x61#8]) .none, .moveCtor 0, .make 2 0 0 .none .none, .swap 0 2],
    ∀ i j, op ≠ .moveAssign i j := by
  simp

theorem spec_append (ops more : List Op) : spec (ops ++ more) = more.foldl specStep (spec ops) := by
  rw [spec, List.foldl_append, spec]

/-- **C120** (full): after `i = mv(j)` the target is the version the source was; the source keeps its numbers and shows the
labels the target had. Assigning a version to itself changes nothing. -/
theorem C120_assign (ops : List Op) (i j : Nat) (a b : Version) (ha : (spec ops)[i]? = some (some a))
    (hb : (spec ops)[j]? = some (some b)) :
    (shown (run (ops ++ [.moveAssign i j])))[i]? = some (some (.ok b)) ∧
    (i ≠ j → (shown (run (ops ++ [.moveAssign i j])))[j]? =
      some (some (.ok ⟨b.major, b.minor, b.patch, a.preRelease, a.build⟩))) ∧
    (∀ k, k ≠ i → k ≠ j → (shown (run (ops ++ [.moveAssign i j])))[k]? = (shown (run ops))[k]?) := by
  rw [C120_values, C120_values, spec_append]
  simp only [List.foldl_cons, List.foldl_nil, specStep, ha, hb, List.getElem?_map]
  have la := lt_of_some ha
  have lb := lt_of_some hb
  refine ⟨?_, ?_, ?_⟩
  · rw [List.getElem?_set_self (by simpa using la)]; rfl
  · intro hne
    rw [List.getElem?_set_ne hne, List.getElem?_set_self lb]; rfl
  · intro k h1 h2
    rw [List.getElem?_set_ne (Ne.symm h1), List.getElem?_set_ne (Ne.symm h2)]

example : (spec [.make 1 0 0 (.lit [0x61#8]) .none, .make 2 0 0 .none .none])[0]? = some (some ⟨1, 0, 0, [0x61#8], []⟩) ∧
    (spec [.make 1 0 0 (.lit [0x61#8]) .none, .make 2 0 0 .none .none])[1]? = some (some ⟨2, 0, 0, [], []⟩) := ⟨rfl, rfl⟩

/-- **C120** (full): the source of a move assignment is the version it was before exactly when both labels of the target were
the same as its own; it compares equal to it (`equals` looks at the pre-release label only) exactly when the pre-release
labels were the same. -/
theorem C120_source_unchanged (a b : Version) :
    ((⟨b.major, b.minor, b.patch, a.preRelease, a.build⟩ : Version) = b ↔
      a.preRelease = b.preRelease ∧ a.build = b.build) ∧
    (Version.equals ⟨b.major, b.minor, b.patch, a.preRelease, a.build⟩ b =
      StringView.equals a.preRelease b.preRelease) := by
  constructor
  · constructor
    · intro h
      have h1 := congrArg Version.preRelease h
      have h2 := congrArg Version.build h
      exact ⟨h1, h2⟩
    · rintro ⟨h1, h2⟩
      rw [h1, h2]
  · simp [Version.equals]

/-- **C120** (full): moving there and back again does not restore: after `a = mv(b); b = mv(a)` both versions have the numbers
of `b`, each with its own labels again. -/
theorem C120_there_and_back (ops : List Op) (i j : Nat) (a b : Version) (hne : i ≠ j)
    (ha : (spec ops)[i]? = some (some a)) (hb : (spec ops)[j]? = some (some b)) :
    (shown (run (ops ++ [.moveAssign i j, .moveAssign j i])))[i]? =
      some (some (.ok ⟨b.major, b.minor, b.patch, a.preRelease, a.build⟩)) ∧
    (shown (run (ops ++ [.moveAssign i j, .moveAssign j i])))[j]? = some (some (.ok b)) := by
  have la := lt_of_some ha
  have lb := lt_of_some hb
  rw [C120_values, spec_append]
  simp only [List.foldl_cons, List.foldl_nil]
  have e : specStep (spec ops) (.moveAssign i j) =
      ((spec ops).set j (some ⟨b.major, b.minor, b.patch, a.preRelease, a.build⟩)).set i (some b) := by
    simp only [specStep, ha, hb]
  have e1 : (specStep (spec ops) (.moveAssign i j))[i]? = some (some b) := by
    rw [e, List.getElem?_set_self (by simpa using la)]
  have e2 : (specStep (spec ops) (.moveAssign i j))[j]? =
      some (some ⟨b.major, b.minor, b.patch, a.preRelease, a.build⟩) := by
    rw [e, List.getElem?_set_ne hne, List.getElem?_set_self lb]
  have f : specStep (specStep (spec ops) (.moveAssign i j)) (.moveAssign j i) =
      ((specStep (spec ops) (.moveAssign i j)).set i (some ⟨b.major, b.minor, b.patch, a.preRelease, a.build⟩)).set j
        (some b) := by
    generalize specStep (spec ops) (.moveAssign i j) = l at e1 e2
    simp only [specStep, e1, e2]
  have l1 := lt_of_some e1
  have l2 := lt_of_some e2
  rw [f, List.getElem?_map, List.getElem?_map, List.getElem?_set_ne (Ne.symm hne), List.getElem?_set_self l1,
    List.getElem?_set_self (by simpa using l2)]
  exact ⟨rfl, rfl⟩

/-- **C120** (full): `swap` exchanges two versions completely, and so does the swap of the standard library, which is made of
three moves through a temporary. -/
theorem C120_swap (ops : List Op) (i j : Nat) (a b : Version) (ha : (spec ops)[i]? = some (some a))
    (hb : (spec ops)[j]? = some (some b)) :
    (shown (run (ops ++ [.swap i j])))[i]? = some (some (.ok b)) ∧
    (shown (run (ops ++ [.swap i j])))[j]? = some (some (.ok a)) ∧
    shown (run (ops ++ [.moveCtor i, .moveAssign i j, .moveAssign j (spec ops).length, .destroy (spec ops).length])) =
      shown (run (ops ++ [.swap i j])) ++ [none] := by
  have la := lt_of_some ha
  have lb := lt_of_some hb
  rw [C120_values, C120_values, spec_append, spec_append]
  generalize spec ops = l at ha hb la lb
  simp only [List.foldl_cons, List.foldl_nil]
  have s1 : specStep l (.swap i j) = (l.set i (some b)).set j (some a) := by simp only [specStep, ha, hb]
  have m1 : specStep l (.moveCtor i) = l.set i (some (bare a)) ++ [some a] := by simp only [specStep, ha, bare]
  have hlast : ∀ (x : List (Option Version)) (y : Option Version), x.length = l.length → (x ++ [y])[l.length]? = some y := by
    intro x y hx
    rw [List.getElem?_append_right (by omega), hx]; simp
  by_cases hij : i = j
  · subst hij
    rw [ha] at hb; cases hb
    rw [s1, m1]
    have g : (l.set i (some (bare a)) ++ [some a])[i]? = some (some (bare a)) := by
      rw [List.getElem?_append_left (by simpa using la), List.getElem?_set_self la]
    have m2 : specStep (l.set i (some (bare a)) ++ [some a]) (.moveAssign i i) = l.set i (some (bare a)) ++ [some a] := by
      simp only [specStep, g]
      rw [List.set_append_left _ _ (by simpa using la), List.set_append_left _ _ (by simpa using la)]
      simp [bare]
    have m3 : specStep (l.set i (some (bare a)) ++ [some a]) (.moveAssign i l.length) =
        l.set i (some a) ++ [some (bare a)] := by
      simp only [specStep, g, hlast (l.set i (some (bare a))) (some a) (by simp)]
      rw [List.set_append_right _ _ (by simp), List.set_append_left _ _ (by simpa using la)]
      simp [bare]
    rw [m2, m3]
    refine ⟨?_, ?_, ?_⟩
    · rw [List.getElem?_map, List.set_set, List.getElem?_set_self la]; rfl
    · rw [List.getElem?_map, List.set_set, List.getElem?_set_self la]; rfl
    · simp only [specStep]
      rw [List.set_append_right _ _ (by simp)]
      simp
  · rw [s1, m1]
    have g1 : (l.set i (some (bare a)) ++ [some a])[i]? = some (some (bare a)) := by
      rw [List.getElem?_append_left (by simpa using la), List.getElem?_set_self la]
    have g2 : (l.set i (some (bare a)) ++ [some a])[j]? = some (some b) := by
      rw [List.getElem?_append_left (by simpa using lb), List.getElem?_set_ne hij, hb]
    have m2 : specStep (l.set i (some (bare a)) ++ [some a]) (.moveAssign i j) =
        (l.set i (some b)).set j (some (bare b)) ++ [some a] := by
      simp only [specStep, g1, g2]
      rw [List.set_append_left _ _ (by simpa using lb), List.set_append_left _ _ (by simpa using la)]
      rw [List.set_comm _ _ hij, List.set_set, List.set_comm _ _ (Ne.symm hij)]
      rfl
    have g3 : ((l.set i (some b)).set j (some (bare b)) ++ [some a])[j]? = some (some (bare b)) := by
      rw [List.getElem?_append_left (by simpa using lb), List.getElem?_set_self (by simpa using lb)]
    have m3 : specStep ((l.set i (some b)).set j (some (bare b)) ++ [some a]) (.moveAssign j l.length) =
        (l.set i (some b)).set j (some a) ++ [some (bare a)] := by
      simp only [specStep, g3, hlast ((l.set i (some b)).set j (some (bare b))) (some a) (by simp)]
      rw [List.set_append_right _ _ (by simp), List.set_append_left _ _ (by simpa using lb)]
      simp [bare]
    rw [m2, m3]
    refine ⟨?_, ?_, ?_⟩
    · rw [List.getElem?_map, List.getElem?_set_ne (Ne.symm hij), List.getElem?_set_self la]; rfl
    · rw [List.getElem?_map, List.getElem?_set_self (by simpa using lb)]; rfl
    · simp only [specStep]
      rw [List.set_append_right _ _ (by simp)]
      simp

/-- The number of living versions with this pre-release label, and with this build label. -/
def withPre (s : Text) (vs : List (Option Version)) : Nat := vs.countP fun x => x.map Version.preRelease == some s
def withBuild (s : Text) (vs : List (Option Version)) : Nat := vs.countP fun x => x.map Version.build == some s

theorem count_set {P : Option Version → Bool} (l : List (Option Version)) (i : Nat) (x y : Option Version)
    (h : l[i]? = some x) : (l.set i y).countP P + (if P x then 1 else 0) = l.countP P + (if P y then 1 else 0) := by
  induction l generalizing i with
  | nil => cases h
  | cons z l ih =>
    cases i with
    | zero =>
      simp only [List.getElem?_cons_zero, Option.some.injEq] at h
      subst h
      simp only [List.set_cons_zero, List.countP_cons]
      omega
    | succ i =>
      simp only [List.getElem?_cons_succ] at h
      have := ih i h
      simp only [List.set_cons_succ, List.countP_cons]
      omega

/-- **C120** (full): moving, assigning and swapping neither lose nor duplicate a label: as many living versions show a
(non-empty) pre-release label after the operation as before, and the same for build labels. -/
theorem C120_conserved (ops : List Op) (op : Op) (hop : (∃ i, op = .moveCtor i) ∨ (∃ i j, op = .moveAssign i j) ∨
    ∃ i j, op = .swap i j) (s : Text) (hs : s ≠ []) :
    withPre s (spec (ops ++ [op])) = withPre s (spec ops) ∧ withBuild s (spec (ops ++ [op])) = withBuild s (spec ops) := by
  rw [spec_append]
  generalize spec ops = l
  simp only [List.foldl_cons, List.foldl_nil]
  have hne : ¬([] : Text) = s := fun h => hs h.symm
  rcases hop with ⟨i, rfl⟩ | ⟨i, j, rfl⟩ | ⟨i, j, rfl⟩
  · simp only [specStep]
    split
    · rename_i v hv
      simp only [withPre, withBuild, List.countP_append, List.countP_singleton]
      have h1 := count_set (P := fun x => x.map Version.preRelease == some s) l i _
        (some ⟨v.major, v.minor, v.patch, [], []⟩) hv
      have h2 := count_set (P := fun x => x.map Version.build == some s) l i _
        (some ⟨v.major, v.minor, v.patch, [], []⟩) hv
      simp only [Option.map_some, beq_iff_eq, Option.some.injEq, hne, if_false] at h1 h2 ⊢
      omega
    · exact ⟨rfl, rfl⟩
  · simp only [specStep]
    split
    · rename_i a b ha hb
      have lb := lt_of_some hb
      by_cases hij : i = j
      · subst hij
        rw [ha] at hb; cases hb
        rw [List.set_set]
        have h1 := count_set (P := fun x => x.map Version.preRelease == some s) l i _ (some a) ha
        have h2 := count_set (P := fun x => x.map Version.build == some s) l i _ (some a) ha
        exact ⟨by unfold withPre; omega, by unfold withBuild; omega⟩
      · have ha' : (l.set j (some ⟨b.major, b.minor, b.patch, a.preRelease, a.build⟩))[i]? = some (some a) := by
          rw [List.getElem?_set_ne (Ne.symm hij), ha]
        have h1 := count_set (P := fun x => x.map Version.preRelease == some s) l j _
          (some ⟨b.major, b.minor, b.patch, a.preRelease, a.build⟩) hb
        have h2 := count_set (P := fun x => x.map Version.build == some s) l j _
          (some ⟨b.major, b.minor, b.patch, a.preRelease, a.build⟩) hb
        have h3 := count_set (P := fun x => x.map Version.preRelease == some s) _ i _ (some b) ha'
        have h4 := count_set (P := fun x => x.map Version.build == some s) _ i _ (some b) ha'
        simp only [Option.map_some] at h1 h2 h3 h4
        exact ⟨by unfold withPre; omega, by unfold withBuild; omega⟩
    · exact ⟨rfl, rfl⟩
  · simp only [specStep]
    split
    · rename_i a b ha hb
      by_cases hij : i = j
      · subst hij
        rw [ha] at hb; cases hb
        rw [List.set_set]
        have h1 := count_set (P := fun x => x.map Version.preRelease == some s) l i _ (some a) ha
        have h2 := count_set (P := fun x => x.map Version.build == some s) l i _ (some a) ha
        exact ⟨by unfold withPre; omega, by unfold withBuild; omega⟩
      · have hb' : (l.set i (some b))[j]? = some (some b) := by rw [List.getElem?_set_ne hij, hb]
        have h1 := count_set (P := fun x => x.map Version.preRelease == some s) l i _ (some b) ha
        have h2 := count_set (P := fun x => x.map Version.build == some s) l i _ (some b) ha
        have h3 := count_set (P := fun x => x.map Version.preRelease == some s) _ j _ (some a) hb'
        have h4 := count_set (P := fun x => x.map Version.build == some s) _ j _ (some a) hb'
        exact ⟨by unfold withPre; omega, by unfold withBuild; omega⟩
    · exact ⟨rfl, rfl⟩

example : (∃ i, Op.moveCtor 0 = .moveCtor i) ∧ ([0x61#8] : Text) ≠ [] := ⟨⟨0, rfl⟩, by simp⟩

/-- **C120** (full): the version of the library itself (0.3.1, without labels) comes before every version from 1.0.0 on. -/
theorem C120_build_version (v : Version) (h : 1 ≤ v.major) :
    v.gt buildVersion = true ∧ buildVersion.gt v = false := by
  have h1 : v.major > buildVersion.major := h
  have h2 : ¬buildVersion.major > v.major := by show ¬0 > v.major; omega
  have h3 : buildVersion.major < v.major := h
  exact ⟨by rw [Version.gt, if_pos h1], by rw [Version.gt, if_neg h2, if_pos h3]⟩

example : 1 ≤ (⟨1, 0, 0, [], []⟩ : Version).major := by decide

/-- **C120** (full): the version of the library is the one without labels whose numbers are 0, 3 and 1: it is equal to no other, and
between those that differ from it by one in the last number. -/
theorem C120_build_exact (v : Version) :
    (v = buildVersion ↔ v.major = 0 ∧ v.minor = 3 ∧ v.patch = 1 ∧ v.preRelease = [] ∧ v.build = []) ∧
    (⟨0, 3, 2, [], []⟩ : Version).gt buildVersion = true ∧ buildVersion.gt ⟨0, 3, 0, [], []⟩ = true := by
  refine ⟨?_, by decide, by decide⟩
  rcases v with ⟨a, b, c, d, e⟩
  simp [buildVersion]

end Solace.VersionValue
