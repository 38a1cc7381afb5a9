import Verif.Model.EnvIterate
import Verif.Props.C65_Env
/-
C102: iterating over the environment while it is changed.
-/
namespace Solace.EnvIter
open Env.Spec
open Env (Fits Var eq shortValue ProperName)

/-! ### Specification -/

/-- Entries at even and at odd positions. -/
def evens : List α → List α
  | [] => []
  | [x] => [x]
  | x :: _ :: l => x :: evens l

def odds : List α → List α
  | [] => []
  | [_] => []
  | _ :: y :: l => y :: odds l

/-- The variable an entry is taken for (C65). -/
def var (e : List Byte) : Var := ⟨nameOf e, shortValue e⟩

/-- A well-formed environment: names are not empty and different, entries have a '=' and no zero byte. -/
structure Proper (env : Env.Environ) : Prop where
  fits : Fits env
  noZero : ∀ e ∈ env, 0#8 ∉ e
  hasEq : ∀ e ∈ env, eq ∈ e
  named : ∀ e ∈ env, nameOf e ≠ []
  distinct : env.Pairwise fun a b => nameOf a ≠ nameOf b

/-! ### The iterator -/

/-- `++` raises an exception exactly at the end, and otherwise goes one further. -/
theorem C102_increment (a : Iter) (h : a.size < 2 ^ 16) :
    (a.next = .throws ↔ a.size ≤ a.index) ∧ (a.index < a.size → a.next = .ok ⟨a.index + 1, a.size⟩) := by
  unfold Iter.next
  by_cases hi : a.index < a.size
  · rw [if_pos hi]
    refine ⟨⟨fun e => (by cases e), fun e => (by omega)⟩, fun _ => ?_⟩
    rw [wrap16_of_lt (by omega)]
  · rw [if_neg hi]
    exact ⟨⟨fun _ => by omega, fun _ => rfl⟩, fun e => absurd e hi⟩

theorem env_deref {env : Env.Environ} {i n : Nat} {e : List Byte} (he : env[i]? = some e) (hl : e.length < 2 ^ 16) (hn : i < n) :
    Env.deref env n i = .ok (var e) := by
  have hv : Env.viewOf e = e := by rw [Env.viewOf, wrap16_of_lt hl, List.take_length]
  rw [Env.deref, if_pos hn, he]
  simp only [hv]
  rw [StringView.split3_eq _ _ (by simp) hl _ (Nat.lt_succ_self _)]
  simp only
  rw [Env.assign_scan]
  rfl

theorem deref_entry {w : World} {a : Iter} {e : List Byte} (he : w.entries[a.index]? = some e) (hl : e.length < 2 ^ 16)
    (hn : a.index < a.size) : a.deref w = .ok (var e) := by
  have := (List.getElem?_eq_some_iff.mp he).1
  rw [Iter.deref, if_pos hn, if_pos this, env_deref he hl hn]

theorem deref_null {w : World} {a : Iter} (h1 : w.entries.length ≤ a.index) (h2 : a.index < w.entries.length + w.nulls)
    (hn : a.index < a.size) : a.deref w = .ok ⟨[], []⟩ := by
  rw [Iter.deref, if_pos hn, if_neg (by omega), if_pos h2]

theorem loop_end (f : Nat → Var → World → Outcome World) (n fuel : Nat) (w : World) :
    loop f ⟨n, n⟩ (fuel + 1) ⟨n, n⟩ w = .ok (w, []) := by
  simp [loop, Iter.ne]

theorem loop_step (f : Nat → Var → World → Outcome World) (n i fuel : Nat) (w w' : World) (v : Var) (hi : i < n) (hn : n < 2 ^ 16)
    (hd : Iter.deref w ⟨i, n⟩ = .ok v) (hf : f i v w = .ok w') :
    loop f ⟨n, n⟩ (fuel + 1) ⟨i, n⟩ w =
      (loop f ⟨n, n⟩ fuel ⟨i + 1, n⟩ w' >>= fun r => pure (r.1, v :: r.2)) := by
  have hne : Iter.ne ⟨i, n⟩ ⟨n, n⟩ = true := by
    simp only [Iter.ne, bne_iff_ne]; omega
  rw [loop, if_pos hne, hd, Outcome.bind_ok, hf, Outcome.bind_ok, ((C102_increment ⟨i, n⟩ hn).2 hi), Outcome.bind_ok]

theorem forEach_eq {fuel : Nat} {w : World} (h : w.entries.length < 2 ^ 16) (hf : w.entries.length < fuel)
    (f : Nat → Var → World → Outcome World) :
    forEach fuel f w = some (loop f ⟨w.entries.length, w.entries.length⟩ (2 ^ 16) ⟨0, w.entries.length⟩ w) := by
  have hs : Env.size fuel w.entries = some w.entries.length := Env.size_eq h fuel 0 (Nat.zero_le _) (by omega)
  simp only [forEach, iterBegin, iterEnd, hs, Option.map_some]

/-! ### Callbacks that leave what is still to be visited -/

/-- Partial: with a callback that leaves the entries not yet visited in their places (whatever else it does: adding variables, changing
visited ones), every variable of the environment is visited exactly once, in order, as it was before the loop; variables added by the
callback are not visited. Missing: callbacks that remove variables, see below. -/
theorem C102_stable_partial (w : World) (h : Fits w.entries) (fuel : Nat) (hf : w.entries.length < fuel)
    (f : Nat → Var → World → Outcome World)
    (keeps : ∀ i v w1, i < w.entries.length → ∃ w2, f i v w1 = .ok w2 ∧
      ∀ j, i < j → j < w.entries.length → w1.entries[j]? = w.entries[j]? → w2.entries[j]? = w1.entries[j]?) :
    ∃ w', forEach fuel f w = some (.ok (w', w.entries.map var)) := by
  rw [forEach_eq h.1 hf]
  have key : ∀ k i fuel (w1 : World), i + k = w.entries.length → k < fuel →
      (∀ j, i ≤ j → j < w.entries.length → w1.entries[j]? = w.entries[j]?) →
      ∃ w', loop f ⟨w.entries.length, w.entries.length⟩ fuel ⟨i, w.entries.length⟩ w1 = .ok (w', (w.entries.drop i).map var) := by
    intro k
    induction k with
    | zero =>
      intro i fuel w1 hi hk _
      obtain ⟨fuel, rfl⟩ : ∃ n, fuel = n + 1 := ⟨fuel - 1, by omega⟩
      have : i = w.entries.length := by omega
      subst this
      exact ⟨w1, by rw [loop_end, List.drop_length]; rfl⟩
    | succ k ih =>
      intro i fuel w1 hi hk hj
      obtain ⟨fuel, rfl⟩ : ∃ n, fuel = n + 1 := ⟨fuel - 1, by omega⟩
      have hlt : i < w.entries.length := by omega
      have hd : Iter.deref w1 ⟨i, w.entries.length⟩ = .ok (var w.entries[i]) := by
        refine deref_entry ?_ (h.2 _ (List.getElem_mem hlt)) hlt
        rw [show w1.entries[(Iter.mk i w.entries.length).index]? = _ from hj i (Nat.le_refl _) hlt, List.getElem?_eq_getElem hlt]
      obtain ⟨w2, e2, k2⟩ := keeps i (var w.entries[i]) w1 hlt
      obtain ⟨w', e'⟩ := ih (i + 1) fuel w2 (by omega) (by omega)
        (fun j h1 h2 => (k2 j (by omega) h2 (hj j (by omega) h2)).trans (hj j (by omega) h2))
      refine ⟨w', ?_⟩
      rw [loop_step f _ i fuel w1 w2 _ hlt h.1 hd e2, e', Outcome.bind_ok, Outcome.pure_def, List.drop_eq_getElem_cons hlt, List.map_cons]
  have := key w.entries.length 0 (2 ^ 16) w (by omega) h.1 (fun _ _ _ => rfl)
  simpa using this

/-- For example: a callback that sets a variable which is not in the environment before the loop (adding it in the first round, and
replacing its value afterwards). -/
theorem C102_set_new (w : World) (h : Fits w.entries) (hq : ∀ e ∈ w.entries, eq ∈ e) (fuel : Nat) (hf : w.entries.length < fuel)
    (memory replace : Bool) (name value : List Byte) (hn : ProperName name [0#8]) (hv : 0#8 ∉ value)
    (hnew : ∀ e ∈ w.entries, nameOf e ≠ name) :
    ∃ w', forEach fuel (fun _ _ w1 => (w1.set memory name [0#8] value [0#8] replace) >>= fun r => pure r.1) w =
      some (.ok (w', w.entries.map var)) := by
  refine C102_stable_partial w h fuel hf _ ?_
  intro i v w1 hi
  rw [World.set, Env.set_eq memory w1.entries name [0#8] value [0#8] replace hn ⟨hv, fun _ => ⟨[], rfl⟩⟩]
  refine ⟨_, rfl, ?_⟩
  intro j _ hj hold
  show (Env.Libc.setenv memory w1.entries name value replace).1[j]? = _
  unfold Env.Libc.setenv
  rw [Env.validName_proper hn]
  simp only [Bool.not_true, Bool.false_eq_true, if_false]
  have hjs : w1.entries[j]? = some w.entries[j] := by rw [hold, List.getElem?_eq_getElem hj]
  have hlt1 : j < w1.entries.length := (List.getElem?_eq_some_iff.mp hjs).1
  split
  · rename_i k hk
    have hne : k ≠ j := by
      intro e
      subst e
      obtain ⟨hk1, hk2, _⟩ := List.findIdx?_eq_some_iff_getElem.mp hk
      have e1 : w1.entries[k] = w.entries[k] := by
        rw [List.getElem?_eq_getElem hk1] at hjs
        exact Option.some.inj hjs
      rw [e1] at hk2
      have hm := List.getElem_mem hj
      exact hnew _ hm ((Env.defines_iff name _ hn.noEq (hq _ hm)).mp hk2)
    split
    · rfl
    · split
      · rfl
      · show (w1.entries.set k _)[j]? = _
        rw [List.getElem?_set_ne hne]
  · split
    · rfl
    · show (w1.entries ++ _)[j]? = _
      rw [List.getElem?_append_left hlt1]

/-! ### Names taken from the environment -/

/-- Negation: the name of a variable as given by iteration cannot be used to change that variable. `set` and `unset` take the text from
its first character to the next zero byte as the name, which is the whole entry with its '=', and refuse it. For every entry. -/
theorem C102_own_name (env : Env.Environ) (e : List Byte) (hq : eq ∈ e) (h0 : 0#8 ∉ e) (hn : nameOf e ≠ []) (rest : List Byte)
    (memory replace : Bool) (value after : List Byte) (hv : Env.ProperValue value after) :
    Env.unset env (nameOf e) (eq :: valueOf e ++ 0#8 :: rest) = .ok (env, .error .errno) ∧
      Env.set memory env (nameOf e) (eq :: valueOf e ++ 0#8 :: rest) value after replace = .ok (env, .error .errno) := by
  have hc : Env.cstr (nameOf e) (eq :: valueOf e ++ 0#8 :: rest) = .ok e := by
    have : nameOf e ++ (eq :: valueOf e ++ 0#8 :: rest) = e ++ 0#8 :: rest := by
      rw [← List.append_assoc, ← (Env.entry_split e hq).1]
    rw [Env.cstr, this]
    have h := Env.cstr_proper e (0#8 :: rest) h0 ⟨rest, rfl⟩
    rw [Env.cstr] at h
    exact h
  have hbad : Env.Libc.validName e = false := by
    rw [Env.Libc.validName]
    have : e.contains eq = true := by simpa using hq
    rw [this]
    cases e.isEmpty <;> rfl
  constructor
  · have hne : (nameOf e).isEmpty = false := by
      cases hc2 : nameOf e with
      | nil => exact absurd hc2 hn
      | cons _ _ => rfl
    rw [Env.unset, hne, if_neg (by decide), hc, Outcome.bind_ok]
    show Outcome.ok (Env.Libc.unsetenv env e) = _
    rw [Env.Libc.unsetenv, hbad]
    rfl
  · rw [Env.set, hc, Outcome.bind_ok]
    have hset : ∀ v, Env.Libc.setenv memory env e v replace = (env, .error .errno) := by
      intro v
      rw [Env.Libc.setenv, hbad]
      rfl
    cases value with
    | nil => exact congrArg Outcome.ok (hset [])
    | cons c cs =>
      rw [show ((c :: cs).isEmpty) = false from rfl, if_neg (by decide), Env.cstr_proper _ _ hv.1 (hv.2 (by simp)), Outcome.bind_ok]
      exact congrArg Outcome.ok (hset (c :: cs))

/-! ### Removing variables -/

/-- The callback that removes the variable it is given, by a copy of its name. -/
def unsetEach (_ : Nat) (v : Var) (w : World) : Outcome World := w.unset v.name [0#8] >>= fun r => pure r.1

theorem unsetEach_empty (i : Nat) (w : World) : unsetEach i ⟨[], []⟩ w = .ok w := by
  show Outcome.ok _ = _
  simp [Env.Libc.unsetenv, Env.Libc.validName]

theorem filter_distinct (kept tl : List (List Byte)) (x : List Byte) (hq : ∀ e ∈ kept ++ x :: tl, eq ∈ e)
    (hd : (kept ++ x :: tl).Pairwise fun a b => nameOf a ≠ nameOf b) :
    (kept ++ x :: tl).filter (fun e => !Env.Libc.defines (nameOf x) e) = kept ++ tl := by
  have hx := (Env.entry_split x (hq x (by simp))).2
  have keep : ∀ (l : List (List Byte)), (∀ e ∈ l, eq ∈ e ∧ nameOf e ≠ nameOf x) →
      l.filter (fun e => !Env.Libc.defines (nameOf x) e) = l := by
    intro l hl
    rw [List.filter_eq_self]
    intro e he
    have := hl e he
    cases hb : Env.Libc.defines (nameOf x) e with
    | false => rfl
    | true => exact absurd ((Env.defines_iff _ e hx this.1).mp hb) this.2
  rw [List.pairwise_append] at hd
  obtain ⟨_, h2, h3⟩ := hd
  rw [List.pairwise_cons] at h2
  have hself : Env.Libc.defines (nameOf x) x = true := (Env.defines_iff _ x hx (hq x (by simp))).mpr rfl
  rw [List.filter_append, List.filter_cons, hself]
  simp only [Bool.not_true, Bool.false_eq_true, if_false]
  rw [keep kept (fun e he => ⟨hq e (by simp [he]), h3 e he x (by simp)⟩),
    keep tl (fun e he => ⟨hq e (by simp [he]), fun h => h2.1 e he h.symm⟩)]

theorem unsetEach_var (i : Nat) (kept tl : List (List Byte)) (x : List Byte) (nulls : Nat) (hp : Proper (kept ++ x :: tl)) :
    unsetEach i (var x) ⟨kept ++ x :: tl, nulls⟩ = .ok ⟨kept ++ tl, nulls + 1⟩ := by
  have hm : x ∈ kept ++ x :: tl := by simp
  have hsp := Env.entry_split x (hp.hasEq x hm)
  have hname : ProperName (nameOf x) [0#8] := by
    refine ⟨hp.named x hm, hsp.2, ?_, ⟨[], rfl⟩⟩
    intro h
    refine hp.noZero x hm ?_
    rw [hsp.1]
    exact List.mem_append_left _ h
  have hne : (nameOf x).isEmpty = false := by
    cases hc2 : nameOf x with
    | nil => exact absurd hc2 hname.nonempty
    | cons _ _ => rfl
  have hu : Env.unset (kept ++ x :: tl) (nameOf x) [0#8] = .ok (kept ++ tl, .ok ()) := by
    rw [Env.unset, hne, if_neg (by decide), Env.cstr_proper _ _ hname.noZero hname.ends, Outcome.bind_ok]
    show Outcome.ok (Env.Libc.unsetenv (kept ++ x :: tl) (nameOf x)) = _
    rw [Env.Libc.unsetenv, Env.validName_proper hname, filter_distinct kept tl x hp.hasEq hp.distinct]
    rfl
  show (World.unset ⟨kept ++ x :: tl, nulls⟩ (nameOf x) [0#8] >>= fun r => pure r.1) = _
  rw [World.unset, hu, Outcome.bind_ok, Outcome.pure_def, Outcome.bind_ok, Outcome.pure_def]
  simp only [List.length_append, List.length_cons]
  congr 2
  omega

theorem Proper.drop_one {kept tl : List (List Byte)} {x : List Byte} (hp : Proper (kept ++ x :: tl)) : Proper (kept ++ tl) := by
  have hsub : (kept ++ tl).Sublist (kept ++ x :: tl) := List.Sublist.append_left (List.sublist_cons_self x tl) kept
  refine ⟨⟨?_, ?_⟩, ?_, ?_, ?_, hp.distinct.sublist hsub⟩
  · have := hp.fits.1
    simp only [List.length_append, List.length_cons] at this ⊢
    omega
  · exact fun e he => hp.fits.2 e (hsub.subset he)
  · exact fun e he => hp.noZero e (hsub.subset he)
  · exact fun e he => hp.hasEq e (hsub.subset he)
  · exact fun e he => hp.named e (hsub.subset he)

theorem loop_nulls (n : Nat) (hn : n < 2 ^ 16) (w : World) : ∀ k i fuel, i + k = n → k < fuel → w.entries.length ≤ i →
    n ≤ w.entries.length + w.nulls → loop unsetEach ⟨n, n⟩ fuel ⟨i, n⟩ w = .ok (w, List.replicate k ⟨[], []⟩) := by
  intro k
  induction k with
  | zero =>
    intro i fuel hi hk _ _
    obtain ⟨fuel, rfl⟩ : ∃ n, fuel = n + 1 := ⟨fuel - 1, by omega⟩
    have : i = n := by omega
    subst this
    rw [loop_end]
    rfl
  | succ k ih =>
    intro i fuel hi hk hl hw
    obtain ⟨fuel, rfl⟩ : ∃ n, fuel = n + 1 := ⟨fuel - 1, by omega⟩
    rw [loop_step unsetEach n i fuel w w ⟨[], []⟩ (by omega) hn (deref_null hl (by show i < _; omega) (by show i < n; omega))
      (unsetEach_empty i w), ih (i + 1) fuel (by omega) (by omega) (by omega) hw]
    rfl

theorem evens_length : ∀ (l : List α), (evens l).length + (odds l).length = l.length ∧ (odds l).length ≤ (evens l).length
  | [] => ⟨rfl, Nat.le_refl _⟩
  | [_] => ⟨rfl, Nat.zero_le _⟩
  | _ :: _ :: l => by
    have := evens_length l
    simp only [evens, odds, List.length_cons]
    omega

theorem loop_unset (n : Nat) (hn : n < 2 ^ 16) : ∀ m (tl kept : List (List Byte)) (nulls i k fuel : Nat), tl.length = m →
    Proper (kept ++ tl) → kept.length = i → i + k = n → k < fuel → tl.length ≤ k → n < kept.length + tl.length + nulls →
    ∃ nulls', loop unsetEach ⟨n, n⟩ fuel ⟨i, n⟩ ⟨kept ++ tl, nulls⟩ =
      .ok (⟨kept ++ odds tl, nulls'⟩, (evens tl).map var ++ List.replicate (k - (evens tl).length) ⟨[], []⟩) := by
  intro m
  induction m using Nat.strongRecOn with
  | ind m ih =>
    intro tl kept nulls i k fuel hm hp hi hk hfuel hlk hw
    match tl, hm, hp, hlk, hw with
    | [], _, _, _, hw =>
      refine ⟨nulls, ?_⟩
      rw [List.append_nil]
      simp only [odds, evens, List.append_nil, List.map_nil, List.nil_append, List.length_nil, Nat.sub_zero]
      exact loop_nulls n hn ⟨kept, nulls⟩ k i fuel hk hfuel (by show kept.length ≤ i; omega)
        (by show n ≤ kept.length + nulls; simp only [List.length_nil] at hw; omega)
    | [x], _, hp, hlk, hw =>
      simp only [List.length_cons, List.length_nil] at hlk hw
      obtain ⟨fuel, rfl⟩ : ∃ n, fuel = n + 1 := ⟨fuel - 1, by omega⟩
      have hd : Iter.deref ⟨kept ++ [x], nulls⟩ ⟨i, n⟩ = .ok (var x) :=
        deref_entry (by show (kept ++ [x])[i]? = _; rw [List.getElem?_append_right (by omega)]; simp [hi])
          (hp.fits.2 x (by simp)) (by show i < n; omega)
      have hu := unsetEach_var i kept [] x nulls hp
      rw [List.append_nil] at hu
      refine ⟨nulls + 1, ?_⟩
      rw [loop_step unsetEach n i fuel _ _ _ (by omega) hn hd hu,
        loop_nulls n hn ⟨kept, nulls + 1⟩ (k - 1) (i + 1) fuel (by omega) (by omega) (by show kept.length ≤ _; omega)
          (by show n ≤ kept.length + (nulls + 1); omega)]
      simp [odds, evens]
    | x :: y :: l, hm, hp, hlk, hw =>
      simp only [List.length_cons] at hlk hw hm
      obtain ⟨fuel, rfl⟩ : ∃ n, fuel = n + 1 := ⟨fuel - 1, by omega⟩
      have hd : Iter.deref ⟨kept ++ x :: y :: l, nulls⟩ ⟨i, n⟩ = .ok (var x) :=
        deref_entry (by show (kept ++ x :: y :: l)[i]? = _; rw [List.getElem?_append_right (by omega)]; simp [hi])
          (hp.fits.2 x (by simp)) (by show i < n; omega)
      have hu := unsetEach_var i kept (y :: l) x nulls hp
      have hcat : kept ++ y :: l = (kept ++ [y]) ++ l := by simp
      obtain ⟨nulls', e⟩ := ih l.length (by omega) l (kept ++ [y]) (nulls + 1) (i + 1) (k - 1) fuel rfl
        (by rw [← hcat]; exact hp.drop_one) (by simp [hi]) (by omega) (by omega) (by omega)
        (by simp only [List.length_append, List.length_cons, List.length_nil]; omega)
      refine ⟨nulls', ?_⟩
      rw [loop_step unsetEach n i fuel _ _ _ (by omega) hn hd hu, hcat, e]
      simp only [Outcome.bind_ok, Outcome.pure_def, odds, evens, List.map_cons, List.length_cons, List.cons_append, List.append_assoc,
        List.nil_append]
      rw [show k - ((evens l).length + 1) = k - 1 - (evens l).length by omega]

/-- Negation: removing every visited variable removes and visits only every second one, and then visits variables without a name that
are not in the environment. For every environment. -/
theorem C102_unset_skips (w : World) (hp : Proper w.entries) (h1 : 1 ≤ w.nulls) (fuel : Nat) (hf : w.entries.length < fuel) :
    ∃ nulls, forEach fuel unsetEach w = some (.ok (⟨odds w.entries, nulls⟩,
      (evens w.entries).map var ++ List.replicate (odds w.entries).length ⟨[], []⟩)) := by
  rw [forEach_eq hp.fits.1 hf]
  obtain ⟨nulls, e⟩ := loop_unset w.entries.length hp.fits.1 w.entries.length w.entries [] w.nulls 0 w.entries.length (2 ^ 16) rfl
    hp rfl (by omega) hp.fits.1 (Nat.le_refl _) (by simp only [List.length_nil]; omega)
  refine ⟨nulls, ?_⟩
  have := evens_length w.entries
  rw [show (odds w.entries).length = w.entries.length - (evens w.entries).length by omega]
  exact congrArg some e

/-- Negation: with two variables or more, emptying the environment in the first call is undefined behaviour in the second. -/
theorem C102_clear_undefined (w : World) (hp : Fits w.entries) (h2 : 2 ≤ w.entries.length) (fuel : Nat) (hf : w.entries.length < fuel) :
    forEach fuel (fun _ _ w1 => .ok (w1.clear true).1) w = some .ub := by
  rw [forEach_eq hp.1 hf]
  have hlt : 0 < w.entries.length := by omega
  have hd : Iter.deref w ⟨0, w.entries.length⟩ = .ok (var w.entries[0]) :=
    deref_entry (List.getElem?_eq_getElem hlt) (hp.2 _ (List.getElem_mem hlt)) hlt
  have e := loop_step (fun _ _ w1 => .ok (w1.clear true).1) w.entries.length 0 (2 ^ 16 - 1) w ⟨[], 0⟩ _ hlt hp.1 hd rfl
  rw [show 2 ^ 16 - 1 + 1 = 2 ^ 16 from rfl] at e
  rw [e]
  have : loop (fun _ _ w1 => .ok (w1.clear true).1) ⟨w.entries.length, w.entries.length⟩ (2 ^ 16 - 1) ⟨0 + 1, w.entries.length⟩
      ⟨[], 0⟩ = .ub := by
    rw [show (2 ^ 16 - 1 : Nat) = 65534 + 1 from rfl, loop]
    have hne : Iter.ne ⟨0 + 1, w.entries.length⟩ ⟨w.entries.length, w.entries.length⟩ = true := by
      simp only [Iter.ne, bne_iff_ne]; omega
    have hd2 : Iter.deref ⟨[], 0⟩ ⟨0 + 1, w.entries.length⟩ = .ub := by
      rw [Iter.deref, if_pos (by show 0 + 1 < w.entries.length; omega)]
      rfl
    rw [if_pos hne, hd2]
    rfl
  rw [this]
  rfl

/-- Negation: adding a variable gives the environment a new array with a single null pointer. With an iterator that was made
when there were more variables, a position beyond that null pointer is undefined; whatever was removed before. -/
theorem C102_add_after_removal_undefined (w : World) (hq : ∀ e ∈ w.entries, eq ∈ e) (name value : List Byte) (replace : Bool)
    (hn : ProperName name [0#8]) (hv : 0#8 ∉ value) (hnew : ∀ e ∈ w.entries, nameOf e ≠ name) :
    ∃ w', w.set true name [0#8] value [0#8] replace = .ok (w', .ok ()) ∧
      ∀ i n, w.entries.length + 2 ≤ i → i < n → Iter.deref w' ⟨i, n⟩ = .ub := by
  have hs : Env.Libc.setenv true w.entries name value replace = (w.entries ++ [name ++ eq :: value], .ok ()) := by
    unfold Env.Libc.setenv
    rw [Env.validName_proper hn]
    have hf : w.entries.findIdx? (Env.Libc.defines name) = none := by
      rw [List.findIdx?_eq_none_iff]
      intro e he
      rw [← Bool.not_eq_true]
      exact fun hd => hnew e he ((Env.defines_iff name _ hn.noEq (hq e he)).mp hd)
    simp only [Bool.not_true, Bool.false_eq_true, if_false, hf]
  refine ⟨⟨w.entries ++ [name ++ eq :: value], 1⟩, ?_, ?_⟩
  · rw [World.set, Env.set_eq true w.entries name [0#8] value [0#8] replace hn ⟨hv, fun _ => ⟨[], rfl⟩⟩, hs, Outcome.bind_ok]
    have : (w.entries ++ [name ++ eq :: value]).length ≠ w.entries.length := by
      rw [List.length_append, List.length_singleton]; omega
    show Outcome.ok _ = _
    rw [if_neg this]
  · intro i n hi hin
    rw [Iter.deref, if_pos hin]
    show (if i < (w.entries ++ [name ++ eq :: value]).length then _ else if i < (w.entries ++ [name ++ eq :: value]).length + 1 then _ else _) = _
    rw [List.length_append, List.length_singleton, if_neg (by omega), if_neg (by omega)]

/-! ### Examples -/

/-- A=1 B=2 C=3. -/
def three : Env.Environ := [[65#8, 61#8, 49#8], [66#8, 61#8, 50#8], [67#8, 61#8, 51#8]]

example : Proper three :=
  ⟨⟨by decide, by decide⟩, by decide, by decide, by decide, by decide⟩

example : odds three = [[66#8, 61#8, 50#8]] := rfl

example : ProperName [68#8] [0#8] ∧ ∀ e ∈ three, nameOf e ≠ [68#8] := ⟨⟨by decide, by decide, by decide, ⟨[], rfl⟩⟩, by decide⟩

example : Env.ProperValue [49#8] [0#8] := ⟨by decide, fun _ => ⟨[], rfl⟩⟩

end Solace.EnvIter
