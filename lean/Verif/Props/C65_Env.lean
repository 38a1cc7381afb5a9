import Verif.Model.Env
import Verif.Spec.Env
import Verif.Lemmas.StringView
/-
C65: environment variables read back.
-/
namespace Solace.Env
open Spec

/-- What `operator->` takes for the value: up to the second '='. -/
def shortValue (e : List Byte) : List Byte := nameOf (valueOf e)

theorem nameOf_cons {c : Byte} (cs : List Byte) (hc : ¬c = eq) : nameOf (c :: cs) = c :: nameOf cs := by
  have hb : (c != 61#8) = true := by rw [bne_iff_ne]; exact hc
  rw [nameOf, List.takeWhile_cons, hb]
  rfl

theorem valueOf_cons {c : Byte} (cs : List Byte) (hc : ¬c = eq) : valueOf (c :: cs) = valueOf cs := by
  have hb : (c != 61#8) = true := by rw [bne_iff_ne]; exact hc
  rw [valueOf, List.dropWhile_cons, hb]
  rfl

theorem scan_eq (cur rest : List Byte) :
    (eq ∉ rest ∧ StringView.scan [eq] cur rest = [cur ++ rest] ∧ nameOf rest = rest ∧ valueOf rest = []) ∨
    (eq ∈ rest ∧ StringView.scan [eq] cur rest = (cur ++ nameOf rest) :: StringView.scan [eq] [] (valueOf rest)) := by
  induction rest generalizing cur with
  | nil => left; exact ⟨by simp, by rw [StringView.scan_nil _ _ (by simp), List.append_nil], rfl, rfl⟩
  | cons c cs ih =>
    by_cases hc : c = eq
    · right
      refine ⟨by rw [hc]; exact List.mem_cons_self .., ?_⟩
      rw [StringView.scan_match (by simp) (by rw [hc]; exact ⟨cs, rfl⟩)]
      have h1 : nameOf (c :: cs) = [] := by rw [hc]; rfl
      have h2 : valueOf (c :: cs) = cs := by rw [hc]; rfl
      rw [h1, h2, List.append_nil]
      rfl
    · have hn : ¬[eq] <+: c :: cs := by
        rintro ⟨t, ht⟩
        exact hc (List.cons.inj ht).1.symm
      have h1 := nameOf_cons cs hc
      have h2 := valueOf_cons cs hc
      rw [StringView.scan_cons hn, h1, h2]
      rcases ih (cur ++ [c]) with ⟨a, b, d, e⟩ | ⟨a, b⟩
      · left
        refine ⟨?_, by rw [b]; simp, by rw [d], e⟩
        intro h
        rcases List.mem_cons.mp h with h | h
        · exact hc h.symm
        · exact a h
      · right
        exact ⟨List.mem_cons_of_mem _ a, by rw [b]; simp⟩

theorem assign_rest (v : Var) (n : Nat) (ps : List (List Byte)) : ∀ i, 2 ≤ i → (StringView.number i n ps).foldl assign v = v := by
  induction ps with
  | nil => intro i _; rfl
  | cons p ps ih =>
    intro i hi
    rw [StringView.number, List.foldl_cons, assign]
    simp only
    rw [if_neg (by omega), if_neg (by omega), ih _ (by omega)]

theorem assign_scan (e : List Byte) (n : Nat) :
    (StringView.number 0 n (StringView.scan [eq] [] e)).foldl assign ⟨[], []⟩ = ⟨nameOf e, shortValue e⟩ := by
  rcases scan_eq [] e with ⟨_, h, hn, hv⟩ | ⟨_, h⟩
  · rw [h, shortValue, hv, hn]
    rfl
  · rw [h, StringView.number, List.foldl_cons]
    have h0 : assign ⟨[], []⟩ (([] : List Byte) ++ nameOf e, 0, n) = ⟨nameOf e, []⟩ := rfl
    rw [h0]
    rcases scan_eq [] (valueOf e) with ⟨_, h', hn, _⟩ | ⟨_, h'⟩
    · rw [h', shortValue, hn]
      rfl
    · rw [h', StringView.number, List.foldl_cons, assign_rest _ _ _ _ (by decide)]
      rfl

/-- All entries fit a view and the counter. -/
def Fits (env : Environ) : Prop := env.length < 2 ^ 16 ∧ ∀ e ∈ env, e.length < 2 ^ 16

theorem deref_eq {env : Environ} (h : Fits env) (i : Nat) (hi : i < env.length) :
    deref env env.length i = .ok ⟨nameOf env[i], shortValue env[i]⟩ := by
  have hl := h.2 _ (List.getElem_mem hi)
  have hv : viewOf env[i] = env[i] := by rw [viewOf, wrap16_of_lt hl, List.take_length]
  rw [deref, if_pos hi, List.getElem?_eq_getElem hi]
  simp only [hv]
  rw [StringView.split3_eq _ _ (by simp) hl _ (Nat.lt_succ_self _)]
  simp only
  rw [assign_scan]

theorem getLoop_eq {env : Environ} (h : Fits env) (name : List Byte) : ∀ k i, i + k = env.length →
    getLoop env name env.length k i = .ok (((env.drop i).find? fun e => nameOf e == name).map shortValue) := by
  intro k
  induction k with
  | zero =>
    intro i hi
    rw [List.drop_eq_nil_of_le (by omega)]
    rfl
  | succ k ih =>
    intro i hi
    have hlt : i < env.length := by omega
    rw [getLoop, deref_eq h i hlt, Outcome.bind_ok, List.drop_eq_getElem_cons hlt, List.find?_cons]
    have hw : wrap16 (i + 1) = i + 1 := wrap16_of_lt (by have := h.1; omega)
    by_cases hn : nameOf env[i] = name
    · rw [if_pos (by rw [hn]; exact StringView.equals_self name)]
      have : (nameOf env[i] == name) = true := by rw [hn]; exact beq_self_eq_true name
      rw [this]
      rfl
    · rw [if_neg (fun hh => hn ((StringView.equals_iff _ _).mp hh)), hw, ih (i + 1) (by omega)]
      have : (nameOf env[i] == name) = false := by simpa using hn
      rw [this]

theorem size_eq {env : Environ} (h : env.length < 2 ^ 16) : ∀ fuel i, i ≤ env.length → env.length - i < fuel →
    sizeLoop env fuel i = some env.length := by
  intro fuel
  induction fuel with
  | zero => intro i _ hf; omega
  | succ fuel ih =>
    intro i hi hf
    rw [sizeLoop]
    by_cases hlt : i < env.length
    · rw [if_pos hlt, wrap16_of_lt (by omega), ih (i + 1) (by omega) (by omega)]
    · rw [if_neg hlt]
      exact congrArg some (by omega)

theorem get_eq {env : Environ} (h : Fits env) (name : List Byte) (fuel : Nat) (hf : env.length < fuel) :
    get fuel env name = some (.ok ((env.find? fun e => nameOf e == name).map shortValue)) := by
  rw [get, size, size_eq h.1 fuel 0 (Nat.zero_le _) (by omega)]
  simp only [Option.map_some]
  rw [getLoop_eq h name _ 0 (by omega), List.drop_zero]
  rfl

theorem nameOf_entry (n v : List Byte) (hn : eq ∉ n) : nameOf (n ++ eq :: v) = n ∧ valueOf (n ++ eq :: v) = v := by
  induction n with
  | nil => exact ⟨rfl, rfl⟩
  | cons c cs ih =>
    have hc : ¬c = eq := fun h => hn (by rw [h]; exact List.mem_cons_self ..)
    obtain ⟨a, b⟩ := ih fun h => hn (List.mem_cons_of_mem _ h)
    exact ⟨by rw [List.cons_append, nameOf_cons _ hc, a], by rw [List.cons_append, valueOf_cons _ hc, b]⟩

theorem nameOf_free {v : List Byte} (h : eq ∉ v) : nameOf v = v := by
  rcases scan_eq [] v with ⟨_, _, hn, _⟩ | ⟨hm, _⟩
  · exact hn
  · exact absurd hm h

/-- An entry with '=' is its name, '=', its value. -/
theorem entry_split (e : List Byte) (h : eq ∈ e) : e = nameOf e ++ eq :: valueOf e ∧ eq ∉ nameOf e := by
  induction e with
  | nil => cases h
  | cons c cs ih =>
    by_cases hc : c = eq
    · rw [hc]
      exact ⟨rfl, fun h => by cases h⟩
    · have h1 := nameOf_cons cs hc
      have h2 := valueOf_cons cs hc
      have hm : eq ∈ cs := by
        rcases List.mem_cons.mp h with h | h
        · exact absurd h.symm hc
        · exact h
      obtain ⟨a, b⟩ := ih hm
      rw [h1, h2, List.cons_append, ← a]
      refine ⟨rfl, fun h => ?_⟩
      rcases List.mem_cons.mp h with h | h
      · exact hc h.symm
      · exact b h

theorem defines_iff (n e : List Byte) (hn : eq ∉ n) (he : eq ∈ e) : Libc.defines n e = true ↔ nameOf e = n := by
  rw [Libc.defines, List.isPrefixOf_iff_prefix]
  constructor
  · rintro ⟨t, ht⟩
    rw [← ht]
    have : n ++ [eq] ++ t = n ++ eq :: t := by simp
    rw [this, (nameOf_entry n t hn).1]
  · intro h
    refine ⟨valueOf e, ?_⟩
    have := (entry_split e he).1
    rw [h] at this
    rw [List.append_assoc]
    exact this.symm

/-- A name that can be set: a C string in its own right. -/
structure ProperName (name after : List Byte) : Prop where
  nonempty : name ≠ []
  noEq : eq ∉ name
  noZero : 0#8 ∉ name
  ends : ∃ rest, after = 0#8 :: rest

theorem cstr_proper (s after : List Byte) (h : 0#8 ∉ s) (he : ∃ rest, after = 0#8 :: rest) : cstr s after = .ok s := by
  obtain ⟨rest, hr⟩ := he
  rw [cstr, if_pos (by rw [hr]; simp), hr]
  refine congrArg Outcome.ok ?_
  rw [List.takeWhile_append_of_pos]
  · simp
  · intro c hc
    rw [bne_iff_ne]
    intro h0
    rw [h0] at hc
    exact h hc

theorem validName_proper {name after : List Byte} (h : ProperName name after) : Libc.validName name = true := by
  rw [Libc.validName]
  have h1 : name.isEmpty = false := by
    cases hn : name with
    | nil => exact absurd hn h.nonempty
    | cons _ _ => rfl
  have h2 : name.contains eq = false := by
    cases hc : name.contains eq with
    | false => rfl
    | true => exact absurd (by simpa using hc) h.noEq
  rw [h1, h2]
  rfl

/-- The value is a C string too (an empty one is replaced by ""). -/
def ProperValue (value after : List Byte) : Prop := 0#8 ∉ value ∧ (value ≠ [] → ∃ rest, after = 0#8 :: rest)

/-- What a successful `set` did: to the first entry with that name, or at the end. -/
theorem set_eq (memory : Bool) (env : Environ) (name nameAfter value valueAfter : List Byte) (replace : Bool)
    (hn : ProperName name nameAfter) (hv : ProperValue value valueAfter) :
    set memory env name nameAfter value valueAfter replace = .ok (Libc.setenv memory env name value replace) := by
  rw [set, cstr_proper name nameAfter hn.noZero hn.ends, Outcome.bind_ok]
  cases value with
  | nil => rfl
  | cons c cs =>
    have : ((c :: cs).isEmpty) = false := rfl
    rw [this, if_neg (by decide), cstr_proper _ _ hv.1 (hv.2 (by simp)), Outcome.bind_ok]
    rfl

theorem setenv_cases {memory : Bool} {env env' : Environ} {name value : List Byte} {replace : Bool} {after : List Byte}
    (hn : ProperName name after) (h : Libc.setenv memory env name value replace = (env', .ok ())) :
    (∃ i, env.findIdx? (Libc.defines name) = some i ∧ replace = false ∧ env' = env) ∨
    (∃ i, env.findIdx? (Libc.defines name) = some i ∧ replace = true ∧ env' = env.set i (name ++ eq :: value)) ∨
    (env.findIdx? (Libc.defines name) = none ∧ env' = env ++ [name ++ eq :: value]) := by
  rw [Libc.setenv, validName_proper hn] at h
  simp only [Bool.not_true, Bool.false_eq_true, if_false] at h
  cases hf : env.findIdx? (Libc.defines name) with
  | none =>
    rw [hf] at h
    simp only at h
    right; right
    cases memory with
    | true => simp only [Bool.not_true, Bool.false_eq_true, if_false] at h; exact ⟨rfl, (Prod.mk.inj h).1.symm⟩
    | false => simp at h
  | some i =>
    rw [hf] at h
    simp only at h
    cases replace with
    | false => left; simp at h; exact ⟨i, rfl, rfl, h.symm⟩
    | true =>
      right; left
      cases memory with
      | true => simp at h; exact ⟨i, rfl, rfl, h.symm⟩
      | false => simp at h

theorem find_set_first (env : Environ) (p : List Byte → Bool) (i : Nat) (e : List Byte) (hi : env.findIdx? p = some i) (he : p e = true) :
    (env.set i e).find? p = some e := by
  induction env generalizing i with
  | nil => cases hi
  | cons x xs ih =>
    rw [List.findIdx?_cons] at hi
    by_cases hx : p x = true
    · rw [if_pos hx] at hi
      cases hi
      rw [List.set_cons_zero, List.find?_cons, he]
    · rw [if_neg hx] at hi
      cases hf : xs.findIdx? p with
      | none => rw [hf] at hi; cases hi
      | some j =>
        rw [hf] at hi
        cases hi
        rw [List.set_cons_succ, List.find?_cons]
        simp only [Bool.not_eq_true] at hx
        rw [hx]
        exact ih j hf

theorem find_set_other (env : Environ) (p q : List Byte → Bool) (i : Nat) (e : List Byte) (hi : env.findIdx? p = some i) (he : q e = false)
    (hpq : ∀ x ∈ env, p x = true → q x = false) : (env.set i e).find? q = env.find? q := by
  induction env generalizing i with
  | nil => cases hi
  | cons x xs ih =>
    rw [List.findIdx?_cons] at hi
    by_cases hx : p x = true
    · rw [if_pos hx] at hi
      cases hi
      rw [List.set_cons_zero, List.find?_cons, List.find?_cons, he, hpq x (List.mem_cons_self ..) hx]
    · rw [if_neg hx] at hi
      cases hf : xs.findIdx? p with
      | none => rw [hf] at hi; cases hi
      | some j =>
        rw [hf] at hi
        cases hi
        rw [List.set_cons_succ, List.find?_cons, List.find?_cons, ih j hf fun y hy => hpq y (List.mem_cons_of_mem _ hy)]

theorem find_congr {p q : List Byte → Bool} {env : Environ} (h : ∀ e ∈ env, p e = q e) : env.find? p = env.find? q := by
  induction env with
  | nil => rfl
  | cons x xs ih =>
    rw [List.find?_cons, List.find?_cons, h x (List.mem_cons_self ..), ih fun e he => h e (List.mem_cons_of_mem _ he)]

/-- What the environment defines after a successful `set`, in the terms of `getenv`. -/
theorem lookup_set {memory : Bool} {env env' : Environ} {name value : List Byte} {replace : Bool} {after : List Byte}
    (hn : ProperName name after) (hw : ∀ e ∈ env, eq ∈ e) (h : Libc.setenv memory env name value replace = (env', .ok ())) :
    lookup env' name = (if replace = true then some value else some ((lookup env name).getD value)) ∧
    (∀ other, other ≠ name → lookup env' other = lookup env other) ∧ (∀ e ∈ env', eq ∈ e) := by
  have hdef : ∀ e ∈ env, Libc.defines name e = (nameOf e == name) := by
    intro e he
    have := defines_iff name e hn.noEq (hw e he)
    cases hd : Libc.defines name e with
    | true => rw [this.mp hd]; exact (beq_self_eq_true name).symm
    | false =>
      cases hb : (nameOf e == name) with
      | false => rfl
      | true => rw [this.mpr (by simpa using hb)] at hd; cases hd
  have hent := nameOf_entry name value hn.noEq
  have hself : (nameOf (name ++ eq :: value) == name) = true := by rw [hent.1]; exact beq_self_eq_true name
  have hoth : ∀ other, other ≠ name → (nameOf (name ++ eq :: value) == other) = false := by
    intro other ho
    rw [hent.1]
    simpa using fun h : name = other => ho h.symm
  have hidx : env.findIdx? (Libc.defines name) = env.findIdx? (fun e => nameOf e == name) := by
    clear h
    induction env with
    | nil => rfl
    | cons x xs ih =>
      rw [List.findIdx?_cons, List.findIdx?_cons, hdef x (List.mem_cons_self ..),
        ih (fun e he => hw e (List.mem_cons_of_mem _ he)) (fun e he => hdef e (List.mem_cons_of_mem _ he))]
  have hmem : eq ∈ name ++ eq :: value := by simp
  rcases setenv_cases hn h with ⟨i, hi, hr, he⟩ | ⟨i, hi, hr, he⟩ | ⟨hi, he⟩
  · rw [he, hr]
    refine ⟨?_, fun _ _ => rfl, hw⟩
    rw [hidx] at hi
    have : (env.find? fun e => nameOf e == name).isSome := by
      rw [List.find?_isSome]
      obtain ⟨h1, h2, _⟩ := List.findIdx?_eq_some_iff_getElem.mp hi
      exact ⟨env[i], List.getElem_mem h1, h2⟩
    rw [if_neg (by decide), lookup]
    cases hf : env.find? (fun e => nameOf e == name) with
    | none => rw [hf] at this; cases this
    | some e => rfl
  · rw [he, hr, if_pos rfl]
    refine ⟨?_, fun other ho => ?_, ?_⟩
    · rw [lookup, find_set_first env (fun e => nameOf e == name) i _ (by rw [← hidx]; exact hi) hself]
      exact congrArg some hent.2
    · rw [lookup, lookup, find_set_other env (fun e => nameOf e == name) (fun e => nameOf e == other) i _ (by rw [← hidx]; exact hi) (hoth other ho)]
      intro x _ hx
      have : nameOf x = name := by simpa using hx
      rw [this]
      simpa using fun h : name = other => ho h.symm
    · intro e hm
      rcases List.mem_or_eq_of_mem_set hm with hm | hm
      · exact hw e hm
      · rw [hm]; exact hmem
  · rw [he]
    rw [hidx] at hi
    have hnone : env.find? (fun e => nameOf e == name) = none := by
      rw [List.find?_eq_none]
      intro x hx
      have := List.findIdx?_eq_none_iff.mp hi x hx
      simp [this]
    refine ⟨?_, fun other ho => ?_, ?_⟩
    · have hl : lookup env name = none := by rw [lookup, hnone]; rfl
      rw [hl, lookup, List.find?_append, hnone, Option.none_or, List.find?_singleton, if_pos hself]
      simp only [Option.map_some, hent.2, Option.getD_none]
      cases replace <;> rfl
    · rw [lookup, lookup, List.find?_append, List.find?_singleton, hoth other ho]
      simp
    · intro e hm
      rcases List.mem_append.mp hm with hm | hm
      · exact hw e hm
      · rw [List.mem_singleton.mp hm]; exact hmem

/-- **C65, what `get` returns**: for every environment with fewer than 65536 entries of fewer than 65536 characters, the value of
the first entry with that name, but cut off before its first '='. -/
theorem C65_get (env : Environ) (h : Fits env) (name : List Byte) (fuel : Nat) (hf : env.length < fuel) :
    get fuel env name = some (.ok ((lookup env name).map nameOf)) := by
  rw [get_eq h name fuel hf, lookup, Option.map_map]
  rfl

/-- **C65** (partial: values without '='; names and values that end where their memory has a zero): after a successful `set` the
new value is read back, or the old one when `replace` is false and the variable existed; other variables are as before. Missing:
`C65_value_cut`, `C65_name_memory`. -/
theorem C65_set_get_partial (memory : Bool) (env env' : Environ) (name nameAfter value valueAfter : List Byte) (replace : Bool)
    (hn : ProperName name nameAfter) (hv : ProperValue value valueAfter) (hve : eq ∉ value) (hw : ∀ e ∈ env, eq ∈ e)
    (h : set memory env name nameAfter value valueAfter replace = .ok (env', .ok ())) (hfit : Fits env') (fuel : Nat)
    (hf : env'.length < fuel) :
    (replace = true ∨ lookup env name = none → get fuel env' name = some (.ok (some value))) ∧
    (replace = false → lookup env name ≠ none → env' = env) ∧
    (∀ other, other ≠ name → lookup env' other = lookup env other) := by
  rw [set_eq memory env name nameAfter value valueAfter replace hn hv] at h
  have h' := Outcome.ok.inj h
  obtain ⟨h1, h2, h3⟩ := lookup_set hn hw h'
  refine ⟨?_, ?_, h2⟩
  · intro hr
    rw [C65_get env' hfit name fuel hf, h1]
    cases replace with
    | true => simp [nameOf_free hve]
    | false =>
      rcases hr with hr | hr
      · cases hr
      · rw [hr]; simp [nameOf_free hve]
  · intro hr hl
    rcases setenv_cases hn h' with ⟨i, _, _, he⟩ | ⟨i, _, hr', _⟩ | ⟨hi, _⟩
    · exact he
    · rw [hr] at hr'; cases hr'
    · refine absurd ?_ hl
      rw [lookup]
      have : env.find? (fun e => nameOf e == name) = none := by
        rw [List.find?_eq_none]
        intro x hx hb
        have hd := List.findIdx?_eq_none_iff.mp hi x hx
        rw [(defines_iff name x hn.noEq (hw x hx)).mpr (by simpa using hb)] at hd
        cases hd
      rw [this]
      rfl

/-- **C65**: after a successful `unset` the variable is not found, and the others are as before. -/
theorem C65_unset (env : Environ) (name nameAfter : List Byte) (hn : ProperName name nameAfter) (hw : ∀ e ∈ env, eq ∈ e)
    (hfit : Fits env) (fuel : Nat) (hf : env.length < fuel) :
    ∃ env', unset env name nameAfter = .ok (env', .ok ()) ∧ get fuel env' name = some (.ok none) ∧
      ∀ other, other ≠ name → lookup env' other = lookup env other := by
  have hne : name.isEmpty = false := by
    cases hc : name with
    | nil => exact absurd hc hn.nonempty
    | cons _ _ => rfl
  refine ⟨env.filter fun e => !Libc.defines name e, ?_, ?_, ?_⟩
  · rw [unset, hne, if_neg (by decide), cstr_proper name nameAfter hn.noZero hn.ends, Outcome.bind_ok]
    show Outcome.ok (Libc.unsetenv env name) = _
    refine congrArg Outcome.ok ?_
    rw [Libc.unsetenv, validName_proper hn]
    rfl
  · have hsub := List.filter_sublist (l := env) (p := fun e => !Libc.defines name e)
    have hfit' : Fits (env.filter fun e => !Libc.defines name e) :=
      ⟨Nat.lt_of_le_of_lt hsub.length_le hfit.1, fun e he => hfit.2 e (hsub.mem he)⟩
    rw [C65_get _ hfit' name fuel (Nat.lt_of_le_of_lt hsub.length_le hf), lookup]
    have : (env.filter fun e => !Libc.defines name e).find? (fun e => nameOf e == name) = none := by
      rw [List.find?_eq_none]
      intro x hx hb
      obtain ⟨hx1, hx2⟩ := List.mem_filter.mp hx
      rw [(defines_iff name x hn.noEq (hw x hx1)).mpr (by simpa using hb)] at hx2
      cases hx2
    rw [this]
    rfl
  · intro other ho
    rw [lookup, lookup, List.find?_filter]
    refine congrArg _ (find_congr fun e he => ?_)
    by_cases hb : nameOf e = other
    · have : Libc.defines name e = false := by
        cases hd : Libc.defines name e with
        | false => rfl
        | true => exact absurd ((defines_iff name e hn.noEq (hw e he)).mp hd) (by rw [hb]; exact ho)
      simp [hb, this]
    · simp [hb]

theorem visitLoop_eq {env : Environ} (h : Fits env) : ∀ k i, i + k = env.length →
    visitLoop env env.length k i = .ok ((env.drop i).map fun e => ⟨nameOf e, shortValue e⟩) := by
  intro k
  induction k with
  | zero =>
    intro i hi
    rw [List.drop_eq_nil_of_le (by omega)]
    rfl
  | succ k ih =>
    intro i hi
    have hlt : i < env.length := by omega
    have hw : wrap16 (i + 1) = i + 1 := wrap16_of_lt (by have := h.1; omega)
    rw [visitLoop, deref_eq h i hlt, Outcome.bind_ok, hw, ih (i + 1) (by omega), Outcome.bind_ok, Outcome.pure_def,
      List.drop_eq_getElem_cons hlt, List.map_cons]

/-- **C65** (partial: values without '='): iteration lists exactly the variables, in order. -/
theorem C65_iteration_partial (env : Environ) (h : Fits env) (hv : ∀ e ∈ env, eq ∉ valueOf e) (fuel : Nat) (hf : env.length < fuel) :
    size fuel env = some env.length ∧ visit fuel env = some (.ok (env.map fun e => ⟨nameOf e, valueOf e⟩)) := by
  have hs : size fuel env = some env.length := size_eq h.1 fuel 0 (Nat.zero_le _) (by omega)
  refine ⟨hs, ?_⟩
  rw [visit, hs, Option.map_some, visitLoop_eq h _ 0 (by omega), List.drop_zero]
  refine congrArg some (congrArg Outcome.ok (List.map_congr_left fun e he => ?_))
  rw [shortValue, nameOf_free (hv e he)]

/-- **C65, negation**: after setting a variable to a value with '=' in it, another value is read back. -/
theorem C65_value_cut (env : Environ) (name nameAfter value valueAfter : List Byte)
    (hn : ProperName name nameAfter) (hv : ProperValue value valueAfter) (hve : eq ∈ value) (hw : ∀ e ∈ env, eq ∈ e) (env' : Environ)
    (h : set true env name nameAfter value valueAfter true = .ok (env', .ok ())) (hfit : Fits env') (fuel : Nat)
    (hf : env'.length < fuel) : ∃ v, get fuel env' name = some (.ok (some v)) ∧ v ≠ value := by
  rw [set_eq true env name nameAfter value valueAfter true hn hv] at h
  obtain ⟨h1, _, _⟩ := lookup_set hn hw (Outcome.ok.inj h)
  refine ⟨nameOf value, ?_, ?_⟩
  · rw [C65_get env' hfit name fuel hf, h1]; rfl
  · intro he
    exact (entry_split value hve).2 (he.symm ▸ hve)

/-- **C65, negation**: a name that is part of a longer string sets another variable: with "AB" taken from "ABC" the variable ABC. -/
theorem C65_name_memory : set true [] [65#8, 66#8] [67#8, 0#8] [88#8] [0#8] true =
    .ok ([[65#8, 66#8, 67#8, 61#8, 88#8]], .ok ()) ∧
    get 3 [[65#8, 66#8, 67#8, 61#8, 88#8]] [65#8, 66#8] = some (.ok none) := by decide +kernel

/-- And one that is not followed by a zero byte is undefined behaviour. -/
theorem C65_name_unterminated (env : Environ) (name value after : List Byte) (h : 0#8 ∉ name) :
    set true env name [] value after true = .ub := by
  rw [set, cstr, if_neg (by simpa using h)]
  rfl

/-- **C65, negation**: `clear` reports an error exactly when it has emptied the environment. -/
theorem C65_clear (env : Environ) : clear true env = ([], .error .errno) ∧ clear false env = (env, .ok ()) := ⟨rfl, rfl⟩

/-- **C65, negation**: with 65536 entries or more, `size` and everything built on it never ends. -/
theorem C65_many (env : Environ) (h : 2 ^ 16 ≤ env.length) (name : List Byte) (fuel : Nat) :
    size fuel env = none ∧ get fuel env name = none := by
  have key : ∀ fuel i, i < 2 ^ 16 → sizeLoop env fuel i = none := by
    intro fuel
    induction fuel with
    | zero => intro i _; rfl
    | succ fuel ih =>
      intro i hi
      rw [sizeLoop, if_pos (by omega)]
      exact ih _ (wrap16_lt _)
  have hs : size fuel env = none := key fuel 0 (by decide)
  exact ⟨hs, by rw [get, hs]; rfl⟩

/-- "A=1", "B=2": setting B to "34". -/
def sample : Environ := [[65#8, 61#8, 49#8], [66#8, 61#8, 50#8]]

example : ProperName [66#8] [0#8, 7#8] := ⟨by simp, by decide, by decide, ⟨_, rfl⟩⟩
example : ProperValue [51#8, 52#8] [0#8] ∧ eq ∉ [51#8, 52#8] ∧ (∀ e ∈ sample, eq ∈ e) :=
  ⟨⟨by decide, fun _ => ⟨_, rfl⟩⟩, by decide, by decide⟩
example : set true sample [66#8] [0#8, 7#8] [51#8, 52#8] [0#8] true =
    .ok ([[65#8, 61#8, 49#8], [66#8, 61#8, 51#8, 52#8]], .ok ()) := by decide +kernel
example : get 5 sample [66#8] = some (.ok (some [50#8])) := by decide +kernel
example : get 5 [[66#8, 61#8, 50#8, 61#8, 51#8]] [66#8] = some (.ok (some [50#8])) := by decide +kernel

end Solace.Env
