import Verif.Props.C65_Env
/-! C65: what `get`, `set`, `unset` and the iteration do for every environment, name and value. -/
namespace Solace.Env
open Spec

/-! ### Reading -/

/-- What a view shows of an entry: the first `length mod 65536` characters. -/
def shown (e : List Byte) : List Byte := e.take (e.length % 2 ^ 16)

theorem shown_short (e : List Byte) : (shown e).length < 2 ^ 16 := by
  have := Nat.mod_lt e.length (by decide : 2 ^ 16 > 0)
  rw [shown, List.length_take]
  omega

theorem viewOf_shown (e : List Byte) : viewOf (shown e) = viewOf e := by
  have h : viewOf e = shown e := by rw [viewOf, wrap16_def]; rfl
  rw [h, viewOf, wrap16_of_lt (shown_short e), List.take_length]

theorem deref_shown (env : Environ) (n i : Nat) : deref (env.map shown) n i = deref env n i := by
  rw [deref, deref, List.getElem?_map]
  cases env[i]? with
  | none => rfl
  | some e => simp only [Option.map_some, viewOf_shown]

theorem getLoop_shown (env : Environ) (name : List Byte) (n k : Nat) :
    ∀ i, getLoop (env.map shown) name n k i = getLoop env name n k i := by
  induction k with
  | zero => intro i; rfl
  | succ k ih => intro i; simp only [getLoop, deref_shown, ih]

theorem visitLoop_shown (env : Environ) (n k : Nat) :
    ∀ i, visitLoop (env.map shown) n k i = visitLoop env n k i := by
  induction k with
  | zero => intro i; rfl
  | succ k ih => intro i; simp only [visitLoop, deref_shown, ih]

theorem sizeLoop_shown (env : Environ) (fuel : Nat) : ∀ i, sizeLoop (env.map shown) fuel i = sizeLoop env fuel i := by
  induction fuel with
  | zero => intro i; rfl
  | succ k ih => intro i; simp only [sizeLoop, List.length_map, ih]

theorem fits_shown (env : Environ) (h : env.length < 2 ^ 16) : Fits (env.map shown) := by
  refine ⟨by rw [List.length_map]; exact h, fun e he => ?_⟩
  obtain ⟨x, _, rfl⟩ := List.mem_map.1 he
  exact shown_short x

/-- **C65, exactly, reading**: with 65536 entries or more nothing returns. Otherwise `get` finds the value of the first entry
whose shown part has that name, cut off before the first '=' in it, and the iteration visits the shown parts in order, with
their values cut off in the same way. -/
theorem C65_read_exact (env : Environ) (name : List Byte) :
    (2 ^ 16 ≤ env.length → ∀ fuel, size fuel env = none ∧ get fuel env name = none ∧ visit fuel env = none) ∧
    (env.length < 2 ^ 16 → ∀ fuel, env.length < fuel →
      size fuel env = some env.length ∧
      get fuel env name = some (.ok ((lookup (env.map shown) name).map nameOf)) ∧
      visit fuel env = some (.ok (env.map fun e => ⟨nameOf (shown e), nameOf (valueOf (shown e))⟩))) := by
  constructor
  · intro h fuel
    obtain ⟨h1, h2⟩ := C65_many env h name fuel
    exact ⟨h1, h2, by rw [visit, h1]; rfl⟩
  · intro h fuel hf
    have hfit := fits_shown env h
    have hlen : (env.map shown).length = env.length := List.length_map ..
    have hs : size fuel env = some env.length := size_eq h fuel 0 (Nat.zero_le _) (by omega)
    have hs' : size fuel (env.map shown) = some env.length := by rw [size, sizeLoop_shown]; exact hs
    refine ⟨hs, ?_, ?_⟩
    · have hg := C65_get (env.map shown) hfit name fuel (by omega)
      rw [get, hs', Option.map_some, getLoop_shown] at hg
      rw [get, hs, Option.map_some]
      exact hg
    · have hv := visitLoop_eq hfit env.length 0 (by omega)
      rw [hlen, visitLoop_shown, List.drop_zero, List.map_map] at hv
      rw [visit, hs, Option.map_some, hv]
      rfl

theorem name_free (x : List Byte) : eq ∉ nameOf x := by
  by_cases h : eq ∈ x
  · exact (entry_split x h).2
  · rw [nameOf_free h]
    exact h

/-- **C65, exactly when**: the iteration lists the variables if and only if no entry has 65536 characters or more and no value
has a '=' in it (fewer than 65536 entries, each with a '='). -/
theorem C65_iteration_iff (env : Environ) (h : env.length < 2 ^ 16) (hw : ∀ e ∈ env, eq ∈ e) (fuel : Nat)
    (hf : env.length < fuel) :
    visit fuel env = some (.ok (env.map fun e => ⟨nameOf e, valueOf e⟩)) ↔
      ∀ e ∈ env, e.length < 2 ^ 16 ∧ eq ∉ valueOf e := by
  constructor
  · intro hv
    rw [((C65_read_exact env []).2 h fuel hf).2.2] at hv
    have hv := List.map_inj_left.1 (Outcome.ok.inj (Option.some.inj hv))
    intro e he
    have h1 := hv e he
    rw [Var.mk.injEq] at h1
    obtain ⟨hn, hval⟩ := h1
    obtain ⟨hsplit, _⟩ := entry_split e (hw e he)
    have hfree : eq ∉ valueOf e := by
      rw [← hval]
      exact name_free _
    refine ⟨?_, hfree⟩
    -- the shown part holds name and value, so it is as long as the entry
    have hle : (shown e).length < 2 ^ 16 := shown_short e
    by_cases hlt : e.length < 2 ^ 16
    · exact hlt
    · exfalso
      have hshort : (shown e).length < e.length := by omega
      have hpre : shown e = e.take (shown e).length := by
        rw [shown, List.length_take, Nat.min_eq_left (Nat.mod_le _ _)]
      by_cases hm : eq ∈ shown e
      · obtain ⟨h2, _⟩ := entry_split (shown e) hm
        have hl1 : (valueOf (shown e)).length < (valueOf e).length := by
          have a := congrArg List.length hsplit
          have b := congrArg List.length h2
          rw [List.length_append, List.length_cons] at a b
          rw [hn] at b
          omega
        have hl2 : (nameOf (valueOf (shown e))).length ≤ (valueOf (shown e)).length := by
          rw [nameOf]; exact (List.takeWhile_sublist _).length_le
        rw [hval] at hl2
        omega
      · have h3 : valueOf (shown e) = [] := by
          rcases scan_eq [] (shown e) with ⟨_, _, _, h⟩ | ⟨hm', _⟩
          · exact h
          · exact absurd hm' hm
        have h4 : nameOf (shown e) = shown e := nameOf_free hm
        rw [h3] at hval
        have h5 : valueOf e = [] := by rw [← hval]; rfl
        -- then the entry is its name and '='; the shown part is the name, one character shorter
        have a := congrArg List.length hsplit
        rw [List.length_append, List.length_cons, h5, List.length_nil, ← hn, h4] at a
        have b : (shown e).length = e.length % 2 ^ 16 := by
          rw [shown, List.length_take, Nat.min_eq_left (Nat.mod_le _ _)]
        omega
  · intro hv
    exact (C65_iteration_partial env ⟨h, fun e he => (hv e he).1⟩ (fun e he => (hv e he).2) fuel hf).2

/-! ### Writing -/

/-- `s` is the C string that starts where the view does. -/
def StartsCString (view after s : List Byte) : Prop := 0#8 ∉ s ∧ ∃ rest, view ++ after = s ++ 0#8 :: rest

theorem cstr_starts (view after s : List Byte) (h : StartsCString view after s) : cstr view after = .ok s := by
  obtain ⟨h0, rest, e⟩ := h
  have := cstr_proper s (0#8 :: rest) h0 ⟨rest, rfl⟩
  rw [cstr, ← e] at this
  rw [cstr]
  exact this

theorem starts_or_none (view after : List Byte) : (∃ s, StartsCString view after s) ∨ 0#8 ∉ view ++ after := by
  by_cases h : 0#8 ∈ view ++ after
  · obtain ⟨s, rest, e, hs⟩ := List.eq_append_cons_of_mem h
    exact .inl ⟨s, hs, rest, e⟩
  · exact .inr h

/-- What is passed on for a value: an empty view stands for the empty string wherever it points to. -/
def Passed (view after s : List Byte) : Prop := (view = [] ∧ s = []) ∨ (view ≠ [] ∧ StartsCString view after s)

theorem passed_or_none (view after : List Byte) : (∃ s, Passed view after s) ∨ (view ≠ [] ∧ 0#8 ∉ view ++ after) := by
  by_cases h : view = []
  · exact .inl ⟨[], .inl ⟨h, rfl⟩⟩
  · rcases starts_or_none view after with ⟨s, hs⟩ | hn
    · exact .inl ⟨s, .inr ⟨h, hs⟩⟩
    · exact .inr ⟨h, hn⟩

theorem arg_passed (view after s : List Byte) (h : Passed view after s) :
    (if view.isEmpty then pure [] else cstr view after) = Outcome.ok s := by
  rcases h with ⟨rfl, rfl⟩ | ⟨hne, h⟩
  · rfl
  · have he : view.isEmpty = false := by
      cases view with
      | nil => exact absurd rfl hne
      | cons _ _ => rfl
    rw [he]
    exact cstr_starts _ _ _ h

theorem set_passed (memory : Bool) (env : Environ) (name nameAfter value valueAfter n v : List Byte) (replace : Bool)
    (hn : StartsCString name nameAfter n) (hv : Passed value valueAfter v) :
    set memory env name nameAfter value valueAfter replace = .ok (Libc.setenv memory env n v replace) := by
  rw [set, cstr_starts _ _ _ hn, Outcome.bind_ok]
  have := arg_passed _ _ _ hv
  rcases hv with ⟨rfl, rfl⟩ | ⟨hne, h⟩
  · rfl
  · have he : value.isEmpty = false := by
      cases value with
      | nil => exact absurd rfl hne
      | cons _ _ => rfl
    rw [he] at this ⊢
    simp only [Bool.false_eq_true, if_false] at this ⊢
    rw [this]
    rfl

/-- A name the C library takes. -/
def Settable (n : List Byte) : Prop := n ≠ [] ∧ eq ∉ n

theorem valid_settable (n : List Byte) : Libc.validName n = true ↔ Settable n := by
  rw [Libc.validName, Settable]
  cases n <;> simp

/-- **C65, exactly, `set`**: undefined behaviour when no zero byte follows the name, or the value unless it is empty. Otherwise
the C strings that start there count: a name that is empty or has a '=' is refused. For others (in an environment of entries
with '='): the call fails exactly when memory is needed and there is none, and then changes nothing; otherwise the variable has
the new value - or the old one, if there was one and `replace` is false - and the other variables are as before. -/
theorem C65_set_exact (memory : Bool) (env : Environ) (name nameAfter value valueAfter : List Byte) (replace : Bool) :
    (0#8 ∉ name ++ nameAfter → set memory env name nameAfter value valueAfter replace = .ub) ∧
    (value ≠ [] → 0#8 ∉ value ++ valueAfter → set memory env name nameAfter value valueAfter replace = .ub) ∧
    ∀ n v, StartsCString name nameAfter n → Passed value valueAfter v →
      ∃ env' r, set memory env name nameAfter value valueAfter replace = .ok (env', r) ∧
        (¬Settable n → env' = env ∧ r = .error .errno) ∧
        (Settable n → (∀ e ∈ env, eq ∈ e) →
          (r = .ok () ∨ r = .error .errno) ∧
          (r = .error .errno ↔ memory = false ∧ (replace = true ∨ lookup env n = none)) ∧
          (r = .error .errno → env' = env) ∧
          (r = .ok () → (∀ e ∈ env', eq ∈ e) ∧
            ∀ m, lookup env' m =
              if m = n then some (if replace = true then v else (lookup env n).getD v) else lookup env m)) := by
  refine ⟨fun h => ?_, fun hne h => ?_, fun n v hn hv => ?_⟩
  · rw [set, cstr, if_neg h]
    rfl
  · rw [set]
    rcases starts_or_none name nameAfter with ⟨n, hn⟩ | h0
    · rw [cstr_starts _ _ _ hn, Outcome.bind_ok]
      have he : value.isEmpty = false := by
        cases value with
        | nil => exact absurd rfl hne
        | cons _ _ => rfl
      rw [he, cstr, if_neg h]
      rfl
    · rw [cstr, if_neg h0]
      rfl
  · refine ⟨(Libc.setenv memory env n v replace).1, (Libc.setenv memory env n v replace).2, set_passed memory env name nameAfter value valueAfter n v replace hn hv, fun hs => ?_, fun hs hw => ?_⟩
    · have : Libc.validName n = false := by
        cases hb : Libc.validName n with
        | false => rfl
        | true => exact absurd ((valid_settable n).1 hb) hs
      rw [Libc.setenv, this]
      exact ⟨rfl, rfl⟩
    · have hp : ProperName n (0#8 :: []) := ⟨hs.1, hs.2, hn.1, ⟨_, rfl⟩⟩
      have hlook : env.findIdx? (Libc.defines n) = none ↔ lookup env n = none := by
        rw [List.findIdx?_eq_none_iff, lookup, Option.map_eq_none_iff, List.find?_eq_none]
        refine ⟨fun h e he hc => ?_, fun h e he => ?_⟩
        · have := (defines_iff n e hs.2 (hw e he)).2 (by simpa using hc)
          rw [h e he] at this
          cases this
        · cases hd : Libc.defines n e with
          | false => rfl
          | true => exact absurd (by simpa using (defines_iff n e hs.2 (hw e he)).1 hd) (h e he)
      have hval := (valid_settable n).2 hs
      have hcases : ((Libc.setenv memory env n v replace).2 = .ok () ∨ (Libc.setenv memory env n v replace).2 = .error .errno) ∧
          ((Libc.setenv memory env n v replace).2 = .error .errno ↔ memory = false ∧ (replace = true ∨ lookup env n = none)) ∧
          ((Libc.setenv memory env n v replace).2 = .error .errno → (Libc.setenv memory env n v replace).1 = env) := by
        rw [← hlook, Libc.setenv, hval]
        cases env.findIdx? (Libc.defines n) with
        | none => cases memory <;> cases replace <;> simp
        | some i => cases memory <;> cases replace <;> simp
      refine ⟨hcases.1, hcases.2.1, hcases.2.2, fun hr => ?_⟩
      obtain ⟨h1, h2, h3⟩ := lookup_set (value := v) hp hw (Prod.ext rfl hr :
        Libc.setenv memory env n v replace = ((Libc.setenv memory env n v replace).1, .ok ()))
      refine ⟨h3, fun m => ?_⟩
      by_cases hm : m = n
      · rw [if_pos hm, hm, h1]
        cases replace <;> simp
      · rw [if_neg hm]
        exact h2 m hm

/-- **C65, exactly, reading back**: after a successful `set` (entries that a view shows completely), `get` with the same name
gives the new value - or the old one as above - up to its first '=', provided that the name ends at a zero byte; with a name
that goes on, what it gave before. So a value set under a
name that ends there is read back exactly when it has no '=' and ends at a zero byte or is followed by '='. -/
theorem C65_read_back (memory : Bool) (env env' : Environ) (name nameAfter value valueAfter n v : List Byte) (replace : Bool)
    (hn : StartsCString name nameAfter n) (hv : Passed value valueAfter v) (hw : ∀ e ∈ env, eq ∈ e)
    (h : set memory env name nameAfter value valueAfter replace = .ok (env', .ok ())) (hfit : Fits env') (fuel : Nat)
    (hf : env'.length < fuel) :
    get fuel env' name = some (.ok ((if name = n then some (if replace = true then v else (lookup env n).getD v)
      else lookup env name).map nameOf)) ∧
    (replace = true → name = n → (get fuel env' name = some (.ok (some value)) ↔
      eq ∉ value ∧ (v = value ∨ ∃ t, v = value ++ eq :: t))) := by
  obtain ⟨e1, r1, h1, h2, h3⟩ := (C65_set_exact memory env name nameAfter value valueAfter replace).2.2 n v hn hv
  rw [h] at h1
  cases h1
  have hs : Settable n := by
    by_cases hs : Settable n
    · exact hs
    · obtain ⟨_, h⟩ := h2 hs
      cases h
  obtain ⟨_, _, _, h4⟩ := h3 hs hw
  have hlook := (h4 rfl).2 name
  have hget := C65_get env' hfit name fuel hf
  rw [hlook] at hget
  refine ⟨hget, fun hr he => ?_⟩
  rw [hget, if_pos he, if_pos hr]
  simp only [Option.map_some, Option.some.injEq, Outcome.ok.injEq]
  constructor
  · intro e
    refine ⟨by rw [← e]; exact name_free v, ?_⟩
    by_cases hve : eq ∈ v
    · right
      have := (entry_split v hve).1
      rw [e] at this
      exact ⟨_, this⟩
    · rw [nameOf_free hve] at e
      exact .inl e
  · rintro ⟨hfree, rfl | ⟨t, rfl⟩⟩
    · exact nameOf_free hfree
    · exact (nameOf_entry value t hfree).1

/-- **C65, exactly, `unset`**: undefined behaviour when the name is not empty and no zero byte follows; otherwise the C string
that starts there counts: an empty one or one with a '=' is refused, and for others the variable is gone and the rest is as
before. -/
theorem C65_unset_exact (env : Environ) (name nameAfter : List Byte) :
    (name ≠ [] → 0#8 ∉ name ++ nameAfter → unset env name nameAfter = .ub) ∧
    ∀ n, Passed name nameAfter n →
      (¬Settable n → unset env name nameAfter = .ok (env, .error .errno)) ∧
      (Settable n → (∀ e ∈ env, eq ∈ e) →
        ∃ env', unset env name nameAfter = .ok (env', .ok ()) ∧ (∀ e ∈ env', eq ∈ e) ∧
          ∀ m, lookup env' m = if m = n then none else lookup env m) := by
  refine ⟨fun hne h => ?_, fun n hn => ?_⟩
  · have he : name.isEmpty = false := by
      cases name with
      | nil => exact absurd rfl hne
      | cons _ _ => rfl
    rw [unset, he, cstr, if_neg h]
    rfl
  · have heq : unset env name nameAfter = .ok (Libc.unsetenv env n) := by
      have := arg_passed _ _ _ hn
      rw [unset]
      rcases hn with ⟨rfl, rfl⟩ | ⟨hne, h⟩
      · rfl
      · have he : name.isEmpty = false := by
          cases name with
          | nil => exact absurd rfl hne
          | cons _ _ => rfl
        rw [he] at this ⊢
        simp only [Bool.false_eq_true, if_false] at this ⊢
        rw [this]
        rfl
    rw [heq]
    refine ⟨fun hs => ?_, fun hs hw => ?_⟩
    · have : Libc.validName n = false := by
        cases hb : Libc.validName n with
        | false => rfl
        | true => exact absurd ((valid_settable n).1 hb) hs
      rw [Libc.unsetenv, this]
      rfl
    · refine ⟨env.filter fun e => !Libc.defines n e, ?_, fun e he => hw e (List.mem_filter.1 he).1, fun m => ?_⟩
      · rw [Libc.unsetenv, (valid_settable n).2 hs]
        rfl
      · rw [lookup, lookup, List.find?_filter]
        by_cases hm : m = n
        · rw [if_pos hm, hm, Option.map_eq_none_iff, List.find?_eq_none]
          intro e he
          intro hc
          have hb := of_decide_eq_true hc
          rw [(defines_iff n e hs.2 (hw e he)).2 (by simpa using hb.2)] at hb
          exact absurd hb.1 (by decide)
        · rw [if_neg hm]
          refine congrArg _ (find_congr fun e he => ?_)
          by_cases hb : nameOf e = m
          · have : Libc.defines n e = false := by
              cases hd : Libc.defines n e with
              | false => rfl
              | true => exact absurd ((defines_iff n e hs.2 (hw e he)).mp hd) (by rw [hb]; exact hm)
            simp [hb, this]
          · simp [hb]

/-! "AB" taken from "ABC" starts the C string "ABC"; "v" followed by "=w" is read back although "v=w" is stored. -/
example : StartsCString [65#8, 66#8] [67#8, 0#8, 9#8] [65#8, 66#8, 67#8] ∧ Settable [65#8, 66#8, 67#8] :=
  ⟨⟨by decide, [9#8], rfl⟩, by simp, by decide⟩
example : Passed [118#8] [61#8, 119#8, 0#8] [118#8, 61#8, 119#8] := .inr ⟨by simp, by decide, [], rfl⟩
example : set true [] [65#8] [0#8] [118#8] [61#8, 119#8, 0#8] true = .ok ([[65#8, 61#8, 118#8, 61#8, 119#8]], .ok ()) ∧
    get 3 [[65#8, 61#8, 118#8, 61#8, 119#8]] [65#8] = some (.ok (some [118#8])) := by decide +kernel

end Solace.Env
