import Verif.Lemmas.ResultTypes

/-
C126: chains of results of different types.
-/
namespace Solace.ResTy

set_option linter.unusedSimpArgs false

/-- The type of a `res` with 32-bit values and class errors, for the examples. -/
private def i32 : Base := .int 32 true
private def i64 : Base := .int 64 true
private def u64 : Base := .int 64 false
private def error : Base := .cls 0

/-- **C126** (full), narrowing: braces accept a conversion exactly if every value of the source is a value of the target, and then
the number stays. -/
theorem C126_narrowing (S T : Base) (hS : S.Proper) (hT : T.Proper) :
    (bracesOk S T = true ↔ Keeps S T) ∧ ∀ n, InRange S n → bracesOk S T = true → convert T n = n :=
  ⟨bracesOk_iff hS hT, fun _ hn h => convert_eq hT (inRange_of_keeps ((bracesOk_iff hS hT).1 h) hn)⟩

example : Keeps i32 i64 ∧ InRange i32 (-5) ∧ bracesOk i32 i64 = true ∧ bracesOk i64 i32 = false ∧ convert i32 (2 ^ 32 + 1) = 1 := by
  refine ⟨(bracesOk_iff (S := .int 32 true) (T := .int 64 true) (by simp [Base.Proper]) (by simp [Base.Proper])).1 (by decide +kernel), ?_, by decide +kernel, by decide +kernel,
    by decide +kernel⟩
  exact ⟨by decide +kernel, by decide +kernel⟩

/-- **C126** (full): the type of a call that compiles is given by the type the handler returns: a result is flattened, `Ok` and `Err` are
completed, a plain answer is wrapped. -/
theorem C126_type (k : Kind) (c : Cat) (r : Ret) (t u : RTy) (h : typeOf k c r t = some u) : u = typeAfter k t r :=
  typeOf_eq h

example : typeOf .andThen .rvalue (.ok (some u64)) ⟨some i32, error⟩ = some ⟨some u64, error⟩ := by decide +kernel

/-- **C126** (full): for every handler at most one function of the class is the best choice, and for an object that is not `const` exactly
one is; which one does not depend on whether the object is named or a temporary. -/
theorem C126_overload (k : Kind) (r : Ret) (t : RTy) :
    (∃ o, resolve (overloads t k) .rvalue r = some o ∧ ∃ o', resolve (overloads t k) .lvalue r = some o' ∧ o'.body = o.body) ∧
    ∀ o, resolve (overloads t k) .constLvalue r = some o → ∃ o', resolve (overloads t k) .lvalue r = some o' ∧ o'.body = o.body := by
  obtain ⟨v, e⟩ := t
  cases v <;> cases k <;> cases r <;>
    simp [overloads, resolve, resolve.pick, result, isResult, Qual.viable, Qual.better]

example : (resolve (overloads ⟨some i32, error⟩ .andThen) .rvalue (.plain i64)).map (·.body) = some .thenValue ∧
    (resolve (overloads ⟨some i32, error⟩ .andThen) .constLvalue (.plain i64)).map (·.body) = none := by decide +kernel

/-- **C126** (full): whether a call compiles does not depend on what the result holds. -/
theorem C126_static (g : Stage) (o : Obj) (ht : o.ty.Proper) (hr : g.ret.Proper) (hf : Fits o.ty o.st) :
    (apply g o).isSome = (typeOf g.kind g.cat g.ret o.ty).isSome := by
  cases hty : typeOf g.kind g.cat g.ret o.ty with
  | none => simp [apply, hty]
  | some u =>
    have hu := typeOf_eq hty
    have hup : u.Proper := hu ▸ typeAfter_proper ht hr
    obtain ⟨hp1, hp2⟩ := typeOf_pass hty
    obtain ⟨ty, st⟩ := o
    cases st with
    | good v =>
      cases hk : g.kind with
      | andThen => simp [apply, hk ▸ hty, hk]
      | orElse => simp [apply, hk ▸ hty, hk, passValue_eq ht hup hf (hp2 (by simp [hk]))]
      | mapError => simp [apply, hk ▸ hty, hk, passValue_eq ht hup hf (hp2 (by simp [hk]))]
    | bad e =>
      cases hk : g.kind with
      | andThen => simp [apply, hk ▸ hty, hk, passError_eq ht hup hf (hp1 hk)]
      | orElse => simp [apply, hk ▸ hty, hk]
      | mapError => simp [apply, hk ▸ hty, hk]

/-- A stage for the examples: whatever the error was, the value 7 of a 64-bit type. -/
private def rescue : Stage := ⟨.orElse, .rvalue, .plain (.int 64 true), fun _ => .good (some 7), fun _ => .good (some 7)⟩

/-- An error for every value above 9. -/
private def limit : Stage :=
  ⟨.andThen, .rvalue, .res (some (.int 32 true)) (.cls 0), fun v => if v.getD 0 > 9 then .bad 1 else .good (some 9), fun _ => .bad 0⟩

example : (⟨some (.int 32 true), .cls 0⟩ : RTy).Proper ∧ rescue.ret.Proper ∧ Fits ⟨some (.int 32 true), .cls 0⟩ (.good (some (-3))) ∧
    apply rescue ⟨⟨some (.int 32 true), .cls 0⟩, .good (some (-3))⟩ = some ⟨⟨some (.int 64 true), .cls 0⟩, .good (some (-3))⟩ ∧
    apply rescue ⟨⟨some (.int 64 false), .cls 0⟩, .good (some 3)⟩ = none := by
  refine ⟨by simp [RTy.Proper, Base.Proper], by simp [rescue, Ret.Proper, Base.Proper], ⟨_, rfl, by decide +kernel, by decide +kernel⟩,
    by decide +kernel, by decide +kernel⟩

/-- **C126** (full), one stage: a call that compiles gives what the two tracks give — the handler's answer, or exactly the value or error
held before, whatever the types are. -/
theorem C126_stage (g : Stage) (o o' : Obj) (ht : o.ty.Proper) (hr : g.ret.Proper) (hf : Fits o.ty o.st) (h : apply g o = some o') :
    o' = ⟨typeAfter g.kind o.ty g.ret, ride [g] o.st⟩ := by
  cases hty : typeOf g.kind g.cat g.ret o.ty with
  | none => simp [apply, hty] at h
  | some u =>
    have hu := typeOf_eq hty
    have hup : u.Proper := hu ▸ typeAfter_proper ht hr
    obtain ⟨hp1, hp2⟩ := typeOf_pass hty
    obtain ⟨ty, st⟩ := o
    cases st with
    | good v =>
      cases hk : g.kind with
      | andThen => simp [apply, hk ▸ hty, hk] at h; simp [ride, hk, ← h, hu]
      | orElse => simp [apply, hk ▸ hty, hk, passValue_eq ht hup hf (hp2 (by simp [hk]))] at h; simp [ride, hk, ← h, hu]
      | mapError => simp [apply, hk ▸ hty, hk, passValue_eq ht hup hf (hp2 (by simp [hk]))] at h; simp [ride, hk, ← h, hu]
    | bad e =>
      cases hk : g.kind with
      | andThen => simp [apply, hk ▸ hty, hk, passError_eq ht hup hf (hp1 hk)] at h; simp [ride, hk, ← h, hu]
      | orElse => simp [apply, hk ▸ hty, hk] at h; simp [ride, hk, ← h, hu]
      | mapError => simp [apply, hk ▸ hty, hk] at h; simp [ride, hk, ← h, hu]

theorem fits_stage (g : Stage) (o o' : Obj) (ht : o.ty.Proper) (hr : g.ret.Proper) (hh : Honest g) (hf : Fits o.ty o.st)
    (h : apply g o = some o') : Fits o'.ty o'.st := by
  have e1 := C126_stage g o o' ht hr hf h
  obtain ⟨ha, hb⟩ := hh o.ty
  cases hty : typeOf g.kind g.cat g.ret o.ty with
  | none => simp [apply, hty] at h
  | some u =>
    obtain ⟨hp1, hp2⟩ := typeOf_pass hty
    have hu := typeOf_eq hty
    have hup : u.Proper := hu ▸ typeAfter_proper ht hr
    rw [hu] at hp1 hp2 hup
    rw [e1]
    obtain ⟨ty, st⟩ := o
    cases st with
    | good v =>
      by_cases hk : g.kind = .andThen
      · have : ride [g] (.good v) = g.onGood v := by simp [ride, hk]
        rw [this]
        exact ha hk v
      · have : ride [g] (.good v) = .good v := by cases hk' : g.kind <;> simp_all [ride]
        rw [this]
        exact fits_value ht hup hf (hp2 hk)
    | bad e =>
      by_cases hk : g.kind = .andThen
      · have : ride [g] (.bad e) = .bad e := by simp [ride, hk]
        rw [this]
        exact fits_error ht hup hf (hp1 hk)
      · have : ride [g] (.bad e) = g.onBad e := by cases hk' : g.kind <;> simp_all [ride]
        rw [this]
        exact hb hk e

/-- **C126** (full): a chain that compiles, of any length and with any types on the way, ends with the type its handlers say and with what
the two tracks give: no value or error is changed by being passed on. -/
theorem C126_chain (l : List Stage) (o o' : Obj) (ht : o.ty.Proper) (hr : ∀ g ∈ l, g.ret.Proper) (hh : ∀ g ∈ l, Honest g)
    (hf : Fits o.ty o.st) (h : chain l o = some o') :
    o' = ⟨typesAfter l o.ty, ride l o.st⟩ ∧ Fits o'.ty o'.st := by
  induction l generalizing o with
  | nil =>
    simp only [chain, Option.some.injEq] at h
    subst h
    exact ⟨rfl, hf⟩
  | cons g rest ih =>
    cases ha : apply g o with
    | none => simp [chain, ha] at h
    | some o1 =>
      have e1 := C126_stage g o o1 ht (hr g (by simp)) hf ha
      have hc : chain rest o1 = some o' := by simpa [chain, ha] using h
      have hp : o1.ty.Proper := by rw [e1]; exact typeAfter_proper ht (hr g (by simp))
      have hf1 : Fits o1.ty o1.st := fits_stage g o o1 ht (hr g (by simp)) (hh g (by simp)) hf ha
      obtain ⟨e2, f2⟩ := ih o1 hp (fun x hx => hr x (by simp [hx])) (fun x hx => hh x (by simp [hx])) hf1 hc
      refine ⟨?_, f2⟩
      rw [e2, e1]
      rfl

example : (⟨some (.int 16 false), .cls 0⟩ : RTy).Proper ∧ (∀ g ∈ [limit, rescue], g.ret.Proper) ∧ (∀ g ∈ [limit, rescue], Honest g) ∧
    Fits ⟨some (.int 16 false), .cls 0⟩ (.good (some 60000)) ∧
    chain [limit, rescue] ⟨⟨some (.int 16 false), .cls 0⟩, .good (some 60000)⟩ = some ⟨⟨some (.int 64 true), .cls 0⟩, .good (some 7)⟩ ∧
    chain [limit, rescue] ⟨⟨some (.int 16 false), .cls 0⟩, .good (some 6)⟩ = some ⟨⟨some (.int 64 true), .cls 0⟩, .good (some 9)⟩ := by
  refine ⟨by simp [RTy.Proper, Base.Proper], ?_, ?_, ⟨_, rfl, by decide +kernel, by decide +kernel⟩, by decide +kernel, by decide +kernel⟩
  · simp [limit, rescue, Ret.Proper, Base.Proper]
  · intro g hg
    simp only [List.mem_cons, List.not_mem_nil, or_false] at hg
    rcases hg with rfl | rfl
    · intro t
      refine ⟨fun _ v => ?_, fun h => absurd rfl h⟩
      simp only [limit, typeAfter]
      split
      · exact trivial
      · exact ⟨_, rfl, by decide +kernel, by decide +kernel⟩
    · intro t
      exact ⟨(fun h => by cases h), fun _ e => ⟨_, rfl, by decide +kernel, by decide +kernel⟩⟩

/-- **C126** (exact), `Result<V, E>::then`: what compiles. The error must keep every value, and on a constant object the handler
must return a result, an `Ok` or an `Err`. -/
theorem C126_then (V E : Base) (hE : E.Proper) (c : Cat) (r : Ret) (hr : r.Proper) :
    typeOf .andThen c r ⟨some V, E⟩ = some (typeAfter .andThen ⟨some V, E⟩ r) ↔
      (typeAfter .andThen ⟨some V, E⟩ r).val ≠ some (typeAfter .andThen ⟨some V, E⟩ r).err ∧
      Keeps E (typeAfter .andThen ⟨some V, E⟩ r).err ∧ (c = .constLvalue → r.ResultLike) := by
  have key := fun F (hF : Base.Proper F) => bracesOk_iff hE hF
  have self : bracesOk E E = true := (bracesOk_iff hE hE).2 (keeps_refl E)
  cases c <;> cases r <;>
    simp [typeOf, overloads, resolve, resolve.pick, result, isResult, Qual.viable, Qual.better, bodyType, answerOk, Body.onValues,
      typeAfter, instantiable, passErrorOk, Ret.ResultLike, Ret.Proper, keeps_refl, self] at hr ⊢ <;>
    simp_all

example : typeOf .andThen .lvalue (.plain i64) ⟨some i32, error⟩ = some ⟨some i64, error⟩ ∧
    typeOf .andThen .constLvalue (.plain i64) ⟨some i32, error⟩ = none ∧
    typeOf .andThen .rvalue (.plain error) ⟨some i32, error⟩ = none ∧
    typeOf .andThen .rvalue (.res (some error) i64) ⟨some u64, i32⟩ = some ⟨some error, i64⟩ ∧
    typeOf .andThen .rvalue (.res (some error) i32) ⟨some u64, i64⟩ = none := by decide +kernel

/-- **C126** (exact), `Result<void, E>::then`: as for values, on constant objects too; but between two results without a value the error
types must be the same. -/
theorem C126_then_void (E : Base) (hE : E.Proper) (c : Cat) (r : Ret) (hr : r.Proper) :
    typeOf .andThen c r ⟨none, E⟩ = some (typeAfter .andThen ⟨none, E⟩ r) ↔
      (typeAfter .andThen ⟨none, E⟩ r).val ≠ some (typeAfter .andThen ⟨none, E⟩ r).err ∧
      Keeps E (typeAfter .andThen ⟨none, E⟩ r).err ∧
      ((typeAfter .andThen ⟨none, E⟩ r).val = none → (typeAfter .andThen ⟨none, E⟩ r).err = E) := by
  have key := fun F (hF : Base.Proper F) => bracesOk_iff hE hF
  have self : bracesOk E E = true := (bracesOk_iff hE hE).2 (keeps_refl E)
  cases c <;> cases r <;>
    simp [typeOf, overloads, resolve, resolve.pick, result, isResult, Qual.viable, Qual.better, bodyType, answerOk, Body.onValues,
      typeAfter, instantiable, passErrorOk, Ret.Proper, keeps_refl, self] at hr ⊢ <;>
    simp_all
  all_goals
    first
    | exact ⟨fun h => by subst h; exact ⟨self, rfl⟩, fun h => h.2.symm⟩
    | exact fun hv => by
        split
        · exact ⟨fun h => by subst h; exact ⟨self, fun _ => rfl⟩, fun h => (h.2 (by assumption)).symm⟩
        · exact ⟨fun h => ⟨h, fun h' => absurd h' (by assumption)⟩, fun h => h.1⟩

example : typeOf .andThen .constLvalue (.plain i64) ⟨none, error⟩ = some ⟨some i64, error⟩ ∧
    typeOf .andThen .rvalue (.res none i64) ⟨none, i32⟩ = none ∧
    typeOf .andThen .rvalue (.res (some error) i64) ⟨none, i32⟩ = some ⟨some error, i64⟩ := by decide +kernel

/-- **C126** (exact), `Result<V, E>::orElse`: the object must not be constant, the handler must give a value type that keeps every value
of `V`. -/
theorem C126_orElse (V E : Base) (hV : V.Proper) (c : Cat) (r : Ret) (hr : r.Proper) :
    typeOf .orElse c r ⟨some V, E⟩ = some (typeAfter .orElse ⟨some V, E⟩ r) ↔
      (typeAfter .orElse ⟨some V, E⟩ r).val ≠ some (typeAfter .orElse ⟨some V, E⟩ r).err ∧
      (∃ U, (typeAfter .orElse ⟨some V, E⟩ r).val = some U ∧ Keeps V U) ∧ c ≠ .constLvalue := by
  have key := fun F (hF : Base.Proper F) => bracesOk_iff hV hF
  have self : bracesOk V V = true := (bracesOk_iff hV hV).2 (keeps_refl V)
  rcases r with _ | b | ⟨_ | v, e⟩ | ⟨_ | v⟩ | e <;> cases c <;>
    simp [typeOf, overloads, resolve, resolve.pick, result, isResult, Qual.viable, Qual.better, bodyType, answerOk, Body.onValues,
      typeAfter, instantiable, passErrorOk, passValueOk, Ret.Proper, keeps_refl, self] at hr ⊢ <;>
    simp_all

example : typeOf .orElse .rvalue (.plain i64) ⟨some i32, error⟩ = some ⟨some i64, error⟩ ∧
    typeOf .orElse .rvalue (.plain i32) ⟨some i64, error⟩ = none ∧ typeOf .orElse .rvalue .void ⟨some i64, error⟩ = none := by
  decide +kernel

/-- **C126** (exact), `Result<void, E>::orElse`: the object must not be constant, the handler must not give a value. -/
theorem C126_orElse_void (E : Base) (c : Cat) (r : Ret) :
    typeOf .orElse c r ⟨none, E⟩ = some (typeAfter .orElse ⟨none, E⟩ r) ↔
      (typeAfter .orElse ⟨none, E⟩ r).val = none ∧ c ≠ .constLvalue := by
  rcases r with _ | b | ⟨_ | v, e⟩ | ⟨_ | v⟩ | e <;> cases c <;>
    simp [typeOf, overloads, resolve, resolve.pick, result, isResult, Qual.viable, Qual.better, bodyType, answerOk, Body.onValues,
      typeAfter, instantiable, passErrorOk, passValueOk]

example : typeOf .orElse .rvalue .void ⟨none, error⟩ = some ⟨none, error⟩ ∧ typeOf .orElse .rvalue (.plain i64) ⟨none, error⟩ = none := by
  decide +kernel

/-- **C126** (exact), `Result<V, E>::mapError`: the handler must return a plain error other than `V`; any object will do. (A handler that
returns an `Ok` is not modelled.) -/
theorem C126_mapError (V E : Base) (hV : V.Proper) (c : Cat) (r : Ret) :
    typeOf .mapError c r ⟨some V, E⟩ = some (typeAfter .mapError ⟨some V, E⟩ r) ↔ ∃ F, r = .plain F ∧ F ≠ V := by
  have self : bracesOk V V = true := (bracesOk_iff hV hV).2 (keeps_refl V)
  rcases r with _ | b | ⟨_ | v, e⟩ | ⟨_ | v⟩ | e <;> cases c <;>
    simp [typeOf, overloads, resolve, resolve.pick, result, isResult, Qual.viable, Qual.better, bodyType, answerOk, Body.onValues,
      typeAfter, instantiable, passErrorOk, passValueOk, self]
  all_goals exact ⟨fun h h' => h h'.symm, fun h h' => h h'.symm⟩

example : typeOf .mapError .constLvalue (.plain i64) ⟨some i32, error⟩ = some ⟨some i32, i64⟩ ∧
    typeOf .mapError .rvalue (.plain i32) ⟨some i32, error⟩ = none ∧ typeOf .mapError .rvalue (.err i64) ⟨some i32, error⟩ = none := by
  decide +kernel

/-- **C126** (exact), `Result<void, E>::mapError`: the object must not be constant, the handler must return a plain error, an `Err`, or a
result or an `Ok` without a value. -/
theorem C126_mapError_void (E : Base) (c : Cat) (r : Ret) :
    typeOf .mapError c r ⟨none, E⟩ = some (typeAfter .mapError ⟨none, E⟩ r) ↔
      r ≠ .void ∧ (typeAfter .mapError ⟨none, E⟩ r).val = none ∧ c ≠ .constLvalue := by
  rcases r with _ | b | ⟨_ | v, e⟩ | ⟨_ | v⟩ | e <;> cases c <;>
    simp [typeOf, overloads, resolve, resolve.pick, result, isResult, Qual.viable, Qual.better, bodyType, answerOk, Body.onValues,
      typeAfter, instantiable, passErrorOk, passValueOk]

example : typeOf .mapError .rvalue (.err i64) ⟨none, error⟩ = some ⟨none, i64⟩ ∧
    typeOf .mapError .constLvalue (.plain i64) ⟨none, error⟩ = none := by decide +kernel

/-- **C126, disagreement**: not every combinator takes every kind of handler, and the two classes differ. For every value type and error
type: `then` of a constant `Result<V, E>` takes no handler returning a plain value or nothing, that of a constant `Result<void, E>` does;
`mapError` of a `Result<V, E>` takes no handler returning an `Err`, which `error_result_wrapper` provides for, that of `Result<void, E>`
does; `orElse` takes a handler returning nothing only on `Result<void, E>`, one returning a plain value only on `Result<V, E>`. -/
theorem C126_kinds (V E : Base) (hV : V.Proper) (hE : E.Proper) (h : V ≠ E) :
    (typeOf .andThen .constLvalue (.plain V) ⟨some V, E⟩ = none ∧ typeOf .andThen .constLvalue (.plain V) ⟨none, E⟩ = some ⟨some V, E⟩) ∧
    (∀ c, typeOf .mapError c (.err E) ⟨some V, E⟩ = none ∧ typeOf .mapError .rvalue (.err E) ⟨none, E⟩ = some ⟨none, E⟩) ∧
    (∀ c, typeOf .orElse c .void ⟨some V, E⟩ = none ∧ typeOf .orElse .rvalue .void ⟨none, E⟩ = some ⟨none, E⟩) ∧
    (∀ c, typeOf .orElse c (.plain V) ⟨none, E⟩ = none ∧ typeOf .orElse .rvalue (.plain V) ⟨some V, E⟩ = some ⟨some V, E⟩) := by
  have sE : bracesOk E E = true := (bracesOk_iff hE hE).2 (keeps_refl E)
  have sV : bracesOk V V = true := (bracesOk_iff hV hV).2 (keeps_refl V)
  refine ⟨⟨?_, ?_⟩, fun c => ⟨?_, ?_⟩, fun c => ⟨?_, ?_⟩, fun c => ⟨?_, ?_⟩⟩ <;> try cases c
  all_goals
    simp [typeOf, overloads, resolve, resolve.pick, result, isResult, Qual.viable, Qual.better, bodyType, answerOk, Body.onValues,
      instantiable, passErrorOk, passValueOk, sE, sV, h]

example : i32 ≠ error ∧ i32.Proper ∧ error.Proper := ⟨by decide, by simp [i32, Base.Proper], trivial⟩

end Solace.ResTy
