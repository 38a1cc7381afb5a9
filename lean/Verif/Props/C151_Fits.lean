import Verif.Props.C151_IndexLoops
/-
C151, continued: in every state that a program reaches, no vector holds more elements than it has room for, and only what has memory has room. So the hypothesis on the number of
elements in `C151_ends`, `C151_safe` and `C151_push` is met wherever a loop stands in a program.
-/
namespace Solace.Nested
open PathMem

mutual
/-- No vector in the object, at any depth, holds more elements than its capacity; one without memory has no capacity, an array without memory no
elements. -/
def Fits : Val → Prop
  | .str _ => True
  | .vec b c es => es.length ≤ c ∧ FitsAll es ∧ (b = none → c = 0)
  | .arr b es => FitsAll es ∧ (b = none → es = [])
  | .dict kb kc ks vb vc vs => ks.length ≤ kc ∧ vs.length ≤ vc ∧ FitsAll ks ∧ FitsAll vs ∧ (kb = none → kc = 0) ∧ (vb = none → vc = 0)
def FitsAll : List Val → Prop
  | [] => True
  | v :: vs => Fits v ∧ FitsAll vs
end

theorem fitsAll_iff (es : List Val) : FitsAll es ↔ ∀ x ∈ es, Fits x := by
  induction es with
  | nil => simp [FitsAll]
  | cons x es ih => simp [FitsAll, ih]

theorem fits_empty (k : Kind) : Fits k.empty := by
  cases k <;> simp [Kind.empty, Fits, FitsAll]

theorem fits_left (v : Val) : Fits v.left := fits_empty _

theorem fitsAll_append {es : List Val} {x : Val} (h : FitsAll es) (hx : Fits x) : FitsAll (es ++ [x]) := by
  rw [fitsAll_iff] at h ⊢
  intro y hy
  rcases List.mem_append.mp hy with hy | hy
  · exact h y hy
  · cases List.mem_singleton.mp hy; exact hx

theorem fitsAll_set {es : List Val} {x : Val} (k : Nat) (h : FitsAll es) (hx : Fits x) : FitsAll (es.set k x) := by
  rw [fitsAll_iff] at h ⊢
  intro y hy
  rcases List.mem_or_eq_of_mem_set hy with hy | rfl
  · exact h y hy
  · exact hx

theorem fitsAll_get {es : List Val} {k : Nat} {x : Val} (h : FitsAll es) (hx : es[k]? = some x) : Fits x :=
  (fitsAll_iff es).mp h x (List.mem_of_getElem? hx)

theorem fitsAll_dropLast {es : List Val} (h : FitsAll es) : FitsAll es.dropLast := by
  rw [fitsAll_iff] at h ⊢
  exact fun y hy => h y (List.dropLast_subset es hy)

theorem fitsAll_replicate (n : Nat) (k : Kind) : FitsAll (List.replicate n k.empty) := by
  rw [fitsAll_iff]
  intro y hy
  rw [(List.mem_replicate.mp hy).2]
  exact fits_empty k

theorem fits_elems {v : Val} {es : List Val} (h : Fits v) (he : v.elems = some es) : FitsAll es := by
  cases v <;> simp only [Val.elems, reduceCtorEq, Option.some.injEq] at he
  · subst he; exact h.2.1
  · subst he; exact h.1

theorem fits_withElems {v : Val} {es es' : List Val} (h : Fits v) (he : v.elems = some es) (hl : es'.length = es.length) (h' : FitsAll es') :
    Fits (v.withElems es') := by
  cases v <;> simp only [Val.elems, reduceCtorEq, Option.some.injEq] at he
  · subst he; exact ⟨hl ▸ h.1, h', h.2.2⟩
  · subst he
    refine ⟨h', fun hb => List.eq_nil_of_length_eq_zero ?_⟩
    rw [hl, h.2 hb]; rfl

def FitsVars (vs : Vars) : Prop := ∀ v, some v ∈ vs → Fits v

theorem FitsVars.get {vs : Vars} {i : Nat} {v : Val} (h : FitsVars vs) (hv : Nested.get vs i = some v) : Fits v := h v (get_mem hv)

theorem FitsVars.set {vs : Vars} (i : Nat) {y : Val} (h : FitsVars vs) (hy : Fits y) : FitsVars (vs.set i (some y)) := by
  intro v hv
  rcases List.mem_or_eq_of_mem_set hv with hv | hv
  · exact h v hv
  · cases hv; exact hy

theorem FitsVars.unset {vs : Vars} (i : Nat) (h : FitsVars vs) : FitsVars (vs.set i none) := by
  intro v hv
  rcases List.mem_or_eq_of_mem_set hv with hv | hv
  · exact h v hv
  · cases hv

theorem FitsVars.append {vs : Vars} {y : Val} (h : FitsVars vs) (hy : Fits y) : FitsVars (vs ++ [some y]) := by
  intro v hv
  rcases List.mem_append.mp hv with hv | hv
  · exact h v hv
  · cases List.mem_singleton.mp hv; exact hy

theorem moveAll_fits (is : List Nat) : ∀ (vs vs' : Vars) (xs : List Val), FitsVars vs → moveAll vs is = some (xs, vs') →
    FitsVars vs' ∧ FitsAll xs ∧ xs.length = is.length := by
  induction is with
  | nil => intro vs vs' xs h e; cases e; exact ⟨h, trivial, rfl⟩
  | cons i is ih =>
    intro vs vs' xs h e
    rw [moveAll] at e
    split at e
    · cases e
    · rename_i v hv
      split at e
      · cases e
      · rename_i ys ws hm
        cases e
        obtain ⟨h1, h2, h3⟩ := ih _ _ _ (h.set i (fits_left v)) hm
        exact ⟨h1, ⟨h.get hv, h2⟩, congrArg (· + 1) h3⟩

theorem step_fits {g : Policy} {p : Prog} {o : Op} {r : Prog × Bool} (h : FitsVars p.vars) (e : step g p o = .ok r) : FitsVars r.1.vars := by
  cases o with
  | string s =>
    rw [step] at e
    obtain ⟨x, _, e⟩ := bind_some e
    split at e
    · cases e; exact h.append trivial
    · cases e; exact h
  | fresh k => rw [step] at e; cases e; exact h.append (fits_empty k)
  | vector sz n =>
    rw [step] at e
    split at e
    · cases e; exact h
    · cases e; exact h.append ⟨Nat.zero_le _, trivial, nofun⟩
  | vectorOf sz is =>
    rw [step] at e
    split at e
    · cases e; exact h
    · rename_i xs vs hm
      obtain ⟨h1, h2, h3⟩ := moveAll_fits is _ _ _ h hm
      split at e
      · cases e; exact h
      · split at e
        · cases e
        · cases e; exact h1.append ⟨by omega, h2, nofun⟩
  | array sz n k =>
    rw [step] at e
    split at e
    · cases e; exact h
    · cases e; exact h.append ⟨fitsAll_replicate _ k, nofun⟩
  | arrayOf sz is =>
    rw [step] at e
    split at e
    · cases e; exact h
    · rename_i xs vs hm
      obtain ⟨h1, h2, h3⟩ := moveAll_fits is _ _ _ h hm
      split at e
      · cases e; exact h
      · split at e
        · cases e
        · cases e; exact h1.append ⟨h2, nofun⟩
  | dictionary ksz vsz n =>
    rw [step] at e
    split at e
    · cases e; exact h
    · split at e
      · obtain ⟨x, _, e⟩ := bind_some e; cases e; exact h
      · cases e; exact h.append ⟨Nat.zero_le _, Nat.zero_le _, trivial, trivial, nofun, nofun⟩
  | dictionaryOf i j =>
    rw [step] at e
    split at e
    · rename_i hi hj
      split at e
      · cases e; exact h
      · cases e
        have a := h.get hi
        have b := h.get hj
        exact ((h.set i (fits_empty .vec)).set j (fits_empty .vec)).append ⟨a.1, b.1, a.2.1, b.2.1, a.2.2, b.2.2⟩
    · cases e; exact h
  | push i j =>
    rw [step] at e
    split at e
    · rename_i b c es x hi hj
      split at e
      · cases e; exact h
      · cases e
        have a := h.get hi
        have hf : Fits (.vec b c (es ++ [x])) := ⟨by rw [List.length_append, List.length_singleton]; omega, fitsAll_append a.2.1 (h.get hj), a.2.2⟩
        exact (h.set i hf).set j (fits_left x)
    · cases e; exact h
  | pop i =>
    rw [step] at e
    split at e
    · rename_i b c es hi
      split at e
      · cases e; exact h
      · obtain ⟨x, _, e⟩ := bind_some e
        cases e
        have a := h.get hi
        exact h.set i ⟨by rw [List.length_dropLast]; have := a.1; omega, fitsAll_dropLast a.2.1, a.2.2⟩
    · cases e; exact h
  | clear i =>
    rw [step] at e
    split at e
    · rename_i hi
      obtain ⟨x, _, e⟩ := bind_some e
      cases e
      exact h.set i ⟨Nat.zero_le _, trivial, (h.get hi).2.2⟩
    · cases e; exact h
  | toArray i =>
    rw [step] at e
    split at e
    · rename_i hi
      cases e
      have a := h.get hi
      exact (h.set i (fits_empty .vec)).append ⟨a.2.1, fun hb => List.eq_nil_of_length_eq_zero (by have := a.1; rw [a.2.2 hb] at this; omega)⟩
    · cases e; exact h
  | put i j k =>
    rw [step] at e
    split at e
    · rename_i kb kc ks vb vc vs key hi hj
      have h1 := h.set j (fits_left key)
      split at e
      · cases e; exact h
      · rename_i x hx
        split at e
        · cases e; exact h
        · split at e
          · obtain ⟨y, _, e⟩ := bind_some e
            cases e; exact h1
          · split at e
            · obtain ⟨y, _, e⟩ := bind_some e
              obtain ⟨z, _, e⟩ := bind_some e
              cases e; exact h1.set k (fits_left x)
            · cases e
              have a := h.get hi
              refine (h1.set k (fits_left x)).set i ⟨?_, ?_, fitsAll_append a.2.2.1 (h.get hj), fitsAll_append a.2.2.2.1 (h1.get hx), a.2.2.2.2⟩
              · rw [List.length_append, List.length_singleton]; omega
              · rw [List.length_append, List.length_singleton]; omega
    · cases e; exact h
  | take i k =>
    rw [step] at e
    split at e
    · cases e; exact h
    · rename_i v hv
      split at e
      · cases e; exact h
      · rename_i es he
        split at e
        · cases e; exact h
        · rename_i x hx
          cases e
          have a := fits_elems (h.get hv) he
          exact (h.set i (fits_withElems (h.get hv) he List.length_set (fitsAll_set k a (fits_left x)))).append (fitsAll_get a hx)
  | store i k j =>
    rw [step] at e
    split at e
    · rename_i v y hv hy
      split at e
      · cases e; exact h
      · rename_i es he
        split at e
        · cases e; exact h
        · rename_i x hx
          split at e
          · cases e; exact h
          · cases e
            have a := fits_elems (h.get hv) he
            exact (h.set i (fits_withElems (h.get hv) he List.length_set (fitsAll_set k a (h.get hy)))).set j (fitsAll_get a hx)
    · cases e; exact h
  | fetch i key =>
    rw [step] at e
    split at e
    · rename_i kb kc ks vb vc vs hi
      split at e
      · cases e; exact h
      · rename_i n hn
        split at e
        · cases e
        · rename_i x hx
          cases e
          have a := h.get hi
          have hf : Fits (.dict kb kc ks vb vc (vs.set n x.left)) :=
            ⟨a.1, by rw [List.length_set]; exact a.2.1, a.2.2.1, fitsAll_set n a.2.2.2.1 (fits_left x), a.2.2.2.2⟩
          exact (h.set i hf).append (fitsAll_get a.2.2.2.1 hx)
    · cases e; exact h
  | change i key j =>
    rw [step] at e
    split at e
    · rename_i kb kc ks vb vc vs y hi hj
      split at e
      · cases e; exact h
      · rename_i n hn
        split at e
        · cases e
        · rename_i x hx
          split at e
          · cases e; exact h
          · cases e
            have a := h.get hi
            have hf : Fits (.dict kb kc ks vb vc (vs.set n y)) :=
              ⟨a.1, by rw [List.length_set]; exact a.2.1, a.2.2.1, fitsAll_set n a.2.2.2.1 (h.get hj), a.2.2.2.2⟩
            exact (h.set i hf).set j (fitsAll_get a.2.2.2.1 hx)
    · cases e; exact h
  | moveCtor i =>
    rw [step] at e
    split at e
    · cases e; exact h
    · rename_i v hv
      cases e
      exact (h.set i (fits_left v)).append (h.get hv)
  | assign i j =>
    rw [step] at e
    split at e
    · rename_i a b ha hb
      split at e
      · cases e; exact h
      · cases e; exact (h.set i (h.get hb)).set j (h.get ha)
    · cases e; exact h
  | swap i j =>
    rw [step] at e
    split at e
    · rename_i a b ha hb
      split at e
      · cases e; exact h
      · cases e; exact (h.set i (h.get hb)).set j (h.get ha)
    · cases e; exact h
  | null i =>
    rw [step] at e
    split at e
    · rename_i hi
      obtain ⟨x, _, e⟩ := bind_some e
      cases e
      exact h.set i ⟨Nat.zero_le _, trivial, (h.get hi).2.2⟩
    · obtain ⟨x, _, e⟩ := bind_some e
      cases e; exact h
    · cases e; exact h
  | destroy i =>
    rw [step] at e
    split at e
    · cases e; exact h
    · obtain ⟨x, _, e⟩ := bind_some e
      cases e; exact h.unset i

theorem run_fits {g : Policy} (ops : List Op) : ∀ (p q : Prog), FitsVars p.vars → run g p ops = .ok q → FitsVars q.vars := by
  induction ops with
  | nil => intro p q h e; cases e; exact h
  | cons o os ih =>
    intro p q h e
    rw [run] at e
    obtain ⟨r, e1, e2⟩ := bind_some e
    exact ih r.1 q (step_fits h e1) e2

/-- **C151** (full): after any statements whatever, no vector - in a variable or inside other containers - holds more elements than its capacity, and
neither vector of a dictionary does; what has no memory has no capacity and, if it is an array, no elements. -/
theorem C151_fits (g : Policy) (ops : List Op) (q : Prog) (h : run g init ops = .ok q) : FitsVars q.vars :=
  run_fits ops init q (fun v hv => by cases hv) h

/-- **C151** (full): wherever a loop over a vector stands in a program of statements that are defined everywhere, with a body of such statements that
leave the variable its vector, the loop ends within `capacity()` rounds, every block owned once. -/
theorem C151_program (g : Policy) (ops : List Op) (hops : ∀ o ∈ ops, Tame o) (i : Nat) (body : Body) (hk : ∀ k q, ∀ o ∈ body k q, Keeps i o)
    (ht : ∀ k q, ∀ o ∈ body k q, Tame o) : ∃ p, run g init ops = .ok p ∧ Inv p ∧
    ∀ b c es, get p.vars i = some (.vec b c es) →
      es.length ≤ c ∧ ∃ visited q, indexLoop g i body (c + 1) 0 p = some (visited, .ok q) ∧ Inv q ∧ visited.length ≤ c := by
  obtain ⟨p, h, hi⟩ := tame_run (g := g) ops init inv_init hops
  refine ⟨p, h, hi, fun b c es hv => ?_⟩
  have hc := ((C151_fits g ops p h).get hv).1
  exact ⟨hc, C151_safe g i body hk ht p hi b c es hv hc⟩

/-- The hypotheses of `C151_program` are met: a vector of two strings, and a body that clears it. -/
example : (∀ o ∈ two, Tame o) ∧ ∀ o ∈ ([.clear 0] : List Op), Keeps 0 o ∧ Tame o := by
  refine ⟨fun o ho => ?_, fun o ho => ?_⟩
  · simp only [two, List.mem_cons, List.not_mem_nil, or_false] at ho
    rcases ho with rfl | rfl | rfl | rfl | rfl <;> trivial
  · cases List.mem_singleton.mp ho; exact ⟨.inr (.inr (.inr (.inl rfl))), trivial⟩

end Solace.Nested
