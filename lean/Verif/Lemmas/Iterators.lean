import Verif.Spec.Iterators
import Verif.Props.C42_C43_VariableSpan
import Verif.Props.C83_DictionaryIteration
import Verif.Props.C102_EnvIterate
import Verif.Props.C68_RangeView
import Verif.Props.C10_C14_Exact
/-
Lemmas for C135: a class of iterators whose states can be told apart by positions behaves like positions.
-/
namespace Solace.Iterators
open Spec
variable {S X : Type}

/-- States of a class that stand for positions in `xs`. -/
structure Lawful (k : Kind S X) (xs : List X) (At : Nat → S → Prop) : Prop where
  begin' : ∃ s, k.begin' = .ok s ∧ At 0 s
  end' : ∃ s, k.end' = .ok s ∧ At xs.length s
  next : ∀ i s, At i s → i < xs.length → ∃ s', k.next s = .ok s' ∧ At (i + 1) s'
  deref : ∀ i s x, At i s → xs[i]? = some x → k.deref s = .ok x
  ne : ∀ i s j t, At i s → At j t → k.ne s t = decide (i ≠ j)
  eq : ∀ f, k.eq = some f → ∀ i s j t, At i s → At j t → f s t = decide (i = j)
  assign : ∀ f, k.moveAssign = some f → ∀ s t, (f s t).1 = t
  setTo : ∀ f, k.setTo = some f → ∀ s t, f s t = t

/-- Variables hold states for their positions. -/
def Shows (At : Nat → S → Prop) (p : Places) (w : Vars S) : Prop :=
  (∀ v, (p v).isSome → (w v).isSome) ∧ ∀ v i, p v = some (some i) → ∃ s, w v = some s ∧ At i s

theorem pos_some {p : Places} {x i : Nat} : p.pos x = some i ↔ p x = some (some i) := by
  rw [Places.pos]
  cases h : p x with
  | none => simp
  | some o => cases o <;> simp

theorem shows_set {At : Nat → S → Prop} {p : Places} {w : Vars S} (h : Shows At p w) (x : Nat) {i : Nat} {s : S} (hs : At i s) :
    Shows At (p.set x (some i)) (w.set x s) := by
  constructor
  · intro v hv
    rw [Vars.set]
    split
    · rfl
    · rename_i hne
      rw [Places.set, if_neg hne] at hv
      exact h.1 v hv
  · intro v j hj
    rw [Vars.set]
    rw [Places.set] at hj
    split
    · rename_i he
      rw [if_pos he] at hj
      cases hj
      exact ⟨s, rfl, hs⟩
    · rename_i hne
      rw [if_neg hne] at hj
      exact h.2 v j hj

theorem shows_forget {At : Nat → S → Prop} {p : Places} {w : Vars S} (h : Shows At p w) (x : Nat) (s : S) :
    Shows At (p.set x none) (w.set x s) := by
  constructor
  · intro v hv
    rw [Vars.set]
    split
    · rfl
    · rename_i hne
      rw [Places.set, if_neg hne] at hv
      exact h.1 v hv
  · intro v j hj
    rw [Vars.set]
    rw [Places.set] at hj
    split
    · rename_i he
      rw [if_pos he] at hj
      cases hj
    · rename_i hne
      rw [if_neg hne] at hj
      exact h.2 v j hj

theorem get_of {w : Vars S} {x : Nat} {s : S} (h : w x = some s) : w.get x = .ok s := by rw [Vars.get, h]

theorem get_isSome {w : Vars S} {x : Nat} (h : (w x).isSome) : ∃ s, w.get x = .ok s := by
  obtain ⟨s, hs⟩ := Option.isSome_iff_exists.mp h
  exact ⟨s, get_of hs⟩

theorem assignTemporary_ok {k : Kind S X} {xs : List X} {At : Nat → S → Prop} (hk : Lawful k xs At) {p : Places} {w : Vars S}
    (h : Shows At p w) {x i : Nat} {t : S} (ht : At i t) (hm : k.setTo.isSome = true) (hx : (p x).isSome) :
    ∃ w', assignTemporary k w x t = .ok (w', .nothing) ∧ Shows At (p.set x (some i)) w' := by
  obtain ⟨f, hf⟩ := Option.isSome_iff_exists.mp hm
  obtain ⟨s, hs⟩ := get_isSome (h.1 x hx)
  refine ⟨w.set x t, ?_, shows_set h x ht⟩
  rw [assignTemporary, hf]
  simp only
  rw [hs, Outcome.bind_ok, hk.setTo f hf]

theorem step_ok {k : Kind S X} {xs : List X} {At : Nat → S → Prop} (hk : Lawful k xs At) {p : Places} {w : Vars S} (h : Shows At p w)
    {op : Op} {p' : Places} {o : Obs X} (e : Spec.step xs k.eq.isSome k.moveAssign.isSome k.setTo.isSome p op = some (p', o)) :
    ∃ w', step k w op = .ok (w', o) ∧ Shows At p' w' := by
  cases op with
  | newBegin x =>
    cases e
    obtain ⟨s, hs, ha⟩ := hk.begin'
    exact ⟨_, by rw [step, hs, Outcome.bind_ok], shows_set h x ha⟩
  | newEnd x =>
    cases e
    obtain ⟨s, hs, ha⟩ := hk.end'
    exact ⟨_, by rw [step, hs, Outcome.bind_ok], shows_set h x ha⟩
  | setBegin x =>
    rw [Spec.step] at e
    split at e
    · rename_i hc
      cases e
      obtain ⟨s, hs, ha⟩ := hk.begin'
      rw [step, hs, Outcome.bind_ok]
      exact assignTemporary_ok hk h ha hc.1 hc.2
    · cases e
  | setEnd x =>
    rw [Spec.step] at e
    split at e
    · rename_i hc
      cases e
      obtain ⟨s, hs, ha⟩ := hk.end'
      rw [step, hs, Outcome.bind_ok]
      exact assignTemporary_ok hk h ha hc.1 hc.2
    · cases e
  | copy x y =>
    rw [Spec.step] at e
    obtain ⟨i, hi, e⟩ := Option.map_eq_some_iff.mp e
    cases e
    obtain ⟨s, hs, ha⟩ := h.2 y i (pos_some.mp hi)
    exact ⟨_, by rw [step, get_of hs, Outcome.bind_ok], shows_set h x ha⟩
  | move x y =>
    rw [Spec.step] at e
    split at e
    · cases e
    · obtain ⟨i, hi, e⟩ := Option.map_eq_some_iff.mp e
      cases e
      obtain ⟨s, hs, ha⟩ := h.2 y i (pos_some.mp hi)
      exact ⟨_, by rw [step, get_of hs, Outcome.bind_ok], shows_set (shows_forget h y _) x ha⟩
  | assign x y =>
    rw [Spec.step] at e
    split at e
    · rename_i hc
      obtain ⟨i, hi, e⟩ := Option.map_eq_some_iff.mp e
      cases e
      obtain ⟨s, hs, ha⟩ := h.2 y i (pos_some.mp hi)
      obtain ⟨t, ht⟩ := get_isSome (h.1 x hc)
      exact ⟨_, by rw [step, ht, Outcome.bind_ok, get_of hs, Outcome.bind_ok], shows_set h x ha⟩
    · cases e
  | moveAssign x y =>
    rw [Spec.step] at e
    split at e
    · rename_i hc
      obtain ⟨i, hi, e⟩ := Option.map_eq_some_iff.mp e
      cases e
      obtain ⟨s, hs, ha⟩ := h.2 y i (pos_some.mp hi)
      obtain ⟨t, ht⟩ := get_isSome (h.1 x hc.2.1)
      obtain ⟨f, hf⟩ := Option.isSome_iff_exists.mp hc.1
      refine ⟨_, ?_, shows_set (shows_forget h y (f t s).2) x ha⟩
      rw [step, hf]
      simp only
      rw [ht, Outcome.bind_ok, get_of hs, Outcome.bind_ok, hk.assign f hf]
    · cases e
  | next x =>
    rw [Spec.step] at e
    obtain ⟨i, hi, e⟩ := Option.bind_eq_some_iff.mp e
    split at e
    · rename_i hlt
      cases e
      obtain ⟨s, hs, ha⟩ := h.2 x i (pos_some.mp hi)
      obtain ⟨s', hs', ha'⟩ := hk.next i s ha hlt
      exact ⟨_, by rw [step, get_of hs, Outcome.bind_ok, hs', Outcome.bind_ok], shows_set h x ha'⟩
    · cases e
  | deref x =>
    rw [Spec.step] at e
    obtain ⟨i, hi, e⟩ := Option.bind_eq_some_iff.mp e
    obtain ⟨v, hv, e⟩ := Option.map_eq_some_iff.mp e
    cases e
    obtain ⟨s, hs, ha⟩ := h.2 x i (pos_some.mp hi)
    exact ⟨w, by rw [step, get_of hs, Outcome.bind_ok, hk.deref i s v ha hv, Outcome.bind_ok], h⟩
  | eq x y =>
    rw [Spec.step] at e
    split at e
    · rename_i hc
      obtain ⟨i, hi, e⟩ := Option.bind_eq_some_iff.mp e
      obtain ⟨j, hj, e⟩ := Option.map_eq_some_iff.mp e
      cases e
      obtain ⟨s, hs, ha⟩ := h.2 x i (pos_some.mp hi)
      obtain ⟨t, ht, hb⟩ := h.2 y j (pos_some.mp hj)
      obtain ⟨f, hf⟩ := Option.isSome_iff_exists.mp hc
      refine ⟨w, ?_, h⟩
      rw [step, hf]
      simp only
      rw [get_of hs, Outcome.bind_ok, get_of ht, Outcome.bind_ok, hk.eq f hf i s j t ha hb]
    · cases e
  | ne x y =>
    rw [Spec.step] at e
    obtain ⟨i, hi, e⟩ := Option.bind_eq_some_iff.mp e
    obtain ⟨j, hj, e⟩ := Option.map_eq_some_iff.mp e
    cases e
    obtain ⟨s, hs, ha⟩ := h.2 x i (pos_some.mp hi)
    obtain ⟨t, ht, hb⟩ := h.2 y j (pos_some.mp hj)
    exact ⟨w, by rw [step, get_of hs, Outcome.bind_ok, get_of ht, Outcome.bind_ok, hk.ne i s j t ha hb], h⟩

theorem run_ok {k : Kind S X} {xs : List X} {At : Nat → S → Prop} (hk : Lawful k xs At) (ops : List Op) :
    ∀ (p : Places) (w : Vars S) os, Shows At p w → Spec.run xs k.eq.isSome k.moveAssign.isSome k.setTo.isSome p ops = some os →
      run k w ops = .ok os := by
  induction ops with
  | nil => intro p w os _ e; cases e; rfl
  | cons op ops ih =>
    intro p w os h e
    rw [Spec.run] at e
    obtain ⟨⟨p', o⟩, h1, e⟩ := Option.bind_eq_some_iff.mp e
    obtain ⟨os', h2, e⟩ := Option.map_eq_some_iff.mp e
    cases e
    obtain ⟨w', e1, h'⟩ := step_ok hk h h1
    rw [run, e1, Outcome.bind_ok, ih p' w' os' h' h2, Outcome.bind_ok]

theorem likePositions {k : Kind S X} {xs : List X} {At : Nat → S → Prop} (hk : Lawful k xs At) : LikePositions k xs := by
  intro ops os e
  refine run_ok hk ops start (fun _ => none) os ⟨fun v hv => ?_, fun v i hi => ?_⟩ e
  · cases hv
  · cases hi

/-! ### The classes -/

theorem hexEncode_lawful (src : List Byte) : Lawful (hexEncode src) (src.map Base16.hexPair) (fun i s => s = i) where
  begin' := ⟨0, rfl, rfl⟩
  end' := ⟨_, rfl, by rw [List.length_map]⟩
  next := by
    rintro i s rfl hi
    rw [List.length_map] at hi
    exact ⟨s + 1, if_pos hi, rfl⟩
  deref := by
    rintro i s x rfl hx
    rw [List.getElem?_map] at hx
    obtain ⟨b, hb, rfl⟩ := Option.map_eq_some_iff.mp hx
    show (match src[s]? with | some b => Outcome.ok (Base16.hexPair b) | none => .ub) = _
    rw [hb]
  ne := by
    rintro i s j t rfl rfl
    show (s != t) = _
    rw [Bool.eq_iff_iff]; simp
  eq := by
    rintro f hf i s j t rfl rfl
    cases hf
    rw [Bool.eq_iff_iff]; simp
  assign := by
    rintro f hf s t
    cases hf
    rfl
  setTo := by
    rintro f hf s t
    cases hf
    rfl

theorem expected_matching {α : Type} (xs : List α) (pred : α → Bool) (n : Nat) (h : ∀ x, xs[n]? = some x → pred x = true) :
    RangeView.expected xs pred n = (xs.drop n).filter pred := by
  rw [RangeView.expected]
  cases hd : xs.drop n with
  | nil => rfl
  | cons y ys =>
    have hy : xs[n]? = some y := by
      have := congrArg List.head? hd
      rwa [List.head?_drop, List.head?_cons] at this
    rw [List.filter_cons_of_pos (h y hy)]

theorem expected_cons {α : Type} (xs : List α) (pred : α → Bool) (s : Nat) (h : s < xs.length) :
    RangeView.expected xs pred s = xs[s] :: (xs.drop (s + 1)).filter pred := by
  rw [RangeView.expected, RangeView.drop_cons_of_get _ _ _ (List.getElem?_eq_getElem h)]

theorem expected_shorter {α : Type} (xs : List α) (pred : α → Bool) (s t : Nat) (hst : s < t) (ht : t ≤ xs.length)
    (h : ∀ x, xs[t]? = some x → pred x = true) :
    (RangeView.expected xs pred t).length < (RangeView.expected xs pred s).length := by
  rw [expected_matching xs pred t h, expected_cons xs pred s (by omega), List.length_cons]
  have : xs.drop t = (xs.drop (s + 1)).drop (t - (s + 1)) := by
    rw [List.drop_drop]; congr 1; omega
  rw [this]
  exact Nat.lt_succ_of_le ((List.drop_sublist _ _).filter pred).length_le

/-- The iterator is at the element with which the remaining items begin. -/
structure RangeAt {α : Type} (xs : List α) (pred : α → Bool) (i s : Nat) : Prop where
  le : s ≤ xs.length
  rest : (RangeView.expected xs pred 0).drop i = RangeView.expected xs pred s
  pos : i ≤ (RangeView.expected xs pred 0).length
  good : s ≠ 0 → ∀ x, xs[s]? = some x → pred x = true

theorem range_lawful {α : Type} (fuel : Nat) (xs : List α) (pred : α → Bool) (hf : xs.length ≤ fuel) :
    Lawful (range fuel xs pred) (RangeView.expected xs pred 0) (RangeAt xs pred) where
  begin' := ⟨0, rfl, Nat.zero_le _, by rw [List.drop_zero], Nat.zero_le _, fun h => absurd rfl h⟩
  end' := ⟨xs.length, rfl, Nat.le_refl _, by
    rw [List.drop_length, RangeView.expected.eq_def xs pred xs.length, List.drop_length], Nat.le_refl _,
    fun _ x hx => by rw [List.getElem?_eq_none (Nat.le_refl _)] at hx; cases hx⟩
  next := by
    rintro i s ⟨h1, h2, h3, _⟩ hi
    have hne : s ≠ xs.length := by
      rintro rfl
      rw [RangeView.expected.eq_def xs pred xs.length, List.drop_length] at h2
      have := congrArg List.length h2
      rw [List.length_drop, List.length_nil] at this
      omega
    have hlt : s < xs.length := by omega
    obtain ⟨n, g1, g2, g3, g4, g5⟩ := RangeView.skip_spec xs pred fuel s (by omega) hlt
    refine ⟨n, ?_, g3, ?_, hi, fun _ => g5⟩
    · show (match RangeView.next xs pred fuel s with | some r => r | none => .ub) = _
      rw [RangeView.next, if_neg hne, g1]
    · rw [expected_matching xs pred n g5, ← List.drop_drop, h2, expected_cons xs pred s hlt, List.drop_one, List.tail_cons, g4]
  deref := by
    rintro i s x ⟨h1, h2, h3, _⟩ hx
    have hh := congrArg List.head? h2
    rw [List.head?_drop, hx] at hh
    by_cases hlt : s < xs.length
    · rw [expected_cons xs pred s hlt, List.head?_cons] at hh
      cases hh
      exact RangeView.deref_lt _ _ _ (List.getElem?_eq_getElem hlt)
    · rw [RangeView.expected.eq_def xs pred s, List.drop_eq_nil_of_le (by omega)] at hh
      cases hh
  ne := by
    rintro i s j t hs ht
    show (s != t) = _
    rw [Bool.eq_iff_iff, bne_iff_ne, decide_eq_true_iff]
    have ls := congrArg List.length hs.rest
    have lt := congrArg List.length ht.rest
    rw [List.length_drop] at ls lt
    have := hs.pos
    have := ht.pos
    constructor
    · rintro hne rfl
      rcases Nat.lt_or_gt_of_ne hne with h | h
      · have := expected_shorter xs pred s t h ht.le (ht.good (by omega))
        omega
      · have := expected_shorter xs pred t s h hs.le (hs.good (by omega))
        omega
    · rintro hne rfl
      omega
  eq := fun f hf => (by cases hf)
  assign := by
    rintro f hf s t
    cases hf
    rfl
  setTo := by
    rintro f hf s t
    cases hf
    rfl

theorem env_lawful (fuel : Nat) (w : EnvIter.World) (h : Env.Fits w.entries) (hf : w.entries.length < fuel) :
    Lawful (env fuel w) (w.entries.map EnvIter.var) (fun i s => s = ⟨i, w.entries.length⟩) := by
  have hs : Env.size fuel w.entries = some w.entries.length := Env.size_eq h.1 fuel 0 (Nat.zero_le _) (by omega)
  refine { begin' := ⟨_, ?_, rfl⟩, end' := ⟨_, ?_, rfl⟩, next := ?_, deref := ?_, ne := ?_, eq := ?_, assign := ?_, setTo := ?_ }
  · show (match EnvIter.iterBegin fuel w with | some i => Outcome.ok i | none => .ub) = _
    rw [EnvIter.iterBegin, hs]; rfl
  · show (match EnvIter.iterEnd fuel w with | some i => Outcome.ok i | none => .ub) = _
    rw [EnvIter.iterEnd, hs, List.length_map]; rfl
  · rintro i s rfl hi
    rw [List.length_map] at hi
    exact ⟨_, (EnvIter.C102_increment ⟨i, w.entries.length⟩ h.1).2 hi, rfl⟩
  · rintro i s x rfl hx
    rw [List.getElem?_map] at hx
    obtain ⟨e, he, rfl⟩ := Option.map_eq_some_iff.mp hx
    have hi := (List.getElem?_eq_some_iff.mp he).1
    exact EnvIter.deref_entry (a := ⟨i, w.entries.length⟩) he (h.2 _ (List.mem_of_getElem? he)) hi
  · rintro i s j t rfl rfl
    show (i != j) = _
    rw [Bool.eq_iff_iff]; simp
  · rintro f hf i s j t rfl rfl
    cases hf
    show (i == j) = _
    rw [Bool.eq_iff_iff]; simp
  · rintro f hf s t
    cases hf
    rfl
  · rintro f hf s t
    cases hf
    rfl

theorem path_lawful (p : Path) (h : p.comps.length < 2 ^ 64) :
    Lawful (path p) p.comps (fun i s => s = ⟨i, p.comps⟩) where
  begin' := ⟨_, rfl, rfl⟩
  end' := ⟨_, rfl, rfl⟩
  next := by
    rintro i s rfl hi
    refine ⟨_, rfl, ?_⟩
    rw [Path.Iter.next]
    simp only
    rw [wrap64_of_lt (by omega)]
  deref := by
    rintro i s x rfl hx
    show Path.Iter.deref _ = _
    rw [Path.Iter.deref]
    simp only [hx]
  ne := by
    rintro i s j t rfl rfl
    show (!(i == j)) = _
    rw [Bool.eq_iff_iff]; simp
  eq := by
    rintro f hf i s j t rfl rfl
    cases hf
    show (i == j) = _
    rw [Bool.eq_iff_iff]; simp
  assign := by
    rintro f hf s t
    cases hf
    rfl
  setTo := by
    rintro f hf s t
    cases hf
    rfl

theorem dictionary_lawful {K V : Type} {szK szV : Nat} {d : Dict K V} {es : List (K × V)} (h : Dict.Entries szK szV d es) :
    Lawful (dictionary szK szV d) es (fun i s => s = (i, i)) where
  begin' := ⟨_, rfl, rfl⟩
  end' := ⟨_, rfl, by rw [Dict.viewSize_holds h.1, Dict.viewSize_holds h.2, List.length_map, List.length_map]⟩
  next := by
    rintro i s rfl hi
    exact ⟨_, rfl, rfl⟩
  deref := by
    rintro i s x rfl hx
    obtain ⟨hlt, rfl⟩ := List.getElem?_eq_some_iff.mp hx
    have hk := Dict.holds_get h.1 i (by simpa using hlt)
    have hv := Dict.holds_get h.2 i (by simpa using hlt)
    show Dict.entryAt d (i, i) = _
    simp only [Dict.entryAt, hk, hv, List.getElem_map]
  ne := by
    rintro i s j t rfl rfl
    show (i != j || i != j) = _
    rw [Bool.eq_iff_iff]; simp
  eq := by
    rintro f hf i s j t rfl rfl
    cases hf
    show (i == j && i == j) = _
    rw [Bool.eq_iff_iff]; simp
  assign := by
    rintro f hf s t
    cases hf
    rfl
  setTo := by
    rintro f hf s t
    cases hf
    rfl

/-- The chunks from the `i`-th on are to come. -/
structure SpanAt (host : Bool) (n : Nat) (enc : VariableSpan.Enc) (chunks : List (List Byte)) (after : List Byte) (i : Nat)
    (s : VariableSpan.Iter) : Prop where
  le : i ≤ chunks.length
  count : s.nElements = chunks.length - i
  data : i < chunks.length → s.data = VariableSpan.encode host n enc (chunks.drop i) ++ after

theorem chunk_at (host : Bool) (n : Nat) (enc : VariableSpan.Enc) (c : List Byte) (cs : List (List Byte)) (after : List Byte)
    (hlen : cs.length + 1 < 2 ^ 16) (hc : c.length < 256 ^ n)
    (hdata : (VariableSpan.encode host n enc (c :: cs) ++ after).length < 2 ^ 64) :
    VariableSpan.Iter.deref host n enc ⟨cs.length + 1, VariableSpan.encode host n enc (c :: cs) ++ after⟩ = .ok c ∧
    VariableSpan.Iter.next host n enc ⟨cs.length + 1, VariableSpan.encode host n enc (c :: cs) ++ after⟩ =
      ⟨cs.length, VariableSpan.encode host n enc cs ++ after⟩ := by
  have hsz := VariableSpan.sizeText_length host n c.length enc
  have he : VariableSpan.encode host n enc (c :: cs) ++ after =
      VariableSpan.sizeText host n c.length enc ++ (c ++ (VariableSpan.encode host n enc cs ++ after)) := by
    simp [VariableSpan.encode]
  have hnl : n ≤ (VariableSpan.encode host n enc (c :: cs) ++ after).length := by
    rw [he, List.length_append, hsz]; omega
  obtain ⟨h1, h2⟩ := VariableSpan.readChunk_full host n enc _ hdata hnl
  have hv : (VariableSpan.readChunk host n enc (VariableSpan.encode host n enc (c :: cs) ++ after)).1 = c.length := by
    refine h2 c.length ?_ hc
    rw [he]
    conv => lhs; rw [← hsz]
    rw [hsz, List.take_append_of_le_length (by omega), List.take_of_length_le (by omega)]
  have htail : (VariableSpan.readChunk host n enc (VariableSpan.encode host n enc (c :: cs) ++ after)).2 =
      c ++ (VariableSpan.encode host n enc cs ++ after) := by
    rw [h1, he, List.drop_append_of_le_length (by omega), List.drop_of_length_le (by omega), List.nil_append]
  constructor
  · rw [VariableSpan.Iter.deref, if_neg (by simp)]
    simp only [hv, htail]
    rw [slice_eq, List.drop_zero, Nat.sub_zero, List.take_left]
  · rw [VariableSpan.Iter.next, if_neg (by simp)]
    simp only [hv, htail]
    rw [slice_eq, List.drop_left, List.take_of_length_le (by simp),
      sub16_of_le (by omega) (by omega), Nat.add_sub_cancel]

theorem encode_split (host : Bool) (n : Nat) (enc : VariableSpan.Enc) (chunks : List (List Byte)) (i : Nat) :
    (VariableSpan.encode host n enc (chunks.drop i)).length ≤ (VariableSpan.encode host n enc chunks).length := by
  conv => rhs; rw [← List.take_append_drop i chunks]
  rw [VariableSpan.encode, VariableSpan.encode, List.map_append, List.flatten_append, List.length_append]
  omega

theorem span_lawful (constant host : Bool) (n : Nat) (enc : VariableSpan.Enc) (chunks : List (List Byte)) (after : List Byte)
    (hcount : chunks.length < 2 ^ 16) (hc : ∀ c ∈ chunks, c.length < 256 ^ n)
    (hdata : (VariableSpan.encode host n enc chunks ++ after).length < 2 ^ 64) :
    Lawful (span constant host n enc chunks.length (VariableSpan.encode host n enc chunks ++ after)) chunks
      (SpanAt host n enc chunks after) := by
  have at' : ∀ i s, SpanAt host n enc chunks after i s → (hi : i < chunks.length) →
      VariableSpan.Iter.deref host n enc s = .ok chunks[i] ∧
      VariableSpan.Iter.next host n enc s =
        ⟨chunks.length - (i + 1), VariableSpan.encode host n enc (chunks.drop (i + 1)) ++ after⟩ := by
    intro i s hs hi
    have hd := List.drop_eq_getElem_cons hi
    have hsl : s = ⟨(chunks.drop (i + 1)).length + 1, VariableSpan.encode host n enc (chunks[i] :: chunks.drop (i + 1)) ++ after⟩ := by
      rw [← hd, ← hs.data hi, List.length_drop, show chunks.length - (i + 1) + 1 = s.nElements by rw [hs.count]; omega]
    have hl := encode_split host n enc chunks i
    rw [List.length_append] at hdata
    have := chunk_at host n enc chunks[i] (chunks.drop (i + 1)) after (by rw [List.length_drop]; omega)
      (hc _ (List.getElem_mem hi)) (by rw [← hd, List.length_append]; omega)
    rw [← hsl, List.length_drop] at this
    exact this
  refine { begin' := ⟨_, rfl, ⟨Nat.zero_le _, rfl, fun _ => by rw [List.drop_zero]⟩⟩,
           end' := ⟨_, rfl, ⟨Nat.le_refl _, (Nat.sub_self _).symm, fun h => absurd h (Nat.lt_irrefl _)⟩⟩,
           next := ?_, deref := ?_, ne := ?_, eq := ?_, assign := ?_, setTo := ?_ }
  · intro i s hs hi
    refine ⟨_, rfl, hi, ?_, fun h => ?_⟩
    · rw [(at' i s hs hi).2]
    · rw [(at' i s hs hi).2]
  · intro i s x hs hx
    obtain ⟨hi, rfl⟩ := List.getElem?_eq_some_iff.mp hx
    exact (at' i s hs hi).1
  · intro i s j t hs ht
    have h1 := hs.le
    have h2 := ht.le
    show (!(s.nElements == t.nElements)) = _
    rw [hs.count, ht.count, Bool.eq_iff_iff, Bool.not_eq_true', beq_eq_false_iff_ne, decide_eq_true_iff]
    omega
  · intro f hf i s j t hs ht
    cases hf
    have h1 := hs.le
    have h2 := ht.le
    show (s.nElements == t.nElements) = _
    rw [hs.count, ht.count, Bool.eq_iff_iff, beq_iff_eq, decide_eq_true_iff]
    omega
  · intro f hf
    cases hf
  · intro f hf s t
    cases constant
    · cases hf
    · cases hf
      rfl

/-- Items of a text: the bytes of its longest run of pairs of digits. -/
structure DecAt (text bytes : List Byte) (rest : List Byte) (i : Nat) (s : Base16.DecIter) : Prop where
  le : i ≤ bytes.length
  left : s.left = if i < bytes.length then text.drop (2 * i) ++ rest else []
  value : i < bytes.length → s.value = bytes[i]?

theorem load_at (p bytes rest : List Byte) (hp : Hex.parse p = some bytes)
    (hr : rest = [] ∨ (∃ a, rest = [a]) ∨ ∃ a b r, rest = a :: b :: r ∧ ¬(Hex.IsDigit a ∧ Hex.IsDigit b) ∧
      ¬(128 ≤ a.toNat ∨ 128 ≤ b.toNat)) (old : Option Byte) :
    ∃ s, Base16.DecIter.load (p ++ rest) old = .ok s ∧ (s.left = if 0 < bytes.length then p ++ rest else []) ∧
      (0 < bytes.length → s.value = bytes[0]?) := by
  induction p using Hex.parse.induct generalizing bytes with
  | case1 =>
    cases hp
    refine ⟨⟨[], old⟩, ?_, rfl, fun h => absurd h (Nat.lt_irrefl _)⟩
    rw [List.nil_append]
    rcases hr with rfl | ⟨a, rfl⟩ | ⟨a, b, r, rfl, hn, hw⟩
    · rfl
    · rfl
    · rw [Base16.DecIter.load, Base16.decode16_bad a b hn, if_neg hw]
  | case2 => cases hp
  | case3 a b q hh l bs' hq hb ha ih =>
    rw [Hex.parse, ha, hb, hq] at hp
    cases hp
    have h1 : a.toNat < 128 := Base16.value_ascii a (by simp [Hex.IsDigit, ha])
    have h2 : b.toNat < 128 := Base16.value_ascii b (by simp [Hex.IsDigit, hb])
    refine ⟨⟨a :: b :: (q ++ rest), some (BitVec.ofNat 8 (16 * hh + l))⟩, ?_, ?_, fun _ => rfl⟩
    · rw [List.cons_append, List.cons_append, Base16.DecIter.load, Base16.decode16_eq a b h1 h2, ha, hb]
    · rw [if_pos (by simp)]; rfl
  | case4 a b q hno ih =>
    rw [Hex.parse] at hp
    split at hp
    · rename_i h1 h2 h3; exact absurd h3 (hno _ _ _ h1 h2)
    · cases hp

theorem parse_drop (p : List Byte) : ∀ (bytes : List Byte) (i : Nat), Hex.parse p = some bytes → i ≤ bytes.length →
    Hex.parse (p.drop (2 * i)) = some (bytes.drop i) := by
  induction p using Hex.parse.induct with
  | case1 =>
    intro bytes i hp hi
    cases hp
    rw [List.length_nil] at hi
    obtain rfl : i = 0 := by omega
    rfl
  | case2 => intro bytes i hp; cases hp
  | case3 a b q hh l bs' hq hb ha ih =>
    intro bytes i hp hi
    cases i with
    | zero => rw [Nat.mul_zero, List.drop_zero, List.drop_zero, hp]
    | succ i =>
      rw [Hex.parse, ha, hb, hq] at hp
      cases hp
      rw [List.length_cons] at hi
      have := ih bs' i hq (by omega)
      rw [show 2 * (i + 1) = 2 * i + 1 + 1 by omega, List.drop_succ_cons, List.drop_succ_cons, List.drop_succ_cons, this]
  | case4 a b q hno ih =>
    intro bytes i hp
    rw [Hex.parse] at hp
    split at hp
    · rename_i h1 h2 h3; exact absurd h3 (hno _ _ _ h1 h2)
    · cases hp

theorem hexDecode_lawful (p bytes rest : List Byte) (hp : Hex.parse p = some bytes)
    (hr : rest = [] ∨ (∃ a, rest = [a]) ∨ ∃ a b r, rest = a :: b :: r ∧ ¬(Hex.IsDigit a ∧ Hex.IsDigit b) ∧
      ¬(128 ≤ a.toNat ∨ 128 ≤ b.toNat)) :
    Lawful (hexDecode (p ++ rest)) bytes (DecAt p bytes rest) := by
  have hl := Base16.parse_length p bytes hp
  have load : ∀ i old, i ≤ bytes.length → ∃ s, Base16.DecIter.load (p.drop (2 * i) ++ rest) old = .ok s ∧ DecAt p bytes rest i s := by
    intro i old hi
    obtain ⟨s, h1, h2, h3⟩ := load_at _ _ rest (parse_drop p bytes i hp hi) hr old
    rw [List.length_drop] at h2 h3
    refine ⟨s, h1, hi, ?_, fun h => ?_⟩
    · rw [h2]
      by_cases h : i < bytes.length
      · rw [if_pos h, if_pos (by omega)]
      · rw [if_neg h, if_neg (by omega)]
    · rw [h3 (by omega), List.getElem?_drop, Nat.add_zero]
  have left_length : ∀ i s, DecAt p bytes rest i s →
      s.left.length = if i < bytes.length then p.length - 2 * i + rest.length else 0 := by
    intro i s hs
    rw [hs.left]
    split
    · rw [List.length_append, List.length_drop]
    · rfl
  have same : ∀ i s j t, DecAt p bytes rest i s → DecAt p bytes rest j t → (s.left.length = t.left.length ↔ i = j) := by
    intro i s j t hs ht
    have h1 := hs.le
    have h2 := ht.le
    rw [left_length i s hs, left_length j t ht]
    constructor
    · intro h
      split at h <;> split at h <;> omega
    · rintro rfl; rfl
  refine { begin' := ?_, end' := ⟨⟨[], none⟩, rfl, ⟨Nat.le_refl _, ?_, fun h => absurd h (Nat.lt_irrefl _)⟩⟩,
           next := ?_, deref := ?_, ne := ?_, eq := ?_, assign := ?_, setTo := ?_ }
  · obtain ⟨s, h1, h2⟩ := load 0 none (Nat.zero_le _)
    exact ⟨s, by rw [Nat.mul_zero, List.drop_zero] at h1; exact h1, h2⟩
  · rw [if_neg (Nat.lt_irrefl _)]
  · intro i s hs hi
    have he := hs.left
    rw [if_pos hi] at he
    obtain ⟨s', h1, h2⟩ := load (i + 1) s.value hi
    refine ⟨s', ?_, h2⟩
    have h0 : 2 * i < p.length := by omega
    have h0' : 2 * i + 1 < p.length := by omega
    show Base16.DecIter.next s = _
    rw [Base16.DecIter.next, he, List.drop_eq_getElem_cons h0, List.drop_eq_getElem_cons h0', List.cons_append, List.cons_append]
    simp only
    rw [← h1]
    rfl
  · intro i s x hs hx
    have hi := (List.getElem?_eq_some_iff.mp hx).1
    show Base16.DecIter.deref s = _
    rw [Base16.DecIter.deref, hs.value hi, hx]
  · intro i s j t hs ht
    show (s.left.length != t.left.length) = _
    rw [Bool.eq_iff_iff, bne_iff_ne, decide_eq_true_iff, Ne, same i s j t hs ht]
  · intro f hf i s j t hs ht
    cases hf
    rw [Bool.eq_iff_iff, beq_iff_eq, decide_eq_true_iff, same i s j t hs ht]
  · rintro f hf s t
    cases hf
    rfl
  · rintro f hf s t
    cases hf
    rfl

end Solace.Iterators
