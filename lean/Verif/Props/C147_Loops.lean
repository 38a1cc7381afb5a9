import Verif.Spec.Loops
import Verif.Props.C133_NestedViews
/-
C147: loops over containers that their bodies change.
-/
namespace Solace.Nested
open PathMem

/-! ### The memory of elements -/

mutual
theorem stored_arrays (b : Nat) : ∀ (v : Val) (es : List Val), v.stored b = some es → (b, es) ∈ v.arrays
  | .str _, es, h => by rw [Val.stored] at h; cases h
  | .vec c _ xs, es, h => by
    rw [Val.stored] at h
    rw [Val.arrays, List.mem_append, opt_mem]
    split at h
    · cases h; exact .inl ⟨by assumption, rfl⟩
    · exact .inr (storedAll_arrays b xs es h)
  | .arr c xs, es, h => by
    rw [Val.stored] at h
    rw [Val.arrays, List.mem_append, opt_mem]
    split at h
    · cases h; exact .inl ⟨by assumption, rfl⟩
    · exact .inr (storedAll_arrays b xs es h)
  | .dict kb _ ks vb _ vs, es, h => by
    rw [Val.stored] at h
    rw [Val.arrays, List.mem_append, List.mem_append, List.mem_append, opt_mem, opt_mem]
    split at h
    · cases h; exact .inl (.inl ⟨by assumption, rfl⟩)
    · split at h
      · cases h; exact .inr (.inl ⟨by assumption, rfl⟩)
      · cases hk : storedAll b ks with
        | some xs => rw [hk] at h; cases h; exact .inl (.inr (storedAll_arrays b ks es hk))
        | none => rw [hk] at h; exact .inr (.inr (storedAll_arrays b vs es h))
theorem storedAll_arrays (b : Nat) : ∀ (vs : List Val) (es : List Val), storedAll b vs = some es → (b, es) ∈ arraysAll vs
  | [], es, h => by rw [storedAll] at h; cases h
  | v :: vs, es, h => by
    rw [storedAll] at h
    rw [arraysAll, List.mem_append]
    cases hv : v.stored b with
    | some xs => rw [hv] at h; cases h; exact .inl (stored_arrays b v es hv)
    | none => rw [hv] at h; exact .inr (storedAll_arrays b vs es h)
end

mutual
theorem arrays_stored (b : Nat) : ∀ (v : Val) (es : List Val), (b, es) ∈ v.arrays → v.stored b ≠ none
  | .str _, es, h => by rw [Val.arrays] at h; cases h
  | .vec c _ xs, es, h => by
    rw [Val.arrays, List.mem_append, opt_mem] at h
    rw [Val.stored]
    split
    · intro e; cases e
    · rename_i hc
      exact h.elim (fun h => absurd h.1 hc) (arraysAll_stored b xs es)
  | .arr c xs, es, h => by
    rw [Val.arrays, List.mem_append, opt_mem] at h
    rw [Val.stored]
    split
    · intro e; cases e
    · rename_i hc
      exact h.elim (fun h => absurd h.1 hc) (arraysAll_stored b xs es)
  | .dict kb _ ks vb _ vs, es, h => by
    rw [Val.arrays, List.mem_append, List.mem_append, List.mem_append, opt_mem, opt_mem] at h
    rw [Val.stored]
    split
    · intro e; cases e
    · rename_i hk
      split
      · intro e; cases e
      · rename_i hv
        cases e : storedAll b ks with
        | some xs => intro e; cases e
        | none =>
          rcases h with (h | h) | (h | h)
          · exact absurd h.1 hk
          · exact absurd e (arraysAll_stored b ks es h)
          · exact absurd h.1 hv
          · exact arraysAll_stored b vs es h
theorem arraysAll_stored (b : Nat) : ∀ (vs : List Val) (es : List Val), (b, es) ∈ arraysAll vs → storedAll b vs ≠ none
  | [], es, h => by rw [arraysAll] at h; cases h
  | v :: vs, es, h => by
    rw [arraysAll, List.mem_append] at h
    rw [storedAll]
    cases hv : v.stored b with
    | some xs => intro e; cases e
    | none => exact h.elim (fun h => absurd hv (arrays_stored b v es h)) (arraysAll_stored b vs es)
end

theorem stored_holds {b : Nat} {vs : Vars} {es : List Val} (h : stored b vs = some es) : Holds vs b es := by
  induction vs with
  | nil => cases h
  | cons o vs ih =>
    cases o with
    | none =>
      obtain ⟨v, hv, hm⟩ := ih h
      exact ⟨v, List.mem_cons_of_mem _ hv, hm⟩
    | some v =>
      rw [stored] at h
      cases hv : v.stored b with
      | some xs => rw [hv] at h; cases h; exact ⟨v, List.mem_cons_self, stored_arrays b v es hv⟩
      | none =>
        rw [hv] at h
        obtain ⟨w, hw, hm⟩ := ih h
        exact ⟨w, List.mem_cons_of_mem _ hw, hm⟩

theorem holds_stored {b : Nat} {vs : Vars} {es : List Val} (h : Holds vs b es) : stored b vs ≠ none := by
  induction vs with
  | nil => obtain ⟨v, hv, _⟩ := h; cases hv
  | cons o vs ih =>
    obtain ⟨v, hv, hm⟩ := h
    cases o with
    | none =>
      rw [stored]
      exact ih ⟨v, (List.mem_cons.mp hv).elim (fun e => by cases e) id, hm⟩
    | some w =>
      rw [stored]
      cases hw : w.stored b with
      | some xs => intro e; cases e
      | none =>
        rcases List.mem_cons.mp hv with e | hv
        · cases e; exact absurd hw (arrays_stored b _ es hm)
        · exact ih ⟨v, hv, hm⟩

mutual
theorem arrays_sub : ∀ (v : Val), (v.arrays.map Prod.fst).Sublist v.blocks
  | .str _ => by rw [Val.arrays]; exact List.nil_sublist _
  | .vec b _ es => by
    rw [Val.arrays, Val.blocks, List.map_append, opt_fst]; exact (List.Sublist.refl _).append (arraysAll_sub es)
  | .arr b es => by
    rw [Val.arrays, Val.blocks, List.map_append, opt_fst]; exact (List.Sublist.refl _).append (arraysAll_sub es)
  | .dict kb _ ks vb _ vs => by
    rw [Val.arrays, Val.blocks, List.map_append, List.map_append, List.map_append, opt_fst, opt_fst]
    exact ((List.Sublist.refl _).append (arraysAll_sub ks)).append ((List.Sublist.refl _).append (arraysAll_sub vs))
theorem arraysAll_sub : ∀ (vs : List Val), ((arraysAll vs).map Prod.fst).Sublist (blocksAll vs)
  | [] => by rw [arraysAll]; exact List.nil_sublist _
  | v :: vs => by rw [arraysAll, blocksAll, List.map_append]; exact (arrays_sub v).append (arraysAll_sub vs)
end

theorem arrays_blocks {b : Nat} {es : List Val} {v : Val} (h : (b, es) ∈ v.arrays) : b ∈ v.blocks :=
  (arrays_sub v).subset (List.mem_map.mpr ⟨_, h, rfl⟩)

theorem vars_sub (vs : Vars) : ((vs.flatMap fun o => (o.map Val.arrays).getD []).map Prod.fst).Sublist (allBlocks vs) := by
  induction vs with
  | nil => exact List.nil_sublist _
  | cons o vs ih =>
    rw [allBlocks] at ih ⊢
    rw [List.flatMap_cons, List.flatMap_cons, List.map_append]
    refine List.Sublist.append ?_ ih
    cases o with
    | none => exact List.nil_sublist _
    | some v => exact arrays_sub v

/-- A block has one content. -/
theorem holds_unique {p : Prog} (hi : Inv p) {b : Nat} {es es' : List Val} (h : Holds p.vars b es) (h' : Holds p.vars b es') : es = es' := by
  have hn := (vars_sub p.vars).nodup (blocks_nodup hi)
  have mem : ∀ xs, Holds p.vars b xs → (b, xs) ∈ p.vars.flatMap fun o => (o.map Val.arrays).getD [] := by
    rintro xs ⟨v, hv, hm⟩
    exact List.mem_flatMap.mpr ⟨some v, hv, hm⟩
  exact pair_unique _ hn b es es' (mem es h) (mem es' h')

theorem cell_holds {p : Prog} (hi : Inv p) {b : Nat} {es : List Val} (h : Holds p.vars b es) (k : Nat) : cell p.vars b k = es[k]? := by
  rw [cell]
  cases hs : stored b p.vars with
  | none => exact absurd hs (holds_stored h)
  | some xs => rw [holds_unique hi h (stored_holds hs)]

/-! ### Single statements -/

/-- The elements are there, and if nothing was put in their places they are the same. -/
def Stays (x : Bool) (n : Nat) (ws : Vars) (b : Nat) (es : List Val) : Prop :=
  ∃ es', n ≤ es'.length ∧ Holds ws b es' ∧ (x = false → es'.take n = es.take n)

theorem stays_same {x : Bool} {n : Nat} {ws : Vars} {b : Nat} {es : List Val} (hl : n ≤ es.length) (h : Holds ws b es) : Stays x n ws b es :=
  ⟨es, hl, h, fun _ => rfl⟩

theorem holds_set_other {vs : Vars} {i : Nat} {v : Val} {y : Option Val} {b : Nat} {es : List Val} (hg : get vs i = some v) (hb : b ∉ v.blocks)
    (h : Holds vs b es) : Holds (vs.set i y) b es :=
  (holds_set hg h).elim id fun hm => absurd (arrays_blocks hm) hb

theorem step_stays {g : Policy} {p : Prog} {o : Op} {r : Prog × Bool} (e : step g p o = .ok r) {b n : Nat} {es : List Val}
    (hs : Spares p.vars b n o) (hl : n ≤ es.length) (h : Holds p.vars b es) : Stays o.exchanges n r.1.vars b es := by
  have same : Stays o.exchanges n p.vars b es := stays_same hl h
  have other : o.destroys = false → (∀ i j k, o = .put i j k → r.2 = true) → Stays o.exchanges n r.1.vars b es := by
    intro hd hput
    cases hx : o.exchanges with
    | true =>
      obtain ⟨es', ⟨hlen, _⟩, h'⟩ := C133_others_stay g p o hx r e b es h
      exact ⟨es', by omega, h', fun h => by cases h⟩
    | false =>
      obtain ⟨es', ⟨t, rfl⟩, h'⟩ := C133_elements_stay g p o hd hx r e hput b es h
      exact ⟨es ++ t, by rw [List.length_append]; omega, h', fun _ => List.take_append_of_le_length hl⟩
  cases o with
  | pop i =>
    rw [step] at e
    split at e
    · rename_i c m xs hv
      obtain ⟨h1, h2⟩ := hs c m xs hv
      cases hx : xs.getLast? with
      | none => rw [hx] at e; cases e; exact same
      | some x =>
        rw [hx] at e
        obtain ⟨h', _, e2⟩ := bind_some e
        cases e2
        have hb := h2 x hx
        have hxs : xs = xs.dropLast ++ [x] := by
          obtain ⟨ys, rfl⟩ := List.getLast?_eq_some_iff.mp hx
          rw [List.dropLast_concat]
        rcases holds_set (y := some (.vec c m xs.dropLast)) hv h with hh | hm
        · exact stays_same hl hh
        · rw [Val.arrays, List.mem_append, opt_mem] at hm
          rcases hm with ⟨rfl, rfl⟩ | hm
          · have hlt := h1 rfl
            refine ⟨es.dropLast, by rw [List.length_dropLast]; omega, holds_new hv ?_, fun _ => ?_⟩
            · rw [Val.arrays, List.mem_append, opt_mem]; exact .inl ⟨rfl, rfl⟩
            · rw [List.dropLast_eq_take, List.take_take]; congr 1; omega
          · refine stays_same hl (holds_new hv ?_)
            rw [Val.arrays, List.mem_append]
            refine .inr ?_
            rw [mem_arraysAll] at hm ⊢
            obtain ⟨v, hv', hm⟩ := hm
            rw [hxs, List.mem_append, List.mem_singleton] at hv'
            rcases hv' with hv' | rfl
            · exact ⟨v, hv', hm⟩
            · exact absurd (arrays_blocks hm) hb
    · cases e; exact same
  | clear i =>
    rw [step] at e
    split at e
    · rename_i c m xs hv
      obtain ⟨h', _, e2⟩ := bind_some e
      cases e2
      exact stays_same hl (holds_set_other hv (hs _ hv) h)
    · cases e; exact same
  | null i =>
    rw [step] at e
    split at e
    · rename_i c m xs hv
      obtain ⟨h', _, e2⟩ := bind_some e
      cases e2
      exact stays_same hl (holds_set_other hv (hs _ hv) h)
    · obtain ⟨h', _, e2⟩ := bind_some e
      cases e2
      exact same
    · cases e; exact same
  | destroy i =>
    rw [step] at e
    split at e
    · cases e; exact same
    · rename_i v hv
      obtain ⟨h', _, e2⟩ := bind_some e
      cases e2
      exact stays_same hl (holds_set_other hv (hs _ hv) h)
  | put i j k =>
    cases hr : r.2 with
    | true => exact other rfl fun _ _ _ _ => hr
    | false =>
      rw [step] at e
      split at e
      · rename_i kb kc ks vb vc xs key hd hk
        split at e
        · cases e; exact same
        · rename_i x hx
          split at e
          · cases e; exact same
          · split at e
            · obtain ⟨h', _, e2⟩ := bind_some e
              cases e2
              exact stays_same hl (holds_set_other hk (hs kb kc ks vb vc xs hd (.inl (by assumption)) key (.inl hk)) h)
            · split at e
              · obtain ⟨h1, _, e2⟩ := bind_some e
                obtain ⟨h2, _, e3⟩ := bind_some e2
                cases e3
                have hsp := hs kb kc ks vb vc xs hd (.inr (by assumption))
                refine stays_same hl (holds_set_other hx ?_ (holds_set_other hk (hsp key (.inl hk)) h))
                rw [get_set _ _ _ _ _ hk] at hx
                split at hx
                · cases hx; rw [left_blocks]; exact List.not_mem_nil
                · exact hsp x (.inr hx)
              · cases e; cases hr
      · cases e; exact same
  | string s => exact other rfl fun _ _ _ e => by cases e
  | fresh k => exact other rfl fun _ _ _ e => by cases e
  | vector sz n => exact other rfl fun _ _ _ e => by cases e
  | vectorOf sz is => exact other rfl fun _ _ _ e => by cases e
  | array sz n k => exact other rfl fun _ _ _ e => by cases e
  | arrayOf sz is => exact other rfl fun _ _ _ e => by cases e
  | dictionary ksz vsz n => exact other rfl fun _ _ _ e => by cases e
  | dictionaryOf i j => exact other rfl fun _ _ _ e => by cases e
  | push i j => exact other rfl fun _ _ _ e => by cases e
  | toArray i => exact other rfl fun _ _ _ e => by cases e
  | take i k => exact other rfl fun _ _ _ e => by cases e
  | store i k j => exact other rfl fun _ _ _ e => by cases e
  | fetch i key => exact other rfl fun _ _ _ e => by cases e
  | change i key j => exact other rfl fun _ _ _ e => by cases e
  | moveCtor i => exact other rfl fun _ _ _ e => by cases e
  | assign i j => exact other rfl fun _ _ _ e => by cases e
  | swap i j => exact other rfl fun _ _ _ e => by cases e

/-! ### Programs -/

/-- The elements that the loops go through are there. -/
def Active (p : Prog) (active : List (Nat × Nat)) : Prop := ∀ a ∈ active, ∃ es, a.2 ≤ es.length ∧ Holds p.vars a.1 es

/-- What a careful program guarantees to the loops around it. -/
def Sound (active : List (Nat × Nat)) (p : Prog) (r : Run) : Prop :=
  Careful r.log → r.result ≠ .dangling ∧ ∀ q, r.result = .done q → Inv q ∧
    ∀ b n es, (b, n) ∈ active → n ≤ es.length → Holds p.vars b es →
      ∃ es', n ≤ es'.length ∧ Holds q.vars b es' ∧ (Plain r.log → es'.take n = es.take n)

theorem active_next {active : List (Nat × Nat)} {p q : Prog} {r : Run} (hs : Sound active p r) (hc : Careful r.log) (ha : Active p active)
    (e : r.result = .done q) : Inv q ∧ Active q active := by
  obtain ⟨hq, hk⟩ := (hs hc).2 q e
  refine ⟨hq, fun a hm => ?_⟩
  obtain ⟨es, hl, hh⟩ := ha a hm
  obtain ⟨es', hl', hh', _⟩ := hk a.1 a.2 es hm hl hh
  exact ⟨es', hl', hh'⟩

theorem careful_append {a b : List Event} : Careful (a ++ b) ↔ Careful a ∧ Careful b :=
  ⟨fun h => ⟨fun e he => h e (List.mem_append_left _ he), fun e he => h e (List.mem_append_right _ he)⟩,
    fun h e he => (List.mem_append.mp he).elim (h.1 e) (h.2 e)⟩

theorem plain_append {a b : List Event} : Plain (a ++ b) ↔ Plain a ∧ Plain b := by
  simp only [Plain, List.mem_append, or_imp, forall_and]

theorem done_sound {active : List (Nat × Nat)} {p : Prog} (hi : Inv p) : Sound active p ⟨[], .done p⟩ := by
  intro _
  exact ⟨by simp, fun q e => by cases e; exact ⟨hi, fun b n es _ hl hh => ⟨es, hl, hh, fun _ => rfl⟩⟩⟩

theorem undefined_sound {active : List (Nat × Nat)} {p : Prog} {l : List Event} : Sound active p ⟨l, .undefined⟩ := by
  intro _
  exact ⟨by simp, fun q e => by cases e⟩

theorem andThen_sound {active : List (Nat × Nat)} {p : Prog} {r : Run} {f : Prog → Run} (ha : Active p active) (hr : Sound active p r)
    (hf : ∀ q, Inv q → Active q active → Sound active q (f q)) : Sound active p (r.andThen f) := by
  obtain ⟨log, res⟩ := r
  cases res with
  | undefined => exact undefined_sound
  | dangling => intro hc; exact absurd rfl (hr hc).1
  | done q =>
    intro hc
    rw [show (Run.andThen ⟨log, .done q⟩ f) = ⟨log ++ (f q).log, (f q).result⟩ from rfl] at hc ⊢
    dsimp only at hc ⊢
    obtain ⟨hc1, hc2⟩ := careful_append.mp hc
    obtain ⟨hq, haq⟩ := active_next hr hc1 ha rfl
    obtain ⟨h1, h2⟩ := hf q hq haq hc2
    refine ⟨h1, fun q' e => ⟨(h2 q' e).1, fun b n es hm hl hh => ?_⟩⟩
    obtain ⟨es1, l1, hh1, t1⟩ := ((hr hc1).2 q rfl).2 b n es hm hl hh
    obtain ⟨es2, l2, hh2, t2⟩ := (h2 q' e).2 b n es1 hm l1 hh1
    exact ⟨es2, l2, hh2, fun hp => by rw [t2 (plain_append.mp hp).2, t1 (plain_append.mp hp).1]⟩

theorem weaken_sound {a : Nat × Nat} {active : List (Nat × Nat)} {p : Prog} {r : Run} (h : Sound (a :: active) p r) : Sound active p r := by
  intro hc
  obtain ⟨h1, h2⟩ := h hc
  exact ⟨h1, fun q e => ⟨(h2 q e).1, fun b n es hm => (h2 q e).2 b n es (List.mem_cons_of_mem _ hm)⟩⟩

theorem rounds_sound {b N : Nat} {f : Nat → Val → Prog → Run} {active : List (Nat × Nat)} (hm : (b, N) ∈ active)
    (hf : ∀ k x q, Inv q → Active q active → Sound active q (f k x q)) (n : Nat) :
    ∀ (k : Nat) (p : Prog), k + n ≤ N → Inv p → Active p active → Sound active p (rounds b f k n p) := by
  induction n with
  | zero => intro k p _ hi _; exact done_sound hi
  | succ n ih =>
    intro k p hk hi ha
    rw [rounds]
    obtain ⟨es, hl, hh⟩ := ha _ hm
    rw [cell_holds hi hh]
    have hlt : k < es.length := by dsimp only at hl; omega
    rw [List.getElem?_eq_getElem hlt]
    exact andThen_sound ha (hf k _ p hi ha) fun q hq haq => ih (k + 1) q (by omega) hq haq

theorem rounds2_sound {kb vb N : Nat} {f : Nat → Val → Val → Prog → Run} {active : List (Nat × Nat)} (hk : (kb, N) ∈ active) (hv : (vb, N) ∈ active)
    (hf : ∀ k x y q, Inv q → Active q active → Sound active q (f k x y q)) (n : Nat) :
    ∀ (k : Nat) (p : Prog), k + n ≤ N → Inv p → Active p active → Sound active p (rounds2 kb vb f k n p) := by
  induction n with
  | zero => intro k p _ hi _; exact done_sound hi
  | succ n ih =>
    intro k p hkn hi ha
    rw [rounds2]
    obtain ⟨ks, hl, hh⟩ := ha _ hk
    obtain ⟨vs, hl', hh'⟩ := ha _ hv
    rw [cell_holds hi hh, cell_holds hi hh']
    have hlt : k < ks.length := by dsimp only at hl; omega
    have hlt' : k < vs.length := by dsimp only at hl'; omega
    rw [List.getElem?_eq_getElem hlt, List.getElem?_eq_getElem hlt']
    exact andThen_sound ha (hf k _ _ p hi ha) fun q hq haq => ih (k + 1) q (by omega) hq haq

mutual
theorem arrays_deep (b : Nat) : ∀ (v : Val) (es : List Val), (b, es) ∈ v.arrays → ∀ w ∈ arraysAll es, w ∈ v.arrays
  | .str _, es, h, w, hw => by rw [Val.arrays] at h; cases h
  | .vec c _ xs, es, h, w, hw => by
    rw [Val.arrays, List.mem_append, opt_mem] at h
    rw [Val.arrays, List.mem_append]
    rcases h with ⟨_, rfl⟩ | h
    · exact .inr hw
    · exact .inr (arraysAll_deep b xs es h w hw)
  | .arr c xs, es, h, w, hw => by
    rw [Val.arrays, List.mem_append, opt_mem] at h
    rw [Val.arrays, List.mem_append]
    rcases h with ⟨_, rfl⟩ | h
    · exact .inr hw
    · exact .inr (arraysAll_deep b xs es h w hw)
  | .dict kb _ ks vb _ vs, es, h, w, hw => by
    rw [Val.arrays, List.mem_append, List.mem_append, List.mem_append, opt_mem, opt_mem] at h
    rw [Val.arrays, List.mem_append, List.mem_append, List.mem_append]
    rcases h with (⟨_, rfl⟩ | h) | (⟨_, rfl⟩ | h)
    · exact .inl (.inr hw)
    · exact .inl (.inr (arraysAll_deep b ks es h w hw))
    · exact .inr (.inr hw)
    · exact .inr (.inr (arraysAll_deep b vs es h w hw))
theorem arraysAll_deep (b : Nat) : ∀ (vs : List Val) (es : List Val), (b, es) ∈ arraysAll vs → ∀ w ∈ arraysAll es, w ∈ arraysAll vs
  | [], es, h, w, hw => by rw [arraysAll] at h; cases h
  | v :: vs, es, h, w, hw => by
    rw [arraysAll, List.mem_append] at h ⊢
    exact h.elim (fun h => .inl (arrays_deep b v es h w hw)) fun h => .inr (arraysAll_deep b vs es h w hw)
end

/-- An object found at a place is part of the variables. -/
theorem arrays_inside {vs : Vars} {b k : Nat} {es : List Val} {v : Val} (h : Holds vs b es) (hk : es[k]? = some v) {w : Nat × List Val}
    (hw : w ∈ v.arrays) : Holds vs w.1 w.2 := by
  have hw' : w ∈ arraysAll es := mem_arraysAll.mpr ⟨v, List.mem_of_getElem? hk, hw⟩
  obtain ⟨u, hu, hm⟩ := h
  exact ⟨u, hu, arrays_deep b u es hm w hw'⟩

theorem lookup_obj {p : Prog} {active : List (Nat × Nat)} {pl : Place} {v : Val} (h : lookup p.vars active pl = .obj v)
    {w : Nat × List Val} (hw : w ∈ v.arrays) : Holds p.vars w.1 w.2 := by
  cases pl with
  | var i =>
    rw [lookup] at h
    split at h
    · cases h; exact holds_get (by assumption) hw
    · cases h
  | elem b k =>
    rw [lookup] at h
    split at h
    · split at h
      · rename_i x hx
        cases h
        rw [cell] at hx
        split at hx
        · cases hx
        · rename_i es hes
          exact arrays_inside (stored_holds hes) hx hw
      · cases h
    · cases h

theorem lookup_gone {p : Prog} {active : List (Nat × Nat)} {pl : Place} (hi : Inv p) (ha : Active p active) : lookup p.vars active pl ≠ .gone := by
  intro h
  cases pl with
  | var i =>
    rw [lookup] at h
    split at h <;> cases h
  | elem b k =>
    rw [lookup] at h
    split at h
    · rename_i hany
      rw [List.any_eq_true] at hany
      obtain ⟨a, hm, hak⟩ := hany
      simp only [Bool.and_eq_true, beq_iff_eq, decide_eq_true_eq] at hak
      obtain ⟨es, hl, hh⟩ := ha a hm
      rw [hak.1] at hh
      rw [cell_holds hi hh, List.getElem?_eq_getElem (by omega)] at h
      cases h
    · cases h

theorem extent_arrays {v : Val} {b n : Nat} (h : v.extent = some (b, n)) : ∃ es, v.elems = some es ∧ n = es.length ∧ (b, es) ∈ v.arrays := by
  cases v with
  | str o => cases h
  | dict => cases h
  | vec c m es =>
    cases c with
    | none => cases h
    | some c => cases h; exact ⟨es, rfl, rfl, by rw [Val.arrays, List.mem_append, opt_mem]; exact .inl ⟨rfl, rfl⟩⟩
  | arr c es =>
    cases c with
    | none => cases h
    | some c => cases h; exact ⟨es, rfl, rfl, by rw [Val.arrays, List.mem_append, opt_mem]; exact .inl ⟨rfl, rfl⟩⟩

theorem dict_both {kb vb : Nat} {kc vc : Nat} {ks vs : List Val} :
    (kb, ks) ∈ (Val.dict (some kb) kc ks (some vb) vc vs).arrays ∧ (vb, vs) ∈ (Val.dict (some kb) kc ks (some vb) vc vs).arrays := by
  simp only [Val.arrays, List.mem_append, opt_mem]
  exact ⟨.inl (.inl ⟨trivial, trivial⟩), .inr (.inl ⟨trivial, trivial⟩)⟩

theorem active_cons {p : Prog} {active : List (Nat × Nat)} {b : Nat} {es : List Val} (ha : Active p active) (h : Holds p.vars b es) :
    Active p ((b, es.length) :: active) := by
  intro a hm
  rcases List.mem_cons.mp hm with rfl | hm
  · exact ⟨es, Nat.le_refl _, h⟩
  · exact ha a hm

theorem exec_sound (g : Policy) (s : Stmt) : ∀ (active : List (Nat × Nat)) (p : Prog), Inv p → Active p active →
    Sound active p (exec g s active p) := by
  induction s with
  | skip => intro active p hi _; exact done_sound hi
  | op o =>
    intro active p hi ha hc
    rw [exec] at hc ⊢
    obtain ⟨hsp, hd⟩ := hc _ (List.mem_singleton.mpr rfl)
    dsimp only at hsp hd ⊢
    cases e : step g p o with
    | ok r =>
      refine ⟨by simp, fun q eq => ?_⟩
      cases eq
      have hr : Inv r.1 := by
        rcases step_good g p o hi with ⟨r', e', hg, _⟩ | ⟨e', _⟩
        · rw [e] at e'; cases e'; exact hg.1 hd
        · rw [e] at e'; cases e'
      refine ⟨hr, fun b n es hm hl hh => ?_⟩
      obtain ⟨es', l', h', t'⟩ := step_stays e (hsp (b, n) hm) hl hh
      exact ⟨es', l', h', fun hp => t' (hp _ (List.mem_singleton.mpr rfl))⟩
    | throws => exact ⟨by simp, fun q eq => by cases eq⟩
    | terminate => exact ⟨by simp, fun q eq => by cases eq⟩
    | ub => exact ⟨by simp, fun q eq => by cases eq⟩
  | seq s t ihs iht => intro active p hi ha; rw [exec]; exact andThen_sound ha (ihs active p hi ha) fun q hq haq => iht active q hq haq
  | choose f ih => intro active p hi ha; rw [exec]; exact ih p active p hi ha
  | each pl body ih =>
    intro active p hi ha
    rw [exec]
    split
    · exact undefined_sound
    · exact absurd (by assumption) (lookup_gone hi ha)
    · rename_i v hv
      split
      · exact done_sound hi
      · rename_i b n hx
        obtain ⟨es, _, rfl, hm⟩ := extent_arrays hx
        have hact := active_cons ha (lookup_obj hv hm)
        exact weaken_sound (rounds_sound List.mem_cons_self (fun k x q hq haq => ih b k x _ q hq haq) es.length 0 p (by omega) hi hact)
  | entries pl body ih =>
    intro active p hi ha
    rw [exec]
    split
    · exact undefined_sound
    · exact absurd (by assumption) (lookup_gone hi ha)
    · rename_i kb kc ks vb vc vs hv
      split
      · rename_i hlen
        have hk := lookup_obj hv (dict_both (kb := kb) (vb := vb) (kc := kc) (vc := vc) (ks := ks) (vs := vs)).1
        have hv' := lookup_obj hv (dict_both (kb := kb) (vb := vb) (kc := kc) (vc := vc) (ks := ks) (vs := vs)).2
        have hact := active_cons (active_cons ha hv') hk
        refine weaken_sound (weaken_sound (rounds2_sound (N := ks.length) List.mem_cons_self ?_
          (fun k x y q hq haq => ih kb vb k x y _ q hq haq) ks.length 0 p (by omega) hi hact))
        rw [hlen]; exact List.mem_cons_of_mem _ List.mem_cons_self
      · exact undefined_sound
    · exact done_sound hi

/-! ### The property -/

/-- **C147**, safety: take any program with loops, nested to any depth, whose bodies do anything, also to the containers they loop over: if no statement
in a loop destroys an element the loop goes through, then no loop ever reads an object that is not there; and afterwards every block of
memory is still owned exactly once. -/
theorem C147_safe (g : Policy) (s : Stmt) (p : Prog) (hi : Inv p) (hc : Careful (exec g s [] p).log) :
    (exec g s [] p).result ≠ .dangling ∧ ∀ q, (exec g s [] p).result = .done q → Inv q := by
  obtain ⟨h1, h2⟩ := exec_sound g s [] p hi (fun a hm => by cases hm) hc
  exact ⟨h1, fun q e => (h2 q e).1⟩

theorem exec_ops (g : Policy) (s : Stmt) : ∀ (active : List (Nat × Nat)) (p q : Prog), (exec g s active p).result = .done q →
    run g p ((exec g s active p).log.map Event.op) = .ok q := by
  have run_append : ∀ (a b : List Op) (p q r : Prog), run g p a = .ok q → run g q b = .ok r → run g p (a ++ b) = .ok r := by
    intro a
    induction a with
    | nil => intro b p q r h1 h2; cases h1; exact h2
    | cons o a ih =>
      intro b p q r h1 h2
      rw [run] at h1
      obtain ⟨x, e1, e2⟩ := bind_some h1
      rw [List.cons_append, run, e1, Outcome.bind_ok]
      exact ih b x.1 q r e2 h2
  have andThen_ops : ∀ (r : Run) (f : Prog → Run) (p q : Prog), (∀ x, r.result = .done x → run g p (r.log.map Event.op) = .ok x) →
      (∀ x, (f x).result = .done q → run g x ((f x).log.map Event.op) = .ok q) → (r.andThen f).result = .done q →
      run g p ((r.andThen f).log.map Event.op) = .ok q := by
    rintro ⟨log, res⟩ f p q h1 h2 e
    cases res with
    | undefined => cases e
    | dangling => cases e
    | done x =>
      rw [show (Run.andThen ⟨log, .done x⟩ f) = ⟨log ++ (f x).log, (f x).result⟩ from rfl] at e ⊢
      rw [List.map_append]
      exact run_append _ _ _ _ _ (h1 x rfl) (h2 x e)
  have rounds_ops : ∀ (b : Nat) (f : Nat → Val → Prog → Run) (q : Prog),
      (∀ k x p y, (f k x p).result = .done y → run g p ((f k x p).log.map Event.op) = .ok y) →
      ∀ (n k : Nat) (p : Prog), (rounds b f k n p).result = .done q → run g p ((rounds b f k n p).log.map Event.op) = .ok q := by
    intro b f q hf n
    induction n with
    | zero => intro k p e; cases e; rfl
    | succ n ih =>
      intro k p e
      rw [rounds] at e ⊢
      split at e
      · cases e
      · exact andThen_ops _ _ p q (hf k _ p) (fun x ex => ih _ x ex) e
  have rounds2_ops : ∀ (b c : Nat) (f : Nat → Val → Val → Prog → Run) (q : Prog),
      (∀ k x z p y, (f k x z p).result = .done y → run g p ((f k x z p).log.map Event.op) = .ok y) →
      ∀ (n k : Nat) (p : Prog), (rounds2 b c f k n p).result = .done q → run g p ((rounds2 b c f k n p).log.map Event.op) = .ok q := by
    intro b c f q hf n
    induction n with
    | zero => intro k p e; cases e; rfl
    | succ n ih =>
      intro k p e
      rw [rounds2] at e ⊢
      split at e
      · exact andThen_ops _ _ p q (hf k _ _ p) (fun x ex => ih _ x ex) e
      · cases e
  induction s with
  | skip => intro active p q e; cases e; rfl
  | op o =>
    intro active p q e
    rw [exec] at e ⊢
    cases hs : step g p o with
    | ok r =>
      rw [hs] at e
      cases e
      show run g p [o] = _
      rw [run, hs, Outcome.bind_ok]; rfl
    | throws => rw [hs] at e; cases e
    | terminate => rw [hs] at e; cases e
    | ub => rw [hs] at e; cases e
  | seq s t ihs iht => intro active p q e; rw [exec] at e ⊢; exact andThen_ops _ _ p q (ihs active p) (fun x => iht active x q) e
  | choose f ih => intro active p q e; rw [exec] at e ⊢; exact ih p active p q e
  | each pl body ih =>
    intro active p q e
    rw [exec] at e ⊢
    split at e
    · cases e
    · cases e
    · split at e
      · cases e; rfl
      · exact rounds_ops _ _ q (fun k x p' => ih _ k x _ p') _ _ p e
  | entries pl body ih =>
    intro active p q e
    rw [exec] at e ⊢
    split at e
    · cases e
    · cases e
    · split at e
      · rename_i hl
        rw [if_pos hl]
        exact rounds2_ops _ _ _ q (fun k x y p' => ih _ _ k x y _ p') _ _ p e
      · cases e
    · cases e; rfl

/-- **C147**, loops are their statements: a program with loops that ends is the sequence of the single statements it reached, so all that C132 and C133
say about memory, views and references holds for programs with loops. -/
theorem C147_statements (g : Policy) (s : Stmt) (p q : Prog) (h : (exec g s [] p).result = .done q) :
    run g p ((exec g s [] p).log.map Event.op) = .ok q := exec_ops g s [] p q h

theorem rounds_unrolled {g : Policy} {b : Nat} {body : Nat → Val → Stmt} {active : List (Nat × Nat)} {es : List Val}
    (hm : (b, es.length) ∈ active) (n : Nat) : ∀ (k : Nat) (p : Prog) (cs : List Val), k + n = es.length → Inv p → Active p active →
    Holds p.vars b cs → cs.take es.length = es →
    Careful (rounds b (fun k x q => exec g (body k x) active q) k n p).log → Plain (rounds b (fun k x q => exec g (body k x) active q) k n p).log →
    rounds b (fun k x q => exec g (body k x) active q) k n p = exec g (unrolled body k (es.drop k)) active p := by
  induction n with
  | zero =>
    intro k p cs hk _ _ _ _ _ _
    rw [List.drop_eq_nil_of_le (by omega)]
    rfl
  | succ n ih =>
    intro k p cs hk hi ha hh ht hc hp
    have hlt : k < es.length := by omega
    have hcs : cs[k]? = some es[k] := by
      rw [← List.getElem?_eq_getElem hlt]
      conv => rhs; rw [← ht]
      rw [List.getElem?_take, if_pos hlt]
    have hlen : es.length ≤ cs.length := by
      have := congrArg List.length ht
      rw [List.length_take] at this
      omega
    have he : rounds b (fun k x q => exec g (body k x) active q) k (n + 1) p =
        (exec g (body k es[k]) active p).andThen (rounds b (fun k x q => exec g (body k x) active q) (k + 1) n) := by
      rw [rounds, cell_holds hi hh, hcs]
    rw [he] at hc hp ⊢
    rw [List.drop_eq_getElem_cons hlt, unrolled, exec]
    have hs := exec_sound g (body k es[k]) active p hi ha
    cases hr : (exec g (body k es[k]) active p).result with
    | undefined => simp only [Run.andThen, hr]
    | dangling => simp only [Run.andThen, hr]
    | done q =>
      have key : ∀ f : Prog → Run, (exec g (body k es[k]) active p).andThen f =
          ⟨(exec g (body k es[k]) active p).log ++ (f q).log, (f q).result⟩ := by
        intro f; simp only [Run.andThen, hr]
      rw [key] at hc hp ⊢
      rw [key]
      obtain ⟨hc1, hc2⟩ := careful_append.mp hc
      obtain ⟨hp1, hp2⟩ := plain_append.mp hp
      obtain ⟨hq, haq⟩ := active_next hs hc1 ha hr
      obtain ⟨cs', hl', hh', ht'⟩ := ((hs hc1).2 q hr).2 b es.length cs hm hlen hh
      rw [ih (k + 1) q cs' (by omega) hq haq hh' (by rw [ht' hp1, ht]) hc2 hp2]

/-- **C147**, a loop over a vector or an array: if its body destroys none of the elements and puts no others in their places, then the loop is the body,
once for each element that the container had when the loop began, in order - though the body may add elements to the container, move it,
exchange it with another one, turn the vector into an array, put it into another container, loop over it again, and so on. -/
theorem C147_each (g : Policy) (p : Prog) (hi : Inv p) (active : List (Nat × Nat)) (ha : Active p active) (pl : Place) (v : Val) (b n : Nat)
    (es : List Val) (hv : lookup p.vars active pl = .obj v) (hx : v.extent = some (b, n)) (hes : v.elems = some es) (body : Nat → Nat → Val → Stmt)
    (hc : Careful (exec g (.each pl body) active p).log) (hp : Plain (exec g (.each pl body) active p).log) :
    exec g (.each pl body) active p = exec g (unrolled (body b) 0 es) ((b, n) :: active) p := by
  obtain ⟨es', he', rfl, hm⟩ := extent_arrays hx
  rw [hes] at he'
  cases he'
  have hh := lookup_obj hv hm
  have he : exec g (.each pl body) active p = rounds b (fun k x q => exec g (body b k x) ((b, es.length) :: active) q) 0 es.length p := by
    rw [exec, hv]; dsimp only; rw [hx]
  rw [he] at hc hp ⊢
  exact rounds_unrolled List.mem_cons_self es.length 0 p es (by omega) hi (active_cons ha hh) hh (List.take_length) hc hp

theorem rounds2_unrolled {g : Policy} {kb vb : Nat} {body : Nat → Val → Val → Stmt} {active : List (Nat × Nat)} {ks vs : List Val}
    (hlen : ks.length = vs.length) (hk : (kb, ks.length) ∈ active) (hv : (vb, vs.length) ∈ active) (n : Nat) :
    ∀ (k : Nat) (p : Prog) (cs ds : List Val), k + n = ks.length → Inv p → Active p active →
    Holds p.vars kb cs → cs.take ks.length = ks → Holds p.vars vb ds → ds.take vs.length = vs →
    Careful (rounds2 kb vb (fun k x y q => exec g (body k x y) active q) k n p).log →
    Plain (rounds2 kb vb (fun k x y q => exec g (body k x y) active q) k n p).log →
    rounds2 kb vb (fun k x y q => exec g (body k x y) active q) k n p = exec g (unrolled2 body k (ks.drop k) (vs.drop k)) active p := by
  have at_k : ∀ (es cs : List Val) (k : Nat) (hlt : k < es.length), cs.take es.length = es → cs[k]? = some es[k] ∧ es.length ≤ cs.length := by
    intro es cs k hlt ht
    constructor
    · rw [← List.getElem?_eq_getElem hlt]
      conv => rhs; rw [← ht]
      rw [List.getElem?_take, if_pos hlt]
    · have := congrArg List.length ht
      rw [List.length_take] at this
      omega
  induction n with
  | zero =>
    intro k p cs ds hkn _ _ _ _ _ _ _ _
    rw [List.drop_eq_nil_of_le (show ks.length ≤ k by omega), List.drop_eq_nil_of_le (show vs.length ≤ k by omega)]
    rfl
  | succ n ih =>
    intro k p cs ds hkn hi ha hh ht hh2 ht2 hc hp
    have hlt : k < ks.length := by omega
    have hlt2 : k < vs.length := by omega
    obtain ⟨hcs, hl1⟩ := at_k ks cs k hlt ht
    obtain ⟨hds, hl2⟩ := at_k vs ds k hlt2 ht2
    have he : rounds2 kb vb (fun k x y q => exec g (body k x y) active q) k (n + 1) p =
        (exec g (body k ks[k] vs[k]) active p).andThen (rounds2 kb vb (fun k x y q => exec g (body k x y) active q) (k + 1) n) := by
      rw [rounds2, cell_holds hi hh, cell_holds hi hh2, hcs, hds]
    rw [he] at hc hp ⊢
    rw [List.drop_eq_getElem_cons hlt, List.drop_eq_getElem_cons hlt2, unrolled2, exec]
    have hs := exec_sound g (body k ks[k] vs[k]) active p hi ha
    cases hr : (exec g (body k ks[k] vs[k]) active p).result with
    | undefined => simp only [Run.andThen, hr]
    | dangling => simp only [Run.andThen, hr]
    | done q =>
      have key : ∀ f : Prog → Run, (exec g (body k ks[k] vs[k]) active p).andThen f =
          ⟨(exec g (body k ks[k] vs[k]) active p).log ++ (f q).log, (f q).result⟩ := by
        intro f; simp only [Run.andThen, hr]
      rw [key] at hc hp ⊢
      rw [key]
      obtain ⟨hc1, hc2⟩ := careful_append.mp hc
      obtain ⟨hp1, hp2⟩ := plain_append.mp hp
      obtain ⟨hq, haq⟩ := active_next hs hc1 ha hr
      obtain ⟨cs', _, hh', ht'⟩ := ((hs hc1).2 q hr).2 kb ks.length cs hk hl1 hh
      obtain ⟨ds', _, hh2', ht2'⟩ := ((hs hc1).2 q hr).2 vb vs.length ds hv hl2 hh2
      rw [ih (k + 1) q cs' ds' (by omega) hq haq hh' (by rw [ht' hp1, ht]) hh2' (by rw [ht2' hp1, ht2]) hc2 hp2]

/-- **C147**, a loop over a dictionary: the same, entry by entry. -/
theorem C147_entries (g : Policy) (p : Prog) (hi : Inv p) (active : List (Nat × Nat)) (ha : Active p active) (pl : Place) (kb vb kc vc : Nat)
    (ks vs : List Val) (hv : lookup p.vars active pl = .obj (.dict (some kb) kc ks (some vb) vc vs)) (hlen : ks.length = vs.length)
    (body : Nat → Nat → Nat → Val → Val → Stmt)
    (hc : Careful (exec g (.entries pl body) active p).log) (hp : Plain (exec g (.entries pl body) active p).log) :
    exec g (.entries pl body) active p = exec g (unrolled2 (body kb vb) 0 ks vs) ((kb, ks.length) :: (vb, vs.length) :: active) p := by
  have hk := lookup_obj hv (dict_both (kb := kb) (vb := vb) (kc := kc) (vc := vc) (ks := ks) (vs := vs)).1
  have hvs := lookup_obj hv (dict_both (kb := kb) (vb := vb) (kc := kc) (vc := vc) (ks := ks) (vs := vs)).2
  have he : exec g (.entries pl body) active p =
      rounds2 kb vb (fun k x y q => exec g (body kb vb k x y) ((kb, ks.length) :: (vb, vs.length) :: active) q) 0 ks.length p := by
    rw [exec, hv]; dsimp only; rw [if_pos hlen]
  rw [he] at hc hp ⊢
  exact rounds2_unrolled hlen List.mem_cons_self (List.mem_cons_of_mem _ List.mem_cons_self) ks.length 0 p ks vs (by omega) hi
    (active_cons (active_cons ha hvs) hk) hk List.take_length hvs List.take_length hc hp

/-! ### Bodies that only add, move and exchange -/

/-- No statement of the program can destroy an element, wherever it comes to: neither `pop_back`, `clear`, `= nullptr` nor a destructor, and no `put`, which
destroys its arguments when there is no room. -/
def Gentle : Stmt → Prop
  | .skip => True
  | .op o => o.destroys = false ∧ ∀ i j k, o ≠ .put i j k
  | .seq s t => Gentle s ∧ Gentle t
  | .choose f => ∀ p, Gentle (f p)
  | .each _ body => ∀ b k x, Gentle (body b k x)
  | .entries _ body => ∀ kb vb k x y, Gentle (body kb vb k x y)

theorem andThen_log {P : Event → Prop} {r : Run} {f : Prog → Run} (hr : ∀ e ∈ r.log, P e) (hf : ∀ q, ∀ e ∈ (f q).log, P e) :
    ∀ e ∈ (r.andThen f).log, P e := by
  obtain ⟨log, res⟩ := r
  intro e he
  cases res with
  | undefined => exact hr e he
  | dangling => exact hr e he
  | done q => exact (List.mem_append.mp he).elim (hr e) (hf q e)

theorem rounds_log {P : Event → Prop} {b : Nat} {f : Nat → Val → Prog → Run} (hf : ∀ k x q, ∀ e ∈ (f k x q).log, P e) (n : Nat) :
    ∀ (k : Nat) (p : Prog), ∀ e ∈ (rounds b f k n p).log, P e := by
  induction n with
  | zero => intro k p e he; cases he
  | succ n ih =>
    intro k p
    rw [rounds]
    split
    · intro e he; cases he
    · exact andThen_log (hf k _ p) fun q => ih (k + 1) q

theorem rounds2_log {P : Event → Prop} {b c : Nat} {f : Nat → Val → Val → Prog → Run} (hf : ∀ k x y q, ∀ e ∈ (f k x y q).log, P e) (n : Nat) :
    ∀ (k : Nat) (p : Prog), ∀ e ∈ (rounds2 b c f k n p).log, P e := by
  induction n with
  | zero => intro k p e he; cases he
  | succ n ih =>
    intro k p
    rw [rounds2]
    split
    · exact andThen_log (hf k _ _ p) fun q => ih (k + 1) q
    · intro e he; cases he

theorem gentle_log (g : Policy) (s : Stmt) : Gentle s → ∀ (active : List (Nat × Nat)) (p : Prog),
    ∀ e ∈ (exec g s active p).log, e.op.destroys = false ∧ ∀ i j k, e.op ≠ .put i j k := by
  induction s with
  | skip => intro _ active p e he; cases he
  | op o =>
    intro hg active p e he
    rw [exec] at he
    cases List.mem_singleton.mp he
    exact hg
  | seq s t ihs iht => intro hg active p; rw [exec]; exact andThen_log (ihs hg.1 active p) fun q => iht hg.2 active q
  | choose f ih => intro hg active p; rw [exec]; exact ih p (hg p) active p
  | each pl body ih =>
    intro hg active p
    rw [exec]
    split
    · intro e he; cases he
    · intro e he; cases he
    · split
      · intro e he; cases he
      · exact rounds_log (fun k x q => ih _ k x (hg _ k x) _ q) _ _ p
  | entries pl body ih =>
    intro hg active p
    rw [exec]
    split
    · intro e he; cases he
    · intro e he; cases he
    · split
      · exact rounds2_log (fun k x y q => ih _ _ k x y (hg _ _ k x y) _ q) _ _ p
      · intro e he; cases he
    · intro e he; cases he

theorem gentle_careful {log : List Event} (h : ∀ e ∈ log, e.op.destroys = false ∧ ∀ i j k, e.op ≠ .put i j k) : Careful log := by
  intro e he
  obtain ⟨state, o, active⟩ := e
  obtain ⟨hd, hp⟩ := h _ he
  dsimp only at hd hp ⊢
  cases o with
  | pop i => cases hd
  | clear i => cases hd
  | null i => cases hd
  | destroy i => cases hd
  | put i j k => exact absurd rfl (hp i j k)
  | _ => exact ⟨fun _ _ => trivial, fun h => h⟩

/-- **C147**, no hypothesis about what happens: programs without destruction and `put`, with loops nested to any depth, which may add elements to the
containers they loop over, move them, exchange elements and so on, never read an object that is not there. -/
theorem C147_gentle (g : Policy) (s : Stmt) (hs : Gentle s) (p : Prog) (hi : Inv p) :
    (exec g s [] p).result ≠ .dangling ∧ ∀ q, (exec g s [] p).result = .done q → Inv q :=
  C147_safe g s p hi (gentle_careful (gentle_log g s hs [] p))

/-! ### Bodies that remove elements of the container they loop over -/

theorem pop_step {g : Policy} {p : Prog} (hi : Inv p) {i : Nat} {b : Option Nat} {c : Nat} {es : List Val} (hv : get p.vars i = some (.vec b c es))
    (hes : es ≠ []) : ∃ q, step g p (.pop i) = .ok (q, true) ∧ Inv q ∧ get q.vars i = some (.vec b c es.dropLast) := by
  rcases step_good g p (.pop i) hi with ⟨r, e, hg, _⟩ | ⟨_, hb⟩
  · have hr := hg.1 (fun h => h)
    rw [step, hv] at e
    dsimp only at e
    rw [List.getLast?_eq_some_getLast hes] at e
    obtain ⟨h', e1, e2⟩ := bind_some e
    cases e2
    refine ⟨_, ?_, hr, ?_⟩
    · rw [step, hv]
      dsimp only
      rw [List.getLast?_eq_some_getLast hes]
      dsimp only
      rw [e1]; rfl
    · dsimp only; rw [get_set _ _ _ _ _ hv, if_pos rfl]
  · exact hb.elim

theorem holds_own {p : Prog} {i b c : Nat} {es : List Val} (hv : get p.vars i = some (.vec (some b) c es)) : Holds p.vars b es :=
  holds_get hv (by rw [Val.arrays, List.mem_append, opt_mem]; exact .inl ⟨rfl, rfl⟩)

/-- **C147** fails for bodies that remove elements: a loop over a vector that calls `pop_back` of this vector in every round reads an object that was
destroyed exactly if there are at least two elements: the end is the one the vector had in the beginning. -/
theorem C147_pop (g : Policy) (p : Prog) (hi : Inv p) (i b c : Nat) (es : List Val) (hv : get p.vars i = some (.vec (some b) c es)) :
    (exec g (.each (.var i) fun _ _ _ => .op (.pop i)) [] p).result = .dangling ↔ 2 ≤ es.length := by
  have he : exec g (.each (.var i) fun _ _ _ => .op (.pop i)) [] p =
      rounds b (fun _ _ q => exec g (.op (.pop i)) [(b, es.length)] q) 0 es.length p := by
    rw [exec, lookup, hv]; rfl
  rw [he]
  have one : ∀ (q q' : Prog) (f : Prog → Run), step g q (.pop i) = .ok (q', true) →
      ((exec g (.op (.pop i)) [(b, es.length)] q).andThen f).result = (f q').result := by
    intro q q' f h; rw [exec, h]; rfl
  have key : ∀ (n k : Nat) (q : Prog) (xs : List Val), Inv q → get q.vars i = some (.vec (some b) c xs) → xs.length + 1 < k + 2 * n →
      0 < n → (rounds b (fun _ _ q => exec g (.op (.pop i)) [(b, es.length)] q) k n q).result = .dangling := by
    intro n
    induction n with
    | zero => intro k q xs _ _ _ h; cases h
    | succ n ih =>
      intro k q xs hq hx hlt _
      rw [rounds, cell_holds hq (holds_own hx)]
      cases hk : xs[k]? with
      | none => rfl
      | some x =>
        have hkl := (List.getElem?_eq_some_iff.mp hk).1
        dsimp only
        obtain ⟨q', e, hq', hg'⟩ := pop_step (g := g) hq hx (by intro h; rw [h] at hkl; cases hkl)
        rw [one q q' _ e]
        refine ih (k + 1) q' _ hq' hg' ?_ ?_
        · rw [List.length_dropLast]; omega
        · omega
  constructor
  · intro h
    rcases Nat.lt_or_ge es.length 2 with hl | hl
    · exfalso
      match es, hl with
      | [], _ => cases h
      | [x], _ =>
        rw [show ([x] : List Val).length = 0 + 1 from rfl, rounds, cell_holds hi (holds_own hv)] at h
        dsimp only [List.getElem?_cons_zero] at h
        obtain ⟨q', e, _, _⟩ := pop_step (g := g) hi hv (by simp)
        rw [exec, e] at h
        cases h
    · exact hl
  · intro h
    exact key es.length 0 p es hi hv (by omega) (by omega)

/-- **C147**, `clear()` in the body: the same. -/
theorem C147_clear (g : Policy) (p : Prog) (hi : Inv p) (i b c : Nat) (es : List Val) (hv : get p.vars i = some (.vec (some b) c es)) :
    (exec g (.each (.var i) fun _ _ _ => .op (.clear i)) [] p).result = .dangling ↔ 2 ≤ es.length := by
  have he : exec g (.each (.var i) fun _ _ _ => .op (.clear i)) [] p =
      rounds b (fun _ _ q => exec g (.op (.clear i)) [(b, es.length)] q) 0 es.length p := by
    rw [exec, lookup, hv]; rfl
  rw [he]
  obtain ⟨q, e, hq, hg⟩ : ∃ q, step g p (.clear i) = .ok (q, true) ∧ Inv q ∧ get q.vars i = some (.vec (some b) c []) := by
    rcases step_good g p (.clear i) hi with ⟨r, e, hg, _⟩ | ⟨_, hb⟩
    · have hr := hg.1 (fun h => h)
      rw [step, hv] at e
      obtain ⟨h', e1, e2⟩ := bind_some e
      cases e2
      exact ⟨_, by rw [step, hv]; dsimp only; rw [e1]; rfl, hr, by dsimp only; rw [get_set _ _ _ _ _ hv, if_pos rfl]⟩
    · exact hb.elim
  match es, hv with
  | [], _ => exact ⟨fun h => (by cases h), fun h => (by simp at h)⟩
  | [x], hv =>
    refine ⟨fun h => ?_, fun h => by simp at h⟩
    rw [show ([x] : List Val).length = 0 + 1 from rfl, rounds, cell_holds hi (holds_own hv)] at h
    dsimp only [List.getElem?_cons_zero] at h
    rw [exec, e] at h
    cases h
  | x :: y :: es, hv =>
    refine ⟨fun _ => by simp, fun _ => ?_⟩
    rw [show (x :: y :: es).length = es.length + 1 + 1 from rfl, rounds, cell_holds hi (holds_own hv)]
    dsimp only [List.getElem?_cons_zero]
    rw [exec, e]
    show (rounds b _ 1 (es.length + 1) q).result = _
    rw [rounds, cell_holds hq (holds_own hg)]
    rfl

/-- **C147**, the container is destroyed by the body, as when it is reset or goes out of scope with its owner: the same. -/
theorem C147_destroy (g : Policy) (p : Prog) (hi : Inv p) (i b c : Nat) (es : List Val) (hv : get p.vars i = some (.vec (some b) c es)) :
    (exec g (.each (.var i) fun _ _ _ => .op (.destroy i)) [] p).result = .dangling ↔ 2 ≤ es.length := by
  have he : exec g (.each (.var i) fun _ _ _ => .op (.destroy i)) [] p =
      rounds b (fun _ _ q => exec g (.op (.destroy i)) [(b, es.length)] q) 0 es.length p := by
    rw [exec, lookup, hv]; rfl
  rw [he]
  obtain ⟨q, e, hn⟩ : ∃ q, step g p (.destroy i) = .ok (q, true) ∧ stored b q.vars = none := by
    rcases step_good g p (.destroy i) hi with ⟨r, e, hg, _⟩ | ⟨_, hb⟩
    · rw [step, hv] at e
      obtain ⟨h', e1, e2⟩ := bind_some e
      cases e2
      refine ⟨_, by rw [step, hv]; dsimp only; rw [e1]; rfl, ?_⟩
      dsimp only
      cases hs : stored b (p.vars.set i none) with
      | none => rfl
      | some xs =>
        exfalso
        have h1 : b ∈ allBlocks (p.vars.set i none) := by
          obtain ⟨v, hv, hm⟩ := stored_holds hs
          exact mem_allBlocks.mpr ⟨v, hv, arrays_blocks hm⟩
        have h2 := allBlocks_set p.vars i _ none b hv
        have h3 := List.nodup_iff_count.mp (blocks_nodup hi) b
        have h4 := List.count_pos_iff.mpr h1
        have h5 : 0 < (Val.vec (some b) c es).blocks.count b := List.count_pos_iff.mpr (by rw [Val.blocks]; simp)
        simp only [Option.map_none, Option.getD_none, List.count_nil] at h2
        omega
    · exact hb.elim
  match es, hv with
  | [], _ => exact ⟨fun h => (by cases h), fun h => (by simp at h)⟩
  | [x], hv =>
    refine ⟨fun h => ?_, fun h => by simp at h⟩
    rw [show ([x] : List Val).length = 0 + 1 from rfl, rounds, cell_holds hi (holds_own hv)] at h
    dsimp only [List.getElem?_cons_zero] at h
    rw [exec, e] at h
    cases h
  | x :: y :: es, hv =>
    refine ⟨fun _ => by simp, fun _ => ?_⟩
    rw [show (x :: y :: es).length = es.length + 1 + 1 from rfl, rounds, cell_holds hi (holds_own hv)]
    dsimp only [List.getElem?_cons_zero]
    rw [exec, e]
    show (rounds b _ 1 (es.length + 1) q).result = _
    rw [rounds, cell, hn]

/-! ### Examples -/

theorem init_inv : Inv init := ⟨fun _ => rfl, List.nodup_nil, fun b h => by cases h⟩

/-- The strings in the variables after a program. -/
def texts (r : Run) : Option (List (List (List Byte))) :=
  match r.result with
  | .done p => some (p.vars.map fun o => (o.map fun v => v.strings.map Prod.snd).getD [])
  | _ => none

/-- A vector of room for four strings with two in it; the loop adds one more in every round and moves the vector away in the first:
it has two rounds, and all four strings are in the vector that is now variable 3. -/
def adding : Stmt :=
  .seq (.op (.vector 32 4)) (.seq (.op (.string [0x61#8])) (.seq (.op (.string [0x62#8])) (.seq (.op (.push 0 1)) (.seq (.op (.push 0 2))
    (.each (.var 0) fun _ k _ =>
      .choose fun p =>
        if k = 0 then .seq (.op (.moveCtor 0)) (.seq (.op (.string [0x63#8])) (.op (.push 3 4)))
        else .seq (.op (.string [0x64#8])) (.op (.push 3 p.vars.length)))))))

example : texts (exec (refusing []) adding [] init) = some [[], [], [], [[0x61#8], [0x62#8], [0x63#8], [0x64#8]], [], []] := by decide +kernel

theorem adding_gentle : Gentle adding := by
  refine ⟨⟨rfl, by simp⟩, ⟨rfl, by simp⟩, ⟨rfl, by simp⟩, ⟨rfl, by simp⟩, ⟨rfl, by simp⟩, fun b k x p => ?_⟩
  split
  · exact ⟨⟨rfl, by simp⟩, ⟨rfl, by simp⟩, ⟨rfl, by simp⟩⟩
  · exact ⟨⟨rfl, by simp⟩, ⟨rfl, by simp⟩⟩

/-- The hypotheses of `C147_gentle` and `C147_safe` are met. -/
example : (exec (refusing []) adding [] init).result ≠ .dangling :=
  (C147_gentle _ adding adding_gentle init init_inv).1

/-- A vector with two strings. -/
def two : List Op := [.vector 32 4, .string [0x61#8], .string [0x62#8], .push 0 1, .push 0 2]

/-- The hypotheses of `C147_each`, `C147_pop`, `C147_clear` and `C147_destroy` are met: the variables after these statements, and a loop that adds to the vector. -/
example : ∃ p, run (refusing []) init two = .ok p ∧ Inv p ∧ Active p [] ∧ ∃ b es, es.length = 2 ∧ get p.vars 0 = some (.vec (some b) 4 es) ∧
    Careful (exec (refusing []) (.each (.var 0) fun _ _ _ => .op (.push 0 1)) [] p).log ∧
    Plain (exec (refusing []) (.each (.var 0) fun _ _ _ => .op (.push 0 1)) [] p).log ∧
    (exec (refusing []) (.each (.var 0) fun _ _ _ => .op (.pop 0)) [] p).result = .dangling := by
  have hshape : (match run (refusing []) init two with
      | .ok p => (match get p.vars 0 with
        | some (.vec (some _) c es) => decide (c = 4 ∧ es.length = 2)
        | _ => false)
      | _ => false) = true := by decide +kernel
  rcases C132_program_partial (refusing []) two with ⟨q, e, hi⟩ | ⟨before, o, after, p, he, hr, _, hbad⟩
  · rw [e] at hshape
    dsimp only at hshape
    split at hshape
    · rename_i b c es hv
      obtain ⟨rfl, hl⟩ := of_decide_eq_true hshape
      have hlog := gentle_log (refusing []) (.each (.var 0) fun _ _ _ => .op (.push 0 1)) (fun _ _ _ => ⟨rfl, by simp⟩) [] q
      refine ⟨q, e, hi, fun a ha => (by cases ha), b, es, hl, hv, gentle_careful hlog, ?_, ?_⟩
      · intro ev hev
        rw [exec, lookup, hv] at hev
        dsimp only [Val.extent] at hev
        refine rounds_log (P := fun e => e.op.exchanges = false) (fun k x q => ?_) _ _ q ev hev
        intro e he
        rw [exec] at he
        cases List.mem_singleton.mp he
        rfl
      · exact (C147_pop (refusing []) q hi 0 b 4 es hv).mpr (by omega)
    · cases hshape
  · exfalso
    have : o ∈ two := by rw [he]; simp
    simp only [two, List.mem_cons, List.not_mem_nil, or_false] at this
    rcases this with rfl | rfl | rfl | rfl | rfl <;> exact hbad.elim id id

/-- Two vectors in a vector, and a loop over the strings of each of them that adds the strings it finds - moves them - to another vector:
a loop inside a loop, over the elements of the outer one. -/
def gather : Stmt :=
  .seq (.op (.vector 32 4)) (.seq (.op (.string [0x61#8])) (.seq (.op (.string [0x62#8])) (.seq (.op (.vectorOf 32 [1])) (.seq (.op (.vectorOf 32 [2]))
    (.seq (.op (.vectorOf 24 [3, 4])) (.each (.var 5) fun b k _ => .each (.elem b k) fun _ _ x =>
      match x with
      | .str o => .seq (.op (.string o.text)) (.choose fun p => .op (.push 0 (p.vars.length - 1)))
      | _ => .skip))))))

example : texts (exec (refusing []) gather [] init) =
    some [[[0x61#8], [0x62#8]], [], [], [], [], [[0x61#8], [0x62#8]], [], []] := by decide +kernel

/-- A dictionary of room for three entries with one in it; the loop puts another one: one round. -/
def putting : Stmt :=
  .seq (.op (.dictionary 32 32 3)) (.seq (.op (.string [0x6B#8])) (.seq (.op (.string [0x76#8])) (.seq (.op (.put 0 1 2))
    (.entries (.var 0) fun _ _ _ _ _ => .seq (.op (.string [0x6C#8])) (.seq (.op (.string [0x77#8])) (.op (.put 0 3 4)))))))

example : texts (exec (refusing []) putting [] init) = some [[[0x6B#8], [0x6C#8], [0x76#8], [0x77#8]], [], [], [], []] := by decide +kernel

/-- The hypotheses of `C147_entries` are met: a loop over the dictionary of one entry that makes a string in each round. -/
example : ∃ p, run (refusing []) init [.dictionary 32 32 3, .string [0x6B#8], .string [0x76#8], .put 0 1 2] = .ok p ∧ Inv p ∧
    ∃ kb kc ks vb vc vs, ks.length = 1 ∧ vs.length = 1 ∧ lookup p.vars [] (.var 0) = .obj (.dict (some kb) kc ks (some vb) vc vs) ∧
    Careful (exec (refusing []) (.entries (.var 0) fun _ _ _ _ _ => .op (.string [0x6C#8])) [] p).log ∧
    Plain (exec (refusing []) (.entries (.var 0) fun _ _ _ _ _ => .op (.string [0x6C#8])) [] p).log := by
  have hshape : (match run (refusing []) init [.dictionary 32 32 3, .string [0x6B#8], .string [0x76#8], .put 0 1 2] with
      | .ok p => (match get p.vars 0 with
        | some (.dict (some _) _ ks (some _) _ vs) => decide (ks.length = 1 ∧ vs.length = 1)
        | _ => false)
      | _ => false) = true := by decide +kernel
  rcases C132_program_partial (refusing []) [.dictionary 32 32 3, .string [0x6B#8], .string [0x76#8], .put 0 1 2] with
    ⟨q, e, hi⟩ | ⟨before, o, after, p, he, hr, _, hbad⟩
  · rw [e] at hshape
    dsimp only at hshape
    split at hshape
    · rename_i kb kc ks vb vc vs hv
      obtain ⟨hk, hl⟩ := of_decide_eq_true hshape
      have hlook : lookup q.vars [] (.var 0) = .obj (.dict (some kb) kc ks (some vb) vc vs) := by rw [lookup, hv]
      have hlog := gentle_log (refusing []) (.entries (.var 0) fun _ _ _ _ _ => .op (.string [0x6C#8])) (fun _ _ _ _ _ => ⟨rfl, by simp⟩) [] q
      refine ⟨q, e, hi, kb, kc, ks, vb, vc, vs, hk, hl, hlook, gentle_careful hlog, ?_⟩
      intro ev hev
      rw [exec, hlook] at hev
      dsimp only at hev
      rw [if_pos (by omega)] at hev
      refine rounds2_log (P := fun e => e.op.exchanges = false) (fun k x y q => ?_) _ _ q ev hev
      intro e he
      rw [exec] at he
      cases List.mem_singleton.mp he
      rfl
    · cases hshape
  · exfalso
    have : o ∈ [Op.dictionary 32 32 3, .string [0x6B#8], .string [0x76#8], .put 0 1 2] := by rw [he]; simp
    simp only [List.mem_cons, List.not_mem_nil, or_false] at this
    rcases this with rfl | rfl | rfl | rfl <;> exact hbad.elim id id

end Solace.Nested
