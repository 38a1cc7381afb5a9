import Verif.Model.StreamOwner
import Verif.Props.C01_C02_ByteReader
import Verif.Lemmas.ByteWriter
/-
C97: memory handed between resources, readers and writers is freed exactly once, and a stream that owns its memory can always
use it.
-/
namespace Solace.Streams

/-! ### Specification -/

/-- Does this variable own block `b`? -/
def ownsBlock (b : Nat) : Option Obj → Bool
  | some o => o.owns && decide (o.view = some b)
  | none => false

/-- How many variables own block `b`. -/
def owners (w : World) (b : Nat) : Nat := w.vars.countP (ownsBlock b)

/-- A world some program can reach. -/
def Reached (big : Bool) (w : World) : Prop := ∃ ops, run big World.init ops = .ok w

/-! ### Lemmas -/

/-- Every block has one owner as long as it lives and none afterwards, and objects show blocks that exist. -/
structure Inv (w : World) : Prop where
  one : ∀ b k, w.blocks[b]? = some k → owners w b = if k.alive then 1 else 0
  known : ∀ v o b, w.obj v = some o → o.view = some b → b < w.blocks.length

theorem obj_eq {w : World} {v : Nat} {o : Obj} : w.obj v = some o ↔ w.vars[v]? = some (some o) := by
  unfold World.obj
  cases h : w.vars[v]? with
  | none => simp
  | some x => simp

theorem owners_push (w : World) (o : Obj) (b : Nat) :
    owners (w.push o) b = owners w b + if ownsBlock b (some o) then 1 else 0 := by
  simp [owners, World.push, List.countP_append, List.countP_cons]

theorem owners_put {w : World} {v : Nat} {o : Obj} (h : w.obj v = some o) (x : Option Obj) (b : Nat) :
    owners (w.put v x) b + (if ownsBlock b (some o) then 1 else 0) = owners w b + if ownsBlock b x then 1 else 0 := by
  have hv := obj_eq.1 h
  obtain ⟨hlt, he⟩ := List.getElem?_eq_some_iff.1 hv
  have := List.countP_set (p := ownsBlock b) (a := x) hlt
  rw [he] at this
  have hpos : ownsBlock b (some o) = true → 0 < w.vars.countP (ownsBlock b) := fun hp =>
    List.countP_pos_iff.2 ⟨some o, he ▸ List.getElem_mem hlt, hp⟩
  unfold owners World.put
  rw [this]
  by_cases hp : ownsBlock b (some o) = true
  · have := hpos hp
    simp only [hp, if_true]
    omega
  · have hf : ownsBlock b (some o) = false := by simpa using hp
    simp only [hf, Bool.false_eq_true, if_false]
    omega

theorem obj_put {w : World} {v u : Nat} {o' : Obj} {x : Option Obj} (h : (w.put v x).obj u = some o') :
    x = some o' ∨ w.obj u = some o' := by
  rw [obj_eq] at h
  unfold World.put at h
  simp only [List.getElem?_set] at h
  split at h
  · split at h
    · exact .inl (by simpa using h)
    · exact absurd h (by simp)
  · exact .inr (obj_eq.2 h)

theorem obj_push {w : World} {u : Nat} {o o' : Obj} (h : (w.push o).obj u = some o') : o = o' ∨ w.obj u = some o' := by
  rw [obj_eq] at h
  unfold World.push at h
  simp only [List.getElem?_append] at h
  split at h
  · exact .inr (obj_eq.2 h)
  · rename_i hn
    match hk : u - w.vars.length, h with
    | 0, h => exact .inl (by simpa using h)
    | _ + 1, h => simp at h

theorem blocks_push (w : World) (o : Obj) : (w.push o).blocks = w.blocks := rfl
theorem blocks_put (w : World) (v : Nat) (o : Option Obj) : (w.put v o).blocks = w.blocks := rfl

theorem ownsBlock_moved (o : Obj) (b : Nat) : ownsBlock b (some o.moved) = false := rfl

/-- Handing over: the old object no longer owns, the new one owns what the old one did. -/
theorem Inv.handOver {w : World} (h : Inv w) {v : Nat} {o n : Obj} (ho : w.obj v = some o) (hv : n.view = o.view)
    (hn : n.owns = o.owns) : Inv ((w.put v (some o.moved)).push n) := by
  have hsame : ∀ b, ownsBlock b (some n) = ownsBlock b (some o) := by
    intro b; unfold ownsBlock; simp only [hv, hn]
  constructor
  · intro b k hk
    rw [owners_push, ← h.one b k hk]
    have := owners_put ho (some o.moved) b
    rw [ownsBlock_moved] at this
    rw [hsame]
    simpa using this
  · intro u o' b hu hb
    rcases obj_push hu with rfl | hu
    · exact h.known v o b ho (hv ▸ hb)
    · rcases obj_put hu with he | hu
      · cases he
        simp [Obj.moved] at hb
      · exact h.known u o' b hu hb

/-- Giving a variable a new position and limit does not touch ownership; neither does changing bytes. -/
theorem Inv.update {w : World} (h : Inv w) {v : Nat} {o n : Obj} (ho : w.obj v = some o) (hv : n.view = o.view)
    (hn : n.owns = o.owns) : Inv (w.put v (some n)) := by
  have hsame : ∀ b, ownsBlock b (some n) = ownsBlock b (some o) := by
    intro b; unfold ownsBlock; simp only [hv, hn]
  constructor
  · intro b k hk
    rw [← h.one b k hk]
    have := owners_put ho (some n) b
    rw [hsame] at this
    omega
  · intro u o' b hu hb
    rcases obj_put hu with he | hu
    · cases he
      exact h.known v o b ho (hv ▸ hb)
    · exact h.known u o' b hu hb

theorem Inv.rewrite {w : World} (h : Inv w) {b : Nat} {k : Block} (hk : w.blocks[b]? = some k) (bytes : List Byte) :
    Inv { w with blocks := w.blocks.set b { k with bytes } } := by
  constructor
  · intro c k' hc
    show owners w c = _
    simp only [List.getElem?_set] at hc
    split at hc
    · rename_i e
      subst e
      split at hc
      · cases hc
        exact h.one _ k hk
      · cases hc
    · exact h.one c k' hc
  · intro u o c hu hc
    show c < (w.blocks.set b _).length
    rw [List.length_set]
    exact h.known u o c hu hc

theorem Inv.swap {w : World} (h : Inv w) {u v : Nat} {a c : Obj} (ha : w.obj u = some a) (hc : w.obj v = some c) :
    Inv ((w.put u (some c)).put v (some a)) := by
  have hv : (w.put u (some c)).obj v = some c := by
    rw [obj_eq]
    unfold World.put
    simp only [List.getElem?_set]
    have := obj_eq.1 hc
    have hlt := (List.getElem?_eq_some_iff.1 this).1
    split
    · simp_all
    · exact this
  constructor
  · intro b k hk
    have h1 := owners_put ha (some c) b
    have h2 := owners_put hv (some a) b
    rw [← h.one b k hk]
    omega
  · intro x o b hx hb
    rcases obj_put hx with he | hx
    · cases he
      exact h.known u a b ha hb
    · rcases obj_put hx with he | hx
      · cases he
        exact h.known v c b hc hb
      · exact h.known x o b hx hb

theorem Inv.init : Inv World.init := ⟨by intro b k h; simp [World.init] at h, by intro v o b h; simp [World.init, World.obj] at h⟩

/-- No block beyond the known ones has an owner. -/
theorem Inv.none_new {w : World} (h : Inv w) : owners w w.blocks.length = 0 := by
  unfold owners
  rw [List.countP_eq_zero]
  intro x hx hp
  cases x with
  | none => simp [ownsBlock] at hp
  | some o =>
    obtain ⟨v, hlt, he⟩ := List.mem_iff_getElem.1 hx
    simp only [ownsBlock, Bool.and_eq_true, decide_eq_true_eq] at hp
    have := h.known v o _ (obj_eq.2 (by rw [List.getElem?_eq_getElem hlt, he])) hp.2
    omega

theorem Inv.alloc {w : World} (h : Inv w) (bytes : List Byte) : Inv (alloc w bytes) := by
  have key : ∀ b, owners (Streams.alloc w bytes) b = owners w b + if b = w.blocks.length then 1 else 0 := by
    intro b
    unfold Streams.alloc
    rw [owners_push]
    congr 1
    by_cases e : b = w.blocks.length
    · simp [ownsBlock, e]
    · have : ¬ w.blocks.length = b := fun h => e h.symm
      simp [ownsBlock, e, this]
  constructor
  · intro b k hk
    have hk' : (w.blocks ++ [⟨bytes, true⟩])[b]? = some k := hk
    rw [key]
    rw [List.getElem?_append] at hk'
    split at hk'
    · have hne : ¬ b = w.blocks.length := by omega
      rw [if_neg hne, h.one b k hk']
      rfl
    · match hb : b - w.blocks.length, hk' with
      | 0, hk' =>
        have e : b = w.blocks.length := by omega
        cases hk'
        rw [e, h.none_new]
        simp
      | _ + 1, hk' => simp at hk'
  · intro v o b hv hb
    show b < (w.blocks ++ [_]).length
    rw [List.length_append, List.length_singleton]
    rcases obj_push hv with rfl | hv
    · cases hb
      omega
    · have := h.known v o b hv hb
      omega

/-- An object that owns a block owns one that is alive. -/
theorem Inv.owned_alive {w : World} (h : Inv w) {v : Nat} {o : Obj} (ho : w.obj v = some o) (hw : o.owns = true) {b : Nat}
    (hb : o.view = some b) : ∃ k, w.blocks[b]? = some k ∧ k.alive = true := by
  have hlt := h.known v o b ho hb
  refine ⟨w.blocks[b], List.getElem?_eq_getElem hlt, ?_⟩
  have h1 := h.one b _ (List.getElem?_eq_getElem hlt)
  have hv := obj_eq.1 ho
  obtain ⟨hvl, he⟩ := List.getElem?_eq_some_iff.1 hv
  have : 0 < owners w b := List.countP_pos_iff.2 ⟨some o, he ▸ List.getElem_mem hvl, by simp [ownsBlock, hw, hb]⟩
  cases hc : w.blocks[b].alive with
  | true => rfl
  | false => rw [hc] at h1; simp at h1; omega

theorem Inv.destroy {w : World} (h : Inv w) (v : Nat) : ∃ w', destroy w v = .ok w' ∧ Inv w' := by
  unfold Streams.destroy
  cases ho : w.obj v with
  | none => exact ⟨w, rfl, h⟩
  | some o =>
    have hgone : ∀ u o' b, (w.put v none).obj u = some o' → o'.view = some b → b < w.blocks.length := by
      intro u o' b hu hb
      rcases obj_put hu with he | hu
      · cases he
      · exact h.known u o' b hu hb
    have hidle : (∀ b, ownsBlock b (some o) = false) → Inv (w.put v none) := by
      intro hno
      refine ⟨fun b k hk => ?_, hgone⟩
      have := owners_put ho none b
      rw [hno b] at this
      rw [← h.one b k hk]
      simpa [ownsBlock] using this
    cases hw : o.owns with
    | false =>
      simp only [hw, Bool.false_eq_true, if_false]
      exact ⟨_, rfl, hidle fun b => by simp [ownsBlock, hw]⟩
    | true =>
      simp only [hw, if_true]
      cases hb : o.view with
      | none => exact ⟨_, rfl, hidle fun b => by simp [ownsBlock, hb]⟩
      | some b =>
        obtain ⟨k, hk, hal⟩ := h.owned_alive ho hw hb
        simp only [hk, hal, if_true]
        refine ⟨_, rfl, fun c k' hc => ?_, fun u o' c hu hc => ?_⟩
        · have hput := owners_put ho none c
          have hnone : ownsBlock c none = false := rfl
          rw [hnone] at hput
          show owners (w.put v none) c = _
          have hc' : (w.blocks.set b { k with alive := false })[c]? = some k' := hc
          rw [List.getElem?_set] at hc'
          split at hc'
          · rename_i e
            subst e
            split at hc'
            · cases hc'
              have h1 := h.one b k hk
              have hp : ownsBlock b (some o) = true := by simp [ownsBlock, hw, hb]
              rw [hp, h1, hal] at hput
              simpa using hput
            · cases hc'
          · rename_i e
            have hp : ownsBlock c (some o) = false := by
              simp [ownsBlock, hw, hb, e]
            rw [hp] at hput
            rw [← h.one c k' hc']
            simpa using hput
        · show c < (w.blocks.set b _).length
          rw [List.length_set]
          exact hgone u o' c hu hc

theorem bind_eq_ok {α β : Type} {x : Outcome α} {f : α → Outcome β} {y : β} (h : x.bind f = .ok y) :
    ∃ a, x = .ok a ∧ f a = .ok y := by
  cases x with
  | ok a => exact ⟨a, rfl, h⟩
  | throws => cases h
  | terminate => cases h
  | ub => cases h

theorem Inv.step {big : Bool} {w w' : World} (h : Inv w) {op : Op} (hs : step big w op = .ok w') : Inv w' := by
  cases op with
  | alloc b => cases hs; exact h.alloc b
  | lend v k =>
    cases hs
    unfold lend
    split
    · rename_i o ho
      split
      · refine ⟨fun b k' hk => ?_, fun u o' b hu hb => ?_⟩
        · rw [owners_push]
          simp only [ownsBlock, Bool.false_and]
          exact h.one b k' hk
        · rcases obj_push hu with rfl | hu
          · exact h.known v o b ho hb
          · exact h.known u o' b hu hb
      · exact h
    · exact h
  | give v k =>
    cases hs
    unfold give
    split
    · rename_i o ho
      split
      · exact h.handOver ho rfl rfl
      · exact h
    · exact h
  | move v =>
    cases hs
    unfold move
    split
    · rename_i o ho
      exact h.handOver ho rfl rfl
    · exact h
  | swap u v =>
    cases hs
    unfold Streams.swap
    split
    · rename_i a c ha hc
      split
      · exact h.swap ha hc
      · exact h
    · exact h
  | moveResource v =>
    cases hs
    unfold moveResource
    split
    · rename_i o ho
      split
      · exact h.handOver ho rfl rfl
      · exact h
    · exact h
  | destroy v =>
    obtain ⟨w'', hd, hi⟩ := h.destroy v
    rw [show Streams.step big w (.destroy v) = Streams.destroy w v from rfl, hd] at hs
    cases hs
    exact hi
  | read v op =>
    obtain ⟨x, hx, he⟩ := bind_eq_ok hs
    cases he
    unfold readerCall at hx
    split at hx
    · cases hx; exact h
    · rename_i o ho
      split at hx
      · obtain ⟨r, _, hx⟩ := bind_eq_ok hx
        split at hx
        · cases hx
        · cases hx
          exact h.update ho rfl rfl
      · cases hx; exact h
  | write v op =>
    obtain ⟨x, hx, he⟩ := bind_eq_ok hs
    cases he
    unfold writerCall at hx
    split at hx
    · cases hx; exact h
    · rename_i o ho
      split at hx
      · dsimp only at hx
        split at hx
        · cases hx
        · cases hx
          dsimp only
          split
          · exact h.update ho rfl rfl
          · split
            · rename_i k hk
              exact Inv.update (w := { w with blocks := _ }) (h.rewrite hk _) (o := o) ho rfl rfl
            · exact h.update ho rfl rfl
      · cases hx; exact h

theorem Inv.run {big : Bool} : ∀ {ops : List Op} {w w' : World}, Inv w → run big w ops = .ok w' → Inv w'
  | [], _, _, h, hr => by cases hr; exact h
  | _ :: _, _, _, h, hr => by
    obtain ⟨_, hs, hr⟩ := bind_eq_ok hr
    exact Inv.run (h.step hs) hr

theorem Reached.inv {big : Bool} {w : World} : Reached big w → Inv w := fun ⟨_, h⟩ => Inv.init.run h

/-! ### Freed exactly once -/

/-- **C97**: in every world a program can reach, a block that has not been freed has exactly one variable that owns it, and a
freed block has none. -/
theorem C97_one_owner (big : Bool) (w : World) (hw : Reached big w) (b : Nat) (k : Block) (hk : w.blocks[b]? = some k) :
    owners w b = if k.alive then 1 else 0 :=
  hw.inv.one b k hk

/-- **C97**: a destructor never frees memory twice. -/
theorem C97_destroy (big : Bool) (w : World) (hw : Reached big w) (v : Nat) : ∃ w', step big w (.destroy v) = .ok w' :=
  let ⟨w', h, _⟩ := hw.inv.destroy v
  ⟨w', h⟩

theorem destroy_ok {w w' : World} {v : Nat} (h : destroy w v = .ok w') :
    w'.vars = w.vars.set v none ∧ w'.blocks.length = w.blocks.length := by
  have hgone : ∀ h : w.obj v = none, w.vars = w.vars.set v none := by
    intro h
    apply List.ext_getElem?
    intro i
    rw [List.getElem?_set]
    split
    · rename_i e
      subst e
      split
      · rename_i hlt
        unfold World.obj at h
        rw [List.getElem?_eq_getElem hlt] at h ⊢
        have : w.vars[v] = none := h
        rw [this]
      · rename_i hlt
        rw [List.getElem?_eq_none (by omega)]
    · rfl
  unfold destroy at h
  split at h
  · rename_i hn
    cases h
    exact ⟨hgone hn, rfl⟩
  · split at h
    · split at h
      · cases h; exact ⟨rfl, rfl⟩
      · split at h
        · split at h
          · cases h; exact ⟨rfl, List.length_set ..⟩
          · cases h
        · cases h
    · cases h; exact ⟨rfl, rfl⟩

theorem destroyAll : ∀ (n : Nat) (big : Bool) (w : World), Inv w → w.vars.length ≤ n →
    ∃ w', run big w ((List.range n).reverse.map .destroy) = .ok w' ∧ Inv w' ∧ w'.blocks.length = w.blocks.length ∧
      (∀ i : Nat, i < n → w'.obj i = none) ∧ w'.vars.length = w.vars.length ∧ (∀ i : Nat, w.obj i = none → w'.obj i = none) := by
  intro n
  suffices h : ∀ (m : Nat) (big : Bool) (w : World), Inv w →
      ∃ w', run big w ((List.range m).reverse.map .destroy) = .ok w' ∧ Inv w' ∧ w'.blocks.length = w.blocks.length ∧
      (∀ i : Nat, i < m → w'.obj i = none) ∧ w'.vars.length = w.vars.length ∧ (∀ i : Nat, w.obj i = none → w'.obj i = none) from
    fun big w hi _ => h n big w hi
  intro m
  induction m with
  | zero => intro big w hi; exact ⟨w, rfl, hi, rfl, fun i h => absurd h (by omega), rfl, fun _ h => h⟩
  | succ m ih =>
    intro big w hi
    obtain ⟨w1, h1, hi1⟩ := hi.destroy m
    obtain ⟨hv, hb⟩ := destroy_ok h1
    have hobj : ∀ i : Nat, (i = m ∨ w.obj i = none) → w1.obj i = none := by
      intro i hc
      unfold World.obj
      rw [hv, List.getElem?_set]
      split
      · split <;> rfl
      · rcases hc with rfl | hc
        · exact absurd rfl ‹_›
        · exact hc
    obtain ⟨w', h2, hi2, hb2, hn, hl, hm⟩ := ih big w1 hi1
    refine ⟨w', ?_, hi2, by omega, ?_, by rw [hl, hv, List.length_set], fun i h => hm i (hobj i (.inr h))⟩
    · rw [List.range_succ, List.reverse_append]
      show (destroy w m).bind (fun w' => run big w' _) = _
      rw [h1]
      exact h2
    · intro i hi
      by_cases e : i = m
      · exact hm i (hobj i (.inl e))
      · exact hn i (by omega)

/-- **C97**: whatever a program has done, when its variables go out of scope (the last first) every block is freed: nothing is
leaked and nothing is freed twice. -/
theorem C97_scope_end (big : Bool) (w : World) (hw : Reached big w) :
    ∃ w', run big w ((List.range w.vars.length).reverse.map .destroy) = .ok w' ∧ w'.blocks.length = w.blocks.length ∧
      ∀ (b : Nat) (k : Block), w'.blocks[b]? = some k → k.alive = false := by
  obtain ⟨w', h, hi, hb, hn, hl, _⟩ := destroyAll w.vars.length big w hw.inv (Nat.le_refl _)
  refine ⟨w', h, hb, fun b k hk => ?_⟩
  have h1 := hi.one b k hk
  have h0 : owners w' b = 0 := by
    unfold owners
    rw [List.countP_eq_zero]
    intro x hx hp
    cases x with
    | none => simp [ownsBlock] at hp
    | some o =>
      obtain ⟨v, hlt, he⟩ := List.mem_iff_getElem.1 hx
      have : w'.obj v = some o := obj_eq.2 (by rw [List.getElem?_eq_getElem hlt, he])
      rw [hn v (by omega)] at this
      cases this
  rw [h0] at h1
  cases hk' : k.alive with
  | false => rfl
  | true => rw [hk'] at h1; simp at h1

/-- **C97**: one step changes a block in one of three ways: not at all; the destructor of its owner frees it; or a writer that
shows it stores what `ByteWriter` says. No block comes back to life or disappears. -/
theorem C97_blocks (big : Bool) (w w' : World) (op : Op) (hs : step big w op = .ok w') (b : Nat) (k : Block)
    (hk : w.blocks[b]? = some k) :
    w'.blocks[b]? = some k ∨
    (∃ v o, op = .destroy v ∧ w.obj v = some o ∧ o.owns = true ∧ o.view = some b ∧ k.alive = true ∧
      w'.blocks[b]? = some ⟨k.bytes, false⟩) ∨
    (∃ v o wop, op = .write v wop ∧ w.obj v = some o ∧ o.kind = .writer ∧ o.view = some b ∧
      w'.blocks[b]? = some ⟨(ByteWriter.step big ⟨k.bytes, o.position, o.limit⟩ wop).1.data, k.alive⟩) := by
  have hlt := (List.getElem?_eq_some_iff.1 hk).1
  cases op with
  | alloc c =>
    cases hs
    refine .inl ?_
    show (w.blocks ++ [_])[b]? = some k
    rw [List.getElem?_append_left hlt, hk]
  | lend v kd => cases hs; unfold lend; refine .inl ?_; split <;> (try split) <;> exact hk
  | give v kd => cases hs; unfold give; refine .inl ?_; split <;> (try split) <;> exact hk
  | move v => cases hs; unfold move; refine .inl ?_; split <;> exact hk
  | swap u v => cases hs; unfold Streams.swap; refine .inl ?_; split <;> (try split) <;> exact hk
  | moveResource v => cases hs; unfold moveResource; refine .inl ?_; split <;> (try split) <;> exact hk
  | destroy v =>
    have hs : destroy w v = .ok w' := hs
    unfold destroy at hs
    split at hs
    · cases hs; exact .inl hk
    · rename_i o ho
      split at hs
      · rename_i hw
        split at hs
        · cases hs; exact .inl hk
        · rename_i c hc
          split at hs
          · rename_i kc hkc
            split at hs
            · rename_i hal
              cases hs
              by_cases e : c = b
              · subst e
                rw [hk] at hkc
                cases hkc
                refine .inr (.inl ⟨v, o, rfl, ho, hw, hc, hal, ?_⟩)
                show (w.blocks.set c _)[c]? = _
                rw [List.getElem?_set_self hlt]
              · refine .inl ?_
                show (w.blocks.set c _)[b]? = _
                rw [List.getElem?_set_ne e, hk]
            · cases hs
          · cases hs
      · cases hs; exact .inl hk
  | read v op =>
    obtain ⟨x, hx, he⟩ := bind_eq_ok hs
    cases he
    refine .inl ?_
    unfold readerCall at hx
    split at hx
    · cases hx; exact hk
    · split at hx
      · obtain ⟨r, _, hx⟩ := bind_eq_ok hx
        split at hx
        · cases hx
        · cases hx; exact hk
      · cases hx; exact hk
  | write v op =>
    obtain ⟨x, hx, he⟩ := bind_eq_ok hs
    cases he
    unfold writerCall at hx
    split at hx
    · cases hx; exact .inl hk
    · rename_i o ho
      split at hx
      · rename_i hkind
        dsimp only at hx
        split at hx
        · cases hx
        · cases hx
          show (match o.view with | none => _ | some b => _ : List Block)[b]? = _ ∨ _
          cases hv : o.view with
          | none => exact .inl hk
          | some c =>
            by_cases e : c = b
            · subst e
              refine .inr (.inr ⟨v, o, op, rfl, ho, hkind, hv, ?_⟩)
              simp only [World.put, World.bytes, hv, hk]
              rw [List.getElem?_set_self hlt]
            · refine .inl ?_
              dsimp only
              split
              · rw [List.getElem?_set_ne e, hk]
              · exact hk
      · cases hx; exact .inl hk

/-! ### Use -/

theorem alive_of_owns {w : World} (h : Inv w) {v : Nat} {o : Obj} (ho : w.obj v = some o) (hw : o.owns = true) :
    w.alive o = true := by
  unfold World.alive
  cases hb : o.view with
  | none => rfl
  | some b =>
    obtain ⟨k, hk, hal⟩ := h.owned_alive ho hw hb
    simp only [hk, hal]

theorem obj_put_self {w : World} {v : Nat} {o : Obj} (h : w.obj v = some o) (x : Obj) : (w.put v (some x)).obj v = some x := by
  rw [obj_eq]
  unfold World.put
  simp only
  rw [List.getElem?_set_self (List.getElem?_eq_some_iff.1 (obj_eq.1 h)).1]

theorem put_put (w : World) (v : Nat) (x y : Option Obj) : (w.put v x).put v y = w.put v y := by
  unfold World.put
  simp only [List.set_set]

theorem put_self {w : World} {v : Nat} {o : Obj} (h : w.obj v = some o) : w.put v (some o) = w := by
  have hv := obj_eq.1 h
  unfold World.put
  have : w.vars.set v (some o) = w.vars := by
    apply List.ext_getElem?
    intro i
    rw [List.getElem?_set]
    split
    · rename_i e
      subst e
      rw [if_pos (List.getElem?_eq_some_iff.1 hv).1, hv]
    · rfl
  rw [this]

theorem readerStep_data {big : Bool} {s : ByteReader} {op : ByteReader.Op} {r : ReadCall}
    (h : ByteReader.step big s op = .ok r) : r.reader.data = s.data := by
  have hread : ∀ d, (s.read d).reader.data = s.data := by
    intro d
    unfold ByteReader.read
    simp only
    split
    · rfl
    · split <;> rfl
  have hthen : ∀ b c, (ByteReader.thenSwap b c).reader = c.reader := by
    intro b c
    unfold ByteReader.thenSwap
    split <;> rfl
  cases op with
  | limit n => cases h; unfold ByteReader.setLimit; split <;> rfl
  | position n => cases h; unfold ByteReader.setPosition; split <;> rfl
  | advance n => cases h; unfold ByteReader.advance; split <;> rfl
  | rewind => cases h; rfl
  | get =>
    have h : s.get = .ok r := h
    rcases ByteReader.get_cases s with ⟨e, _⟩ | ⟨_, _, e⟩ | ⟨b, _, _, e⟩ <;> rw [e] at h <;> cases h <;> rfl
  | getAt p =>
    have h : s.getAt p = .ok r := h
    rcases ByteReader.getAt_cases s p with ⟨e, _⟩ | ⟨_, _, e⟩ | ⟨b, _, _, e⟩ <;> rw [e] at h <;> cases h <;> rfl
  | read d => cases h; exact hread d
  | readAt off d =>
    cases h
    unfold ByteReader.readAt
    dsimp only
    split
    · rfl
    · split <;> rfl
  | readLE d =>
    cases h
    unfold ByteReader.readLE
    rw [hthen]
    exact hread d
  | readBE d =>
    cases h
    unfold ByteReader.readBE
    rw [hthen]
    exact hread d

/-- **C97**: a reader that owns its memory can use it as long as it exists: any list of its calls does what `ByteReader` (C01,
C02, C77) does on the bytes of the block, and changes nothing else. -/
theorem C97_owning_reader (big : Bool) (w : World) (hw : Reached big w) (v : Nat) (o : Obj) (ho : w.obj v = some o)
    (hk : o.kind = .reader) (hown : o.owns = true) (ops : List ByteReader.Op) :
    run big w (ops.map (.read v)) =
      (ByteReader.run big ⟨w.bytes o, o.position, o.limit⟩ ops).bind fun r =>
        .ok (w.put v (some { o with position := r.position, limit := r.limit })) := by
  have hi := hw.inv
  clear hw
  induction ops generalizing w o with
  | nil =>
    show Outcome.ok w = .ok (w.put v (some o))
    rw [put_self ho]
  | cons op ops ih =>
    have hal := alive_of_owns hi ho hown
    have hstep : step big w (.read v op) = (ByteReader.step big ⟨w.bytes o, o.position, o.limit⟩ op).bind fun r =>
        .ok (w.put v (some { o with position := r.reader.position, limit := r.reader.limit })) := by
      show (readerCall big w v op).bind _ = _
      unfold readerCall
      simp only [ho, hk, if_true, hal]
      cases ByteReader.step big ⟨w.bytes o, o.position, o.limit⟩ op with
      | ok r =>
        show Outcome.bind (if reads r op && !true then _ else _) _ = _
        rw [show (reads r op && !true) = false by simp]
        rfl
      | _ => rfl
    show (step big w (.read v op)).bind (fun w' => run big w' (ops.map (.read v))) =
      (ByteReader.step big ⟨w.bytes o, o.position, o.limit⟩ op >>= fun r => ByteReader.run big r.reader ops).bind _
    rw [hstep]
    cases hr : ByteReader.step big ⟨w.bytes o, o.position, o.limit⟩ op with
    | ok r =>
      have hdata : r.reader.data = w.bytes o := readerStep_data hr
      have h2 := ih (w.put v (some { o with position := r.reader.position, limit := r.reader.limit }))
        { o with position := r.reader.position, limit := r.reader.limit } (obj_put_self ho _) hk hown (hi.update ho rfl rfl)
      show run big (w.put v _) _ = (ByteReader.run big r.reader ops).bind _
      rw [h2]
      have : (⟨(w.put v (some { o with position := r.reader.position, limit := r.reader.limit })).bytes
          { o with position := r.reader.position, limit := r.reader.limit }, r.reader.position, r.reader.limit⟩ : ByteReader) =
          r.reader := by
        show (⟨w.bytes o, _, _⟩ : ByteReader) = _
        rw [← hdata]
      rw [this]
      congr 1
      funext r'
      rw [put_put]
    | _ => rfl

/-- The world after a writer's calls: the block holds `data`, the writer is at `position` with `limit`. -/
def written (w : World) (v : Nat) (o : Obj) (b : Nat) (k : Block) (s : ByteWriter) : World :=
  ⟨w.blocks.set b ⟨s.data, k.alive⟩, w.vars.set v (some { o with position := s.position, limit := s.limit })⟩

/-- **C97**: a writer that owns its memory can use it as long as it exists: any list of its calls leaves in the block what
`ByteWriter` (C03, C04, C78) leaves, and changes nothing else. -/
theorem C97_owning_writer (big : Bool) (w : World) (hw : Reached big w) (v : Nat) (o : Obj) (ho : w.obj v = some o)
    (hkind : o.kind = .writer) (hown : o.owns = true) (b : Nat) (k : Block) (hb : o.view = some b) (hk : w.blocks[b]? = some k)
    (ops : List ByteWriter.Op) :
    run big w (ops.map (.write v)) = .ok (written w v o b k (ByteWriter.run big ⟨k.bytes, o.position, o.limit⟩ ops)) := by
  have hi := hw.inv
  clear hw
  induction ops generalizing w o k with
  | nil =>
    show Outcome.ok w = .ok (written w v o b k ⟨k.bytes, o.position, o.limit⟩)
    have h1 : w.blocks.set b ⟨k.bytes, k.alive⟩ = w.blocks := by
      apply List.ext_getElem?
      intro i
      rw [List.getElem?_set]
      split
      · rename_i e
        subst e
        rw [if_pos (List.getElem?_eq_some_iff.1 hk).1, hk]
      · rfl
    have h2 : w.vars.set v (some o) = w.vars := congrArg World.vars (put_self ho)
    show Outcome.ok w = .ok ⟨w.blocks.set b ⟨k.bytes, k.alive⟩, w.vars.set v (some o)⟩
    rw [h1, h2]
  | cons op ops ih =>
    have hal := alive_of_owns hi ho hown
    have hbytes : w.bytes o = k.bytes := by simp only [World.bytes, hb, hk]
    have hstep : step big w (.write v op) = .ok (written w v o b k (ByteWriter.step big ⟨k.bytes, o.position, o.limit⟩ op).1) := by
      show (writerCall big w v op).bind _ = _
      unfold writerCall
      simp only [ho, hkind, if_true, hal, Bool.not_true, Bool.and_false, Bool.false_eq_true, if_false, hb, hk, hbytes]
      simp only [written, World.put, Outcome.bind, hkind, hb]
    show (step big w (.write v op)).bind (fun w' => run big w' (ops.map (.write v))) = _
    rw [hstep]
    show run big (written w v o b k _) _ = _
    have hlt := (List.getElem?_eq_some_iff.1 hk).1
    have hvl := (List.getElem?_eq_some_iff.1 (obj_eq.1 ho)).1
    generalize hs : (ByteWriter.step big ⟨k.bytes, o.position, o.limit⟩ op).1 = s at *
    have h2 := ih (written w v o b k s) { o with position := s.position, limit := s.limit }
      (obj_eq.2 (List.getElem?_set_self hvl)) hkind hown ⟨s.data, k.alive⟩ hb (List.getElem?_set_self hlt)
      (Inv.update (w := { w with blocks := _ }) (hi.rewrite hk _) (o := o) ho rfl rfl)
    rw [h2]
    show Outcome.ok _ = .ok (written w v o b k (ByteWriter.run big (ByteWriter.step big ⟨k.bytes, o.position, o.limit⟩ op).1 ops))
    rw [hs]
    show Outcome.ok (World.mk ((w.blocks.set b _).set b _) ((w.vars.set v _).set v _)) = _
    rw [List.set_set, List.set_set]
    rfl

/-- **C97**: what is left behind by moving from a stream refuses every call that would move bytes: it has no memory. -/
theorem C97_moved_from (big : Bool) (w : World) (v : Nat) (o : Obj) (ho : w.obj v = some o) (d : List Byte) (hd : d ≠ []) :
    ∃ w', step big w (.move v) = .ok w' ∧ w'.obj v = some ⟨o.kind, 0, 0, none, false⟩ ∧ w'.obj w.vars.length = some o ∧
      (o.kind = .reader → readerCall big w' v (.read d) = .ok (w', some ⟨⟨[], 0, 0⟩, .error .overflow, d⟩) ∧
        readerCall big w' v .get = .ok (w', some ⟨⟨[], 0, 0⟩, .error .overflow, []⟩)) ∧
      (o.kind = .writer → writerCall big w' v (.write d) = .ok (w', some (.error .overflow))) := by
  have hvl := (List.getElem?_eq_some_iff.1 (obj_eq.1 ho)).1
  have hm : move w v = (w.put v (some o.moved)).push o := by unfold move; rw [ho]
  have hobj : ((w.put v (some o.moved)).push o).obj v = some o.moved := by
    rw [obj_eq]
    show ((w.vars.set v (some o.moved)) ++ [some o])[v]? = _
    rw [List.getElem?_append_left (by rw [List.length_set]; exact hvl), List.getElem?_set_self hvl]
  have hd0 : 0 < d.length := List.length_pos_iff.2 hd
  have hrem : sub64 0 0 = 0 := by rw [sub64_of_le (by omega) (by omega)]
  refine ⟨_, rfl, by rw [hm]; exact hobj, ?_, ?_, ?_⟩
  · rw [hm, obj_eq]
    show ((w.vars.set v (some o.moved)) ++ [some o])[w.vars.length]? = _
    rw [List.getElem?_append_right (by rw [List.length_set]; omega), List.length_set, Nat.sub_self]
    rfl
  · intro hk
    rw [hm]
    generalize hw' : (w.put v (some o.moved)).push o = w' at *
    have hmv : o.moved = ⟨.reader, 0, 0, none, false⟩ := by unfold Obj.moved; rw [hk]
    have hself := put_self (hmv ▸ hobj)
    have hr : (⟨[], 0, 0⟩ : ByteReader).read d = ⟨⟨[], 0, 0⟩, .error .overflow, d⟩ := by
      unfold ByteReader.read ByteReader.remaining
      simp only
      rw [hrem, if_pos hd0]
    have hg : (⟨[], 0, 0⟩ : ByteReader).get = .ok ⟨⟨[], 0, 0⟩, .error .overflow, []⟩ := by
      unfold ByteReader.get ByteReader.remaining
      simp only
      rw [hrem, if_pos (by omega)]
    have hkm : o.moved.kind = .reader := hk
    have hbm : w'.bytes o.moved = [] := rfl
    constructor
    · unfold readerCall
      simp only [hobj, hkm, if_true, hbm]
      show (Outcome.ok ((⟨[], 0, 0⟩ : ByteReader).read d)).bind _ = _
      rw [hr]
      show Outcome.ok (w'.put v (some ⟨.reader, 0, 0, none, false⟩), _) = _
      rw [hself]
    · unfold readerCall
      simp only [hobj, hkm, if_true, hbm]
      show ((⟨[], 0, 0⟩ : ByteReader).get).bind _ = _
      rw [hg]
      show Outcome.ok (w'.put v (some ⟨.reader, 0, 0, none, false⟩), _) = _
      rw [hself]
  · intro hk
    rw [hm]
    generalize hw' : (w.put v (some o.moved)).push o = w' at *
    have hmv : o.moved = ⟨.writer, 0, 0, none, false⟩ := by unfold Obj.moved; rw [hk]
    have hself := put_self (hmv ▸ hobj)
    have hkm : o.moved.kind = .writer := hk
    have hbm : w'.bytes o.moved = [] := rfl
    have hwr : (⟨[], 0, 0⟩ : ByteWriter).write d = (⟨[], 0, 0⟩, .error .overflow) := by
      rcases ByteWriter.write_cases ⟨[], 0, 0⟩ d ⟨by show 0 < 2 ^ 64; omega, by show 0 < 2 ^ 64; omega⟩ with
        ⟨h, _⟩ | ⟨_, _, h⟩ | ⟨_, h, _⟩ | ⟨_, h, _⟩
      · exact absurd h hd
      · exact h
      · exact absurd h (by show ¬ (0 + d.length ≤ 0); omega)
      · exact absurd h (by show ¬ (0 + d.length ≤ 0); omega)
    have halm : w'.alive o.moved = true := rfl
    unfold writerCall
    simp only [hobj, hkm, if_true, hbm, halm, Bool.not_true, Bool.and_false, Bool.false_eq_true, if_false]
    have hst : ByteWriter.step big ⟨[], o.moved.position, o.moved.limit⟩ (.write d) = (⟨[], 0, 0⟩, .error .overflow) := hwr
    rw [hst]
    show Outcome.ok (w'.put v (some ⟨.writer, 0, 0, none, false⟩), _) = _
    rw [hself]

/-! ### Undefined behaviour -/

/-- A stream over memory it does not own and that has been freed. -/
def Dangling (w : World) (v : Nat) : Prop :=
  ∃ o b k, w.obj v = some o ∧ o.owns = false ∧ o.view = some b ∧ w.blocks[b]? = some k ∧ k.alive = false

theorem bind_eq_ub {α β : Type} {x : Outcome α} {f : α → Outcome β} (h : x.bind f = .ub) :
    x = .ub ∨ ∃ a, x = .ok a ∧ f a = .ub := by
  cases x with
  | ok a => exact .inr ⟨a, rfl, h⟩
  | throws => cases h
  | terminate => cases h
  | ub => exact .inl rfl

theorem readerStep_no_ub (big : Bool) (s : ByteReader) (op : ByteReader.Op) : ByteReader.step big s op ≠ .ub := by
  cases op with
  | get =>
    show s.get ≠ .ub
    rcases ByteReader.get_cases s with ⟨e, _⟩ | ⟨_, _, e⟩ | ⟨b, _, _, e⟩ <;> rw [e] <;> intro h <;> cases h
  | getAt p =>
    show s.getAt p ≠ .ub
    rcases ByteReader.getAt_cases s p with ⟨e, _⟩ | ⟨_, _, e⟩ | ⟨b, _, _, e⟩ <;> rw [e] <;> intro h <;> cases h
  | _ => intro h; cases h

theorem dangling_of_dead {w : World} (h : Inv w) {v : Nat} {o : Obj} (ho : w.obj v = some o) (hd : w.alive o = false) :
    Dangling w v := by
  have hown : o.owns = false := by
    cases hw : o.owns with
    | false => rfl
    | true => rw [alive_of_owns h ho hw] at hd; cases hd
  unfold World.alive at hd
  cases hb : o.view with
  | none => rw [hb] at hd; cases hd
  | some b =>
    have hlt := h.known v o b ho hb
    simp only [hb, List.getElem?_eq_getElem hlt] at hd
    exact ⟨o, b, _, ho, hown, hb, List.getElem?_eq_getElem hlt, hd⟩

/-- **C97**: the only way a program of these operations can have undefined behaviour is a call of a stream made from a
resource by reference, after the resource is gone. -/
theorem C97_ub_only_dangling (big : Bool) (w : World) (hw : Reached big w) (op : Op) (hu : step big w op = .ub) :
    (∃ v rop, op = .read v rop ∧ Dangling w v) ∨ (∃ v wop, op = .write v wop ∧ Dangling w v) := by
  have hi := hw.inv
  cases op with
  | destroy v =>
    obtain ⟨w', h⟩ := C97_destroy big w hw v
    rw [h] at hu
    cases hu
  | read v op =>
    refine .inl ⟨v, op, rfl, ?_⟩
    rcases bind_eq_ub hu with hu | ⟨_, _, h⟩
    · unfold readerCall at hu
      split at hu
      · cases hu
      · rename_i o ho
        split at hu
        · rcases bind_eq_ub hu with hu | ⟨r, _, hu⟩
          · exact absurd hu (readerStep_no_ub _ _ _)
          · split at hu
            · rename_i hc
              simp only [Bool.and_eq_true, Bool.not_eq_true'] at hc
              exact dangling_of_dead hi ho hc.2
            · cases hu
        · cases hu
    · cases h
  | write v op =>
    refine .inr ⟨v, op, rfl, ?_⟩
    rcases bind_eq_ub hu with hu | ⟨_, _, h⟩
    · unfold writerCall at hu
      split at hu
      · cases hu
      · rename_i o ho
        split at hu
        · dsimp only at hu
          split at hu
          · rename_i hc
            simp only [Bool.and_eq_true, Bool.not_eq_true'] at hc
            exact dangling_of_dead hi ho hc.2
          · cases hu
        · cases hu
    · cases h
  | _ => cases hu

/-- Everything that shows memory owns it. -/
def AllOwn (w : World) : Prop := ∀ v o b, w.obj v = some o → o.view = some b → o.owns = true

theorem AllOwn.handOver {w : World} (h : AllOwn w) {v : Nat} {o n : Obj} (ho : w.obj v = some o) (hv : n.view = o.view)
    (hn : n.owns = o.owns) : AllOwn ((w.put v (some o.moved)).push n) := by
  intro u o' b hu hb
  rcases obj_push hu with rfl | hu
  · rw [hn]
    exact h v o b ho (hv ▸ hb)
  · rcases obj_put hu with he | hu
    · cases he
      simp [Obj.moved] at hb
    · exact h u o' b hu hb

theorem AllOwn.update {w : World} (h : AllOwn w) {v : Nat} {o n : Obj} (ho : w.obj v = some o) (hv : n.view = o.view)
    (hn : n.owns = o.owns) : AllOwn (w.put v (some n)) := by
  intro u o' b hu hb
  rcases obj_put hu with he | hu
  · cases he
    rw [hn]
    exact h v o b ho (hv ▸ hb)
  · exact h u o' b hu hb

theorem AllOwn.step {big : Bool} {w w' : World} (h : AllOwn w) {op : Op} (hop : ∀ v k, op ≠ .lend v k)
    (hs : step big w op = .ok w') : AllOwn w' := by
  cases op with
  | alloc b =>
    cases hs
    intro u o' c hu hc
    rcases obj_push hu with rfl | hu
    · rfl
    · exact h u o' c hu hc
  | lend v k => exact absurd rfl (hop v k)
  | give v k =>
    cases hs
    unfold give
    split
    · rename_i o ho
      split
      · exact h.handOver ho rfl rfl
      · exact h
    · exact h
  | move v =>
    cases hs
    unfold move
    split
    · rename_i o ho
      exact h.handOver ho rfl rfl
    · exact h
  | swap u v =>
    cases hs
    unfold Streams.swap
    split
    · rename_i a c ha hc
      split
      · intro x o b hx hb
        rcases obj_put hx with he | hx
        · cases he
          exact h u a b ha hb
        · rcases obj_put hx with he | hx
          · cases he
            exact h v c b hc hb
          · exact h x o b hx hb
      · exact h
    · exact h
  | moveResource v =>
    cases hs
    unfold moveResource
    split
    · rename_i o ho
      split
      · exact h.handOver ho rfl rfl
      · exact h
    · exact h
  | destroy v =>
    intro u o b hu hb
    have hu' := obj_eq.1 hu
    rw [(destroy_ok hs).1, List.getElem?_set] at hu'
    split at hu'
    · split at hu' <;> cases hu'
    · exact h u o b (obj_eq.2 hu') hb
  | read v op =>
    obtain ⟨x, hx, he⟩ := bind_eq_ok hs
    cases he
    unfold readerCall at hx
    split at hx
    · cases hx; exact h
    · rename_i o ho
      split at hx
      · obtain ⟨r, _, hx⟩ := bind_eq_ok hx
        split at hx
        · cases hx
        · cases hx
          exact h.update ho rfl rfl
      · cases hx; exact h
  | write v op =>
    obtain ⟨x, hx, he⟩ := bind_eq_ok hs
    cases he
    unfold writerCall at hx
    split at hx
    · cases hx; exact h
    · rename_i o ho
      split at hx
      · dsimp only at hx
        split at hx
        · cases hx
        · cases hx
          exact AllOwn.update (w := { w with blocks := _ }) h (o := o) ho rfl rfl
      · cases hx; exact h

/-- **C97**: a program that only hands memory over, and never makes a stream from a resource it keeps, has no undefined
behaviour, in any order of operations. -/
theorem C97_no_lend (big : Bool) (ops : List Op) (h : ∀ op ∈ ops, ∀ v k, op ≠ .lend v k) : run big World.init ops ≠ .ub := by
  suffices ∀ (ops : List Op) (w : World), Reached big w → AllOwn w → (∀ op ∈ ops, ∀ v k, op ≠ .lend v k) →
      run big w ops ≠ .ub from
    this ops _ ⟨[], rfl⟩ (by intro v o b hv; simp [World.init, World.obj] at hv) h
  intro ops
  induction ops with
  | nil => intro w _ _ _ hu; cases hu
  | cons op ops ih =>
    intro w hr ha hl hu
    rcases bind_eq_ub hu with hu | ⟨w', hs, hu⟩
    · rcases C97_ub_only_dangling big w hr op hu with ⟨v, _, _, o, b, k, ho, hn, hb, _⟩ | ⟨v, _, _, o, b, k, ho, hn, hb, _⟩ <;>
      · rw [ha v o b ho hb] at hn
        cases hn
    · refine ih w' ?_ (ha.step (hl op (List.mem_cons_self ..)) hs) (fun o ho => hl o (List.mem_cons_of_mem _ ho)) hu
      obtain ⟨pre, hp⟩ := hr
      refine ⟨pre ++ [op], ?_⟩
      have happ : ∀ (pre : List Op) (u : World), run big u pre = .ok w → run big u (pre ++ [op]) = .ok w' := by
        intro pre
        induction pre with
        | nil =>
          intro u hu
          cases hu
          show (Streams.step big w op).bind (fun w' => run big w' []) = _
          rw [hs]
          rfl
        | cons p pre ih =>
          intro u hu
          obtain ⟨u', h1, h2⟩ := bind_eq_ok hu
          show (Streams.step big u p).bind (fun w' => run big w' (pre ++ [op])) = _
          rw [h1]
          exact ih u' h2
      exact happ pre _ hp

/-- Without that restriction it is false: a reader made from a resource by reference reads freed memory when the resource is
destroyed first, and a writer stores into it. -/
theorem C97_lent_dangles :
    run false World.init [.alloc [1, 2], .lend 0 .reader, .destroy 0, .read 1 .get] = .ub ∧
    run false World.init [.alloc [1, 2], .lend 0 .writer, .destroy 0, .write 1 (.write [7])] = .ub ∧
    run false World.init [.alloc [1, 2], .lend 0 .reader, .give 0 .writer, .destroy 2, .read 1 (.read [0])] = .ub := by
  decide +kernel

/-! ### Handing over what was written -/

/-- **C97**: bytes written into a buffer a writer owns are read back, byte for byte, by a reader that the buffer is handed to;
after that the end of scope frees the one block. -/
theorem C97_write_then_read (big : Bool) (buffer payload dest : List Byte) (hb : buffer.length < 2 ^ 64)
    (hp : payload.length ≤ buffer.length) (hd : dest.length = payload.length) :
    ∃ w w' r, run big World.init [.alloc buffer, .give 0 .writer, .write 1 (.write payload), .moveResource 1, .give 2 .reader] = .ok w ∧
      readerCall big w 3 (.read dest) = .ok (w', some r) ∧ r.ret = .ok none ∧ r.dest = payload ∧
      w.blocks = [⟨payload ++ buffer.drop payload.length, true⟩] := by
  let data := payload ++ buffer.drop payload.length
  have hlen : data.length = buffer.length := by
    show (payload ++ buffer.drop payload.length).length = _
    rw [List.length_append, List.length_drop]; omega
  -- before the writer is used
  let w1 : World := ⟨[⟨buffer, true⟩], [some ⟨.resource, 0, 0, none, false⟩, some ⟨.writer, 0, buffer.length, some 0, true⟩]⟩
  have h1 : run big World.init [.alloc buffer, .give 0 .writer] = .ok w1 := rfl
  have hw1 : Reached big w1 := ⟨_, h1⟩
  have hwr : ∃ p, (ByteWriter.write ⟨buffer, 0, buffer.length⟩ payload).1 = ⟨data, p, buffer.length⟩ := by
    rcases ByteWriter.write_cases ⟨buffer, 0, buffer.length⟩ payload ⟨hb, by show 0 < 2 ^ 64; omega⟩ with
      ⟨h, e⟩ | ⟨_, h, _⟩ | ⟨_, _, h, _⟩ | ⟨_, _, _, e⟩
    · refine ⟨0, ?_⟩
      rw [e]
      show (⟨buffer, _, _⟩ : ByteWriter) = ⟨payload ++ buffer.drop payload.length, _, _⟩
      subst h
      rfl
    · exact absurd h (by show ¬ (buffer.length < 0 + payload.length); omega)
    · exact absurd h (by
        show ¬ (sub64 buffer.length 0 < payload.length)
        rw [sub64_of_le (by omega) (by omega)]; omega)
    · refine ⟨0 + payload.length, ?_⟩
      rw [e]
      show (⟨ByteWriter.overwrite buffer 0 payload, _, _⟩ : ByteWriter) = ⟨payload ++ buffer.drop payload.length, _, _⟩
      unfold ByteWriter.overwrite
      rw [List.take_zero, List.nil_append, Nat.zero_add]
  obtain ⟨p, hwr⟩ := hwr
  have h2 := C97_owning_writer big w1 hw1 1 ⟨.writer, 0, buffer.length, some 0, true⟩ rfl rfl rfl 0 ⟨buffer, true⟩ rfl rfl
    [.write payload]
  have hrun : ByteWriter.run big ⟨buffer, 0, buffer.length⟩ [.write payload] = ⟨data, p, buffer.length⟩ := hwr
  rw [hrun] at h2
  -- the reader at the end
  let o : Obj := ⟨.reader, 0, data.length, some 0, true⟩
  let w : World := ⟨[⟨data, true⟩], [some ⟨.resource, 0, 0, none, false⟩, some ⟨.writer, 0, 0, none, false⟩,
    some ⟨.resource, 0, 0, none, false⟩, some o]⟩
  have hw : run big World.init [.alloc buffer, .give 0 .writer, .write 1 (.write payload), .moveResource 1, .give 2 .reader] =
      .ok w := by
    show (run big w1 [.write 1 (.write payload), .moveResource 1, .give 2 .reader]) = _
    obtain ⟨w2, hs, he⟩ := bind_eq_ok h2
    cases he
    show (step big w1 (.write 1 (.write payload))).bind (fun w' => run big w' [.moveResource 1, .give 2 .reader]) = _
    rw [hs]
    rfl
  have hrd : (⟨data, 0, data.length⟩ : ByteReader).read dest = ⟨⟨data, dest.length, data.length⟩, .ok none, payload⟩ := by
    rcases ByteReader.read_cases ⟨data, 0, data.length⟩ dest (by show data.length < _; omega) (by show 0 < 2 ^ 64; omega) with
      ⟨_, h⟩ | ⟨_, _, h⟩
    · rcases h with h | h
      · have h : sub64 data.length 0 < dest.length := h
        rw [sub64_of_le (by omega) (by omega)] at h
        omega
      · have h : data.length < 0 + dest.length := h
        omega
    · rw [h]
      show (⟨⟨data, 0 + dest.length, data.length⟩, .ok none, (data.drop 0).take dest.length⟩ : ReadCall) = _
      rw [Nat.zero_add, List.drop_zero, hd]
      show (⟨_, _, (payload ++ buffer.drop payload.length).take payload.length⟩ : ReadCall) = _
      rw [List.take_left]
  refine ⟨w, w.put 3 (some { o with position := dest.length }),
    ⟨⟨data, dest.length, data.length⟩, .ok none, payload⟩, hw, ?_, rfl, rfl, rfl⟩
  · unfold readerCall
    have hobj : w.obj 3 = some o := rfl
    have hkind : o.kind = .reader := rfl
    have hbytes : w.bytes o = data := rfl
    have hal : w.alive o = true := rfl
    simp only [hobj, hkind, if_true, hbytes, hal, Bool.not_true, Bool.and_false, Bool.false_eq_true, if_false]
    show (Outcome.ok ((⟨data, 0, data.length⟩ : ByteReader).read dest)).bind _ = _
    rw [hrd]

/-- How many bytes a call of a reader asks for. -/
def asked : ByteReader.Op → Nat
  | .get | .getAt _ => 1
  | .read d | .readAt _ d | .readLE d | .readBE d => d.length
  | .limit _ | .position _ | .advance _ | .rewind => 0

/-- How many bytes a call of a writer is given. -/
def given : ByteWriter.Op → Nat
  | .write d | .writeLE d | .writeBE d => d.length
  | _ => 0

theorem reads_iff (r : ReadCall) (op : ByteReader.Op) : reads r op = true ↔ r.ret.toBool = true ∧ 0 < asked op := by
  unfold reads asked
  cases op <;> simp [List.length_pos_iff]

/-- **C97**: a reader lent memory that has been freed has undefined behaviour exactly on the calls that succeed and ask for at
least one byte; all the others do what `ByteReader` does. -/
theorem C97_dangling_reader (big : Bool) (w : World) (v : Nat) (o : Obj) (b : Nat) (k : Block) (ho : w.obj v = some o)
    (hkind : o.kind = .reader) (hb : o.view = some b) (hk : w.blocks[b]? = some k) (hd : k.alive = false)
    (op : ByteReader.Op) (r : ReadCall) (hr : ByteReader.step big ⟨k.bytes, o.position, o.limit⟩ op = .ok r) :
    (r.ret.toBool = true ∧ 0 < asked op → readerCall big w v op = .ub) ∧
    (¬ (r.ret.toBool = true ∧ 0 < asked op) → readerCall big w v op =
      .ok (w.put v (some { o with position := r.reader.position, limit := r.reader.limit }), some r)) := by
  have hbytes : w.bytes o = k.bytes := by simp only [World.bytes, hb, hk]
  have hal : w.alive o = false := by simp only [World.alive, hb, hk, hd]
  have heq : readerCall big w v op = if reads r op then .ub else
      .ok (w.put v (some { o with position := r.reader.position, limit := r.reader.limit }), some r) := by
    unfold readerCall
    simp only [ho, hkind, if_true, hbytes, hr, hal, Bool.not_false, Bool.and_true, Outcome.bind]
  rw [heq, ← reads_iff]
  exact ⟨fun h => if_pos h, fun h => if_neg h⟩

theorem stores_iff (big : Bool) (s : ByteWriter) (hm : s.InMachine) (op : ByteWriter.Op) :
    stores big s op = true ↔ 0 < given op ∧ s.position + given op ≤ s.data.length := by
  have key : ∀ src : List Byte, (!src.isEmpty && !((MutableMemoryView.slice s.data.length s.position
      (wrap64 (s.position + src.length))).2 < src.length)) = true ↔ 0 < src.length ∧ s.position + src.length ≤ s.data.length := by
    intro src
    by_cases h0 : src = []
    · subst h0
      simp
    · have hne : src.isEmpty = false := by simpa using h0
      have hpos := List.length_pos_iff.2 h0
      rw [hne]
      simp only [Bool.not_false, Bool.true_and, Bool.not_eq_true', decide_eq_false_iff_not, hpos, true_and]
      obtain ⟨hl, hp⟩ := hm
      have hle : wrap64 (s.position + src.length) ≤ s.position + src.length := wrap64_le _
      rw [mslice_size]
      constructor
      · intro h; omega
      · intro h
        rw [wrap64_of_lt (by omega)]
        omega
  have hsw : ∀ d : List Byte, (ByteReader.swapBytes d).length = d.length := by
    intro d; unfold ByteReader.swapBytes; rw [List.length_ofFn]
  unfold stores given
  cases op with
  | write d => exact key d
  | writeLE d =>
    have := key (if big then ByteReader.swapBytes d else d)
    have hl : (if big then ByteReader.swapBytes d else d).length = d.length := by cases big <;> simp [hsw]
    rw [hl] at this
    simpa only [hl] using this
  | writeBE d =>
    have := key (if !big then ByteReader.swapBytes d else d)
    have hl : (if !big then ByteReader.swapBytes d else d).length = d.length := by cases big <;> simp [hsw]
    rw [hl] at this
    simpa only [hl] using this
  | _ => simp

/-- **C97**: a writer lent memory that has been freed has undefined behaviour exactly on the calls that are given at least one
byte and as many as still fit into the buffer, within the limit or not. -/
theorem C97_dangling_writer (big : Bool) (w : World) (v : Nat) (o : Obj) (b : Nat) (k : Block) (ho : w.obj v = some o)
    (hkind : o.kind = .writer) (hb : o.view = some b) (hk : w.blocks[b]? = some k) (hd : k.alive = false)
    (hl : k.bytes.length < 2 ^ 64) (hp : o.position < 2 ^ 64) (op : ByteWriter.Op) :
    (0 < given op ∧ o.position + given op ≤ k.bytes.length → writerCall big w v op = .ub) ∧
    (¬ (0 < given op ∧ o.position + given op ≤ k.bytes.length) →
      ∃ w', writerCall big w v op = .ok (w', some (ByteWriter.step big ⟨k.bytes, o.position, o.limit⟩ op).2)) := by
  have hbytes : w.bytes o = k.bytes := by simp only [World.bytes, hb, hk]
  have hal : w.alive o = false := by simp only [World.alive, hb, hk, hd]
  have hst := stores_iff big ⟨k.bytes, o.position, o.limit⟩ ⟨hl, hp⟩ op
  have hst : stores big ⟨k.bytes, o.position, o.limit⟩ op = true ↔ 0 < given op ∧ o.position + given op ≤ k.bytes.length := hst
  rw [← hst]
  unfold writerCall
  simp only [ho, hkind, if_true, hbytes, hal, Bool.not_false, Bool.and_true]
  exact ⟨fun h => if_pos h, fun h => ⟨_, if_neg h⟩⟩

/-! ### Making streams -/

/-- **C97**: a stream made from a resource starts at its beginning and ends at its end. Made by reference it leaves the resource
as it is and does not own; handed over it takes what the resource has and leaves it empty. -/
theorem C97_made (big : Bool) (w : World) (v : Nat) (o : Obj) (ho : w.obj v = some o) (hk : o.kind = .resource) (kd : Kind)
    (hkd : kd ≠ .resource) :
    (∃ w', step big w (.lend v kd) = .ok w' ∧ w'.obj v = some o ∧
      w'.obj w.vars.length = some ⟨kd, 0, (w.bytes o).length, o.view, false⟩ ∧ w'.blocks = w.blocks) ∧
    (∃ w', step big w (.give v kd) = .ok w' ∧ w'.obj v = some ⟨.resource, 0, 0, none, false⟩ ∧
      w'.obj w.vars.length = some ⟨kd, 0, (w.bytes o).length, o.view, o.owns⟩ ∧ w'.blocks = w.blocks) := by
  have hvl := (List.getElem?_eq_some_iff.1 (obj_eq.1 ho)).1
  constructor
  · refine ⟨w.push ⟨kd, 0, (w.bytes o).length, o.view, false⟩, ?_, ?_, ?_, rfl⟩
    · show Outcome.ok (lend w v kd) = _
      unfold lend
      simp only [ho, hk, hkd, ne_eq, not_false_eq_true, and_self, if_true]
    · rw [obj_eq]
      show (w.vars ++ [_])[v]? = _
      rw [List.getElem?_append_left hvl]
      exact obj_eq.1 ho
    · rw [obj_eq]
      show (w.vars ++ [_])[w.vars.length]? = _
      rw [List.getElem?_append_right (Nat.le_refl _), Nat.sub_self]
      rfl
  · refine ⟨(w.put v (some o.moved)).push ⟨kd, 0, (w.bytes o).length, o.view, o.owns⟩, ?_, ?_, ?_, rfl⟩
    · show Outcome.ok (give w v kd) = _
      unfold give
      simp only [ho, hk, hkd, ne_eq, not_false_eq_true, and_self, if_true]
    · rw [obj_eq]
      show ((w.vars.set v _) ++ [_])[v]? = _
      rw [List.getElem?_append_left (by rw [List.length_set]; exact hvl), List.getElem?_set_self hvl]
      show some (some (⟨o.kind, 0, 0, none, false⟩ : Obj)) = _
      rw [hk]
    · rw [obj_eq]
      show ((w.vars.set v _) ++ [_])[w.vars.length]? = _
      rw [List.getElem?_append_right (by rw [List.length_set]; omega), List.length_set, Nat.sub_self]
      rfl

/-- **C97**: `swap`, and assignment which is `swap`, exchanges what the two objects have; doing it twice changes nothing. -/
theorem C97_swap (big : Bool) (w : World) (u v : Nat) (a b : Obj) (ha : w.obj u = some a) (hb : w.obj v = some b)
    (hk : a.kind = b.kind) :
    ∃ w', step big w (.swap u v) = .ok w' ∧ w'.obj u = some b ∧ w'.obj v = some a ∧ w'.blocks = w.blocks ∧
      (∀ i, i ≠ u → i ≠ v → w'.obj i = w.obj i) ∧ step big w' (.swap u v) = .ok w := by
  have hul := (List.getElem?_eq_some_iff.1 (obj_eq.1 ha)).1
  have hvl := (List.getElem?_eq_some_iff.1 (obj_eq.1 hb)).1
  have hs : ∀ (x : World) (a b : Obj), x.obj u = some a → x.obj v = some b → a.kind = b.kind →
      step big x (.swap u v) = .ok ((x.put u (some b)).put v (some a)) := by
    intro x a b ha hb hk
    show Outcome.ok (Streams.swap x u v) = _
    unfold Streams.swap
    simp only [ha, hb, hk, if_true]
  have hget : ∀ i, (((w.put u (some b)).put v (some a))).vars[i]? =
      if v = i then some (some a) else if u = i then some (some b) else w.vars[i]? := by
    intro i
    show ((w.vars.set u (some b)).set v (some a))[i]? = _
    rw [List.getElem?_set, List.getElem?_set, List.length_set]
    by_cases h1 : v = i
    · rw [if_pos h1, if_pos h1, if_pos hvl]
    · rw [if_neg h1, if_neg h1]
      by_cases h2 : u = i
      · rw [if_pos h2, if_pos h2, if_pos hul]
      · rw [if_neg h2, if_neg h2]
  have hu : ((w.put u (some b)).put v (some a)).obj u = some b := by
    rw [obj_eq, hget]
    by_cases h1 : v = u
    · subst h1
      rw [ha] at hb
      cases hb
      rw [if_pos rfl]
    · rw [if_neg h1, if_pos rfl]
  have hv : ((w.put u (some b)).put v (some a)).obj v = some a := by
    rw [obj_eq, hget, if_pos rfl]
  refine ⟨_, hs w a b ha hb hk, hu, hv, rfl, ?_, ?_⟩
  · intro i h1 h2
    unfold World.obj
    rw [hget, if_neg (Ne.symm h2), if_neg (Ne.symm h1)]
  · rw [hs _ b a hu hv hk.symm]
    have : (((w.put u (some b)).put v (some a)).put u (some a)).put v (some b) = w := by
      show World.mk w.blocks ((((w.vars.set u (some b)).set v (some a)).set u (some a)).set v (some b)) = w
      have : ((((w.vars.set u (some b)).set v (some a)).set u (some a)).set v (some b)) = w.vars := by
        apply List.ext_getElem?
        intro i
        rw [List.getElem?_set, List.getElem?_set]
        simp only [List.length_set]
        by_cases h1 : v = i
        · rw [if_pos h1, if_pos hvl, ← h1, obj_eq.1 hb]
        · rw [if_neg h1]
          by_cases h2 : u = i
          · rw [if_pos h2, if_pos hul, ← h2, obj_eq.1 ha]
          · rw [if_neg h2]
            have := hget i
            rw [if_neg h1, if_neg h2] at this
            exact this
      rw [this]
    rw [this]

/-! ### Cases -/

/-- A program with everything in it: two blocks, a loan, swaps, moves and a taken-back buffer. -/
def busy : List Op :=
  [.alloc [1, 2, 3], .alloc [0, 0], .lend 0 .reader, .give 1 .writer, .write 3 (.write [8, 9]), .read 2 .get, .move 3,
   .moveResource 4, .swap 0 5, .give 0 .reader, .read 6 (.read [0, 0]), .destroy 5]

/-- What it leaves. -/
def busyEnd : World :=
  ⟨[⟨[1, 2, 3], false⟩, ⟨[8, 9], true⟩],
   [some ⟨.resource, 0, 0, none, false⟩, some ⟨.resource, 0, 0, none, false⟩, some ⟨.reader, 1, 3, some 0, false⟩,
    some ⟨.writer, 0, 0, none, false⟩, some ⟨.writer, 0, 0, none, false⟩, none, some ⟨.reader, 2, 2, some 1, true⟩]⟩

theorem busy_end : run false World.init busy = .ok busyEnd := by decide +kernel

/-- One block is freed, the other has its one owner. -/
example : Reached false busyEnd ∧ owners busyEnd 0 = 0 ∧ owners busyEnd 1 = 1 := ⟨⟨_, busy_end⟩, by decide, by decide⟩

/-- The hypotheses about an owning reader hold there for the variable 6, those about an owning writer for the variable 3 five
steps into the program. -/
example : Reached false busyEnd ∧ busyEnd.obj 6 = some ⟨.reader, 2, 2, some 1, true⟩ := ⟨⟨_, busy_end⟩, by decide⟩

example : run false World.init (busy.take 5) = .ok ⟨[⟨[1, 2, 3], true⟩, ⟨[8, 9], true⟩],
    [some ⟨.resource, 0, 0, some 0, true⟩, some ⟨.resource, 0, 0, none, false⟩, some ⟨.reader, 0, 3, some 0, false⟩,
     some ⟨.writer, 2, 2, some 1, true⟩]⟩ := by decide +kernel

/-- The reader numbered 2 was lent block 0, which is gone. -/
example : Reached false busyEnd ∧ Dangling busyEnd 2 ∧ step false busyEnd (.read 2 .get) = .ub :=
  ⟨⟨_, busy_end⟩, ⟨⟨.reader, 1, 3, some 0, false⟩, 0, ⟨[1, 2, 3], false⟩, by decide⟩, by decide +kernel⟩

/-- A dangling writer of two bytes: a call with three bytes is refused, one with two stores into freed memory. -/
example : ∃ w, run false World.init [.alloc [1, 2], .lend 0 .writer, .destroy 0] = .ok w ∧
    writerCall false w 1 (.write [7, 8, 9]) = .ok (w, some (.error .overflow)) ∧ writerCall false w 1 (.writeBE [7, 8]) = .ub :=
  ⟨⟨[⟨[1, 2], false⟩], [none, some ⟨.writer, 0, 2, some 0, false⟩]⟩, by decide +kernel⟩

example : ∀ op ∈ busy.drop 3, ∀ v k, op ≠ .lend v k := by
  intro op h v k
  simp only [busy, List.drop, List.mem_cons, List.not_mem_nil, or_false] at h
  rcases h with rfl | rfl | rfl | rfl | rfl | rfl | rfl | rfl | rfl <;> intro h <;> cases h

end Solace.Streams
