import Verif.Props.C61_C62_Hashing
import Verif.Spec.HashProgram
/-
Lemmas for C128.
-/
namespace Solace.Hash.Prog
open Spec

variable {S : Type}

/-- The object was made by these updates. -/
def Made (process : S → List Byte → S) (init : Ctx S) (c : Ctx S) (m : List Byte) : Prop :=
  ∃ pieces, updates process init pieces = .ok c ∧ pieces.flatten = m ∧ ∀ p ∈ pieces, p.length < 2 ^ 32

theorem made_init (process : S → List Byte → S) (init : Ctx S) : Made process init init [] :=
  ⟨[], rfl, rfl, by simp⟩

theorem updates_append (process : S → List Byte → S) (ps qs : List (List Byte)) : ∀ (x y : Ctx S), updates process x ps = .ok y →
    updates process x (ps ++ qs) = updates process y qs := by
  induction ps with
  | nil =>
    intro x y hxy
    rw [updates] at hxy
    cases hxy
    rfl
  | cons p ps ih =>
    intro x y hxy
    rw [updates] at hxy
    rw [List.cons_append, updates]
    cases hu : update process x p with
    | ok z => rw [hu, Outcome.bind_ok] at hxy; rw [Outcome.bind_ok]; exact ih z y hxy
    | throws => rw [hu] at hxy; cases hxy
    | terminate => rw [hu] at hxy; cases hxy
    | ub => rw [hu] at hxy; cases hxy

theorem made_update (process : S → List Byte → S) (init : S) (buffer : List Byte) (hb : buffer.length = 64) {c : Ctx S} {m : List Byte}
    (hm : Made process ⟨0, 0, init, buffer⟩ c m) (b : List Byte) (hl : b.length < 2 ^ 32) :
    ∃ c', update process c b = .ok c' ∧ Made process ⟨0, 0, init, buffer⟩ c' (m ++ b) := by
  obtain ⟨pieces, e, rfl, hp⟩ := hm
  obtain ⟨c1, e1, i, -⟩ := updates_inv process pieces (inv_init process init buffer hb)
  rw [e] at e1
  cases e1
  obtain ⟨c2, e2, -, -⟩ := update_inv process i b
  refine ⟨c2, e2, pieces ++ [b], ?_, by simp, ?_⟩
  · rw [updates_append process pieces [b] _ _ e, updates, e2, Outcome.bind_ok, updates]
  · intro q hq
    rcases List.mem_append.mp hq with h | h
    · exact hp q h
    · rw [List.mem_singleton.mp h]; exact hl

theorem made_pad (process : S → List Byte → S) (h : Host) (le : Bool) (init : S) (buffer : List Byte) (hb : buffer.length = 64)
    {c : Ctx S} {m : List Byte} (hm : Made process ⟨0, 0, init, buffer⟩ c m) :
    ∃ c', pad h le process c = .ok c' ∧ Made process ⟨0, 0, init, buffer⟩ c' (padded (lengthField le m.length) m) := by
  obtain ⟨pieces, e, rfl, hp⟩ := hm
  obtain ⟨c1, c', p, l, e1, e2, e3, h1, h2, hf⟩ := pad_updates process h le init buffer hb pieces
  rw [e] at e1
  cases e1
  refine ⟨c', e2, pieces ++ [p, l], e3, ?_, more_pieces hp h1 h2⟩
  rw [counted_eq le pieces hp] at hf
  rw [List.flatten_append, ← hf]
  simp

theorem md5_digest (h : Host) {c : Ctx Md5.Regs} {m : List Byte} (hm : Made (Md5.process h) (Md5.init h) c m) :
    ∃ c', Md5.digest h c = .ok (Spec.Md5.md5 m, c') ∧ Made (Md5.process h) (Md5.init h) c' (padded (leBytes 8 (8 * m.length)) m) := by
  obtain ⟨c', e, hm'⟩ := made_pad (Md5.process h) h true (Md5.init h).state _ (h.bytes 64).property hm
  refine ⟨c', ?_, hm'⟩
  obtain ⟨pieces, eu, rfl, hp⟩ := hm
  have hd := Md5.C58_md5_partial h pieces hp
  rw [Md5.hash, eu, Outcome.bind_ok, Md5.digest, e, Outcome.bind_ok, Outcome.pure_def, Outcome.bind_ok, Outcome.pure_def] at hd
  rw [Md5.digest, e, Outcome.bind_ok, Outcome.pure_def, ← Outcome.ok.inj hd]

theorem sha1_digest (h : Host) {c : Ctx Sha1.Regs} {m : List Byte} (hm : Made (Sha1.process h) (Sha1.init h) c m) :
    ∃ c', Sha1.digest h c = .ok (Spec.Sha1.sha1 m, c') ∧
      Made (Sha1.process h) (Sha1.init h) c' (padded (beBytes 8 (8 * m.length)) m) := by
  obtain ⟨c', e, hm'⟩ := made_pad (Sha1.process h) h false (Sha1.init h).state _ (h.bytes 64).property hm
  refine ⟨c', ?_, hm'⟩
  obtain ⟨pieces, eu, rfl, hp⟩ := hm
  have hd := Sha1.C59_sha1_partial h pieces hp
  rw [Sha1.hash, eu, Outcome.bind_ok, Sha1.digest, e, Outcome.bind_ok, Outcome.pure_def, Outcome.bind_ok, Outcome.pure_def] at hd
  rw [Sha1.digest, e, Outcome.bind_ok, Outcome.pure_def, ← Outcome.ok.inj hd]

theorem sha256_digest (h : Host) {c : Ctx (List Word)} {m : List Byte} (hm : Made (Sha2.process h) Sha2.init c m) :
    ∃ c', Sha2.digest h c = .ok (Sha256.sha256 m, c') ∧ Made (Sha2.process h) Sha2.init c' (padded (beBytes 8 (8 * m.length)) m) := by
  obtain ⟨c', e, hm'⟩ := made_pad (Sha2.process h) h false Sha2.init.state (List.replicate 64 0#8) (by simp) hm
  refine ⟨c', ?_, hm'⟩
  obtain ⟨pieces, eu, rfl, hp⟩ := hm
  have hd := Sha2.C60_sha256_partial h pieces hp
  rw [Sha2.hash, eu, Outcome.bind_ok, Sha2.digest, e, Outcome.bind_ok, Outcome.pure_def, Outcome.bind_ok, Outcome.pure_def] at hd
  rw [Sha2.digest, e, Outcome.bind_ok, Outcome.pure_def, ← Outcome.ok.inj hd]

/-- An object and the message it stands for. -/
def Rep (h : Host) : Obj → Msg → Prop
  | .md5 c, .md5 m => Made (Md5.process h) (Md5.init h) c m
  | .sha1 c, .sha1 m => Made (Sha1.process h) (Sha1.init h) c m
  | .sha256 c, .sha256 m => Made (Sha2.process h) Sha2.init c m
  | .sha3 c, .sha3 => c = Sha3.init
  | .murmur32 c, .murmur32 s none => c = .new s
  | .murmur32 c, .murmur32 s (some b) => c = ⟨Murmur3.x86_32 s b, s⟩
  | .murmur128 c, .murmur128 s none => c = .new s
  | .murmur128 c, .murmur128 s (some b) => c = ⟨Murmur3.x64_128 s b, s⟩ ∧ h.big = false
  | _, _ => False

theorem rep_new (h : Host) (k : Kind) : Rep h (make h k) (Msg.new k) := by
  cases k <;> first | exact made_init _ _ | rfl

theorem rep_name {h : Host} {o o' : Obj} {m m' : Msg} (h1 : Rep h o m) (h2 : Rep h o' m') :
    o.name = o'.name ↔ m.algorithm = m'.algorithm := by
  cases o <;> cases m <;> first | (exact h1.elim) | skip
  all_goals cases o' <;> cases m' <;> first | (exact h2.elim) | simp [Obj.name, Msg.algorithm]

theorem rep_update {h : Host} {o : Obj} {m : Msg} (hr : Rep h o m) {addr : Nat} {b : List Byte} (ht : m.Takes h addr b) :
    ∃ o', o.update h addr b = .ok o' ∧ Rep h o' (m.give b) := by
  cases o with
  | md5 c =>
    cases m with
    | md5 m =>
      obtain ⟨c', e, hm⟩ := made_update (Md5.process h) (Md5.init h).state _ (h.bytes 64).property hr b ht
      exact ⟨.md5 c', by rw [Obj.update, e]; rfl, hm⟩
    | _ => exact hr.elim
  | sha1 c =>
    cases m with
    | sha1 m =>
      obtain ⟨c', e, hm⟩ := made_update (Sha1.process h) (Sha1.init h).state _ (h.bytes 64).property hr b ht
      exact ⟨.sha1 c', by rw [Obj.update, e]; rfl, hm⟩
    | _ => exact hr.elim
  | sha256 c =>
    cases m with
    | sha256 m =>
      obtain ⟨c', e, hm⟩ := made_update (Sha2.process h) Sha2.init.state (List.replicate 64 0#8) (by simp) hr b ht
      exact ⟨.sha256 c', by rw [Obj.update, e]; rfl, hm⟩
    | _ => exact hr.elim
  | sha3 c =>
    cases m with
    | sha3 => exact ⟨.sha3 c, rfl, hr⟩
    | _ => exact hr.elim
  | murmur32 c =>
    cases m with
    | murmur32 s l =>
      have hs : c.seed = s := by cases l <;> (cases hr; rfl)
      refine ⟨.murmur32 ⟨Murmur3.x86_32 s b, s⟩, ?_, rfl⟩
      rw [Obj.update, Murmur.M32.update, ht.1, Murmur.x86_32_eq addr b _ ht.2.1 ht.2.2, hs]
      cases c
      cases hs
      rfl
    | _ => exact hr.elim
  | murmur128 c =>
    cases m with
    | murmur128 s l =>
      have hs : c.seed = s := by
        cases l with
        | none => cases hr; rfl
        | some b => cases hr.1; rfl
      refine ⟨.murmur128 ⟨Murmur3.x64_128 s b, s⟩, ?_, rfl, ht.1⟩
      rw [Obj.update, Murmur.M128.update, ht.1, Murmur.x64_128_eq addr b _ ht.2.1 ht.2.2, hs]
      cases c
      cases hs
      rfl
    | _ => exact hr.elim

theorem rep_digest {h : Host} {o : Obj} {m : Msg} (hr : Rep h o m) :
    ∃ o', o.digest h = .ok (m.published, o') ∧ Rep h o' m.padded := by
  cases o with
  | md5 c =>
    cases m with
    | md5 m =>
      obtain ⟨c', e, hm⟩ := md5_digest h hr
      exact ⟨.md5 c', by rw [Obj.digest, e]; rfl, hm⟩
    | _ => exact hr.elim
  | sha1 c =>
    cases m with
    | sha1 m =>
      obtain ⟨c', e, hm⟩ := sha1_digest h hr
      exact ⟨.sha1 c', by rw [Obj.digest, e]; rfl, hm⟩
    | _ => exact hr.elim
  | sha256 c =>
    cases m with
    | sha256 m =>
      obtain ⟨c', e, hm⟩ := sha256_digest h hr
      exact ⟨.sha256 c', by rw [Obj.digest, e]; rfl, hm⟩
    | _ => exact hr.elim
  | sha3 c =>
    cases m with
    | sha3 =>
      cases hr
      refine ⟨.sha3 Sha3.init, ?_, rfl⟩
      have e : (Sha3.digest h Sha3.init).1 = List.replicate 32 0#8 := C62_sha3 h []
      rw [Obj.digest, e]
      rfl
    | _ => exact hr.elim
  | murmur32 c =>
    cases m with
    | murmur32 s l =>
      refine ⟨.murmur32 c, ?_, hr⟩
      have e : (c.digest h).1 = beBytes 4 c.hash.toNat := by
        rw [Murmur.M32.digest, output_eq h false 4 _ rfl (by decide)]
        simp
      rw [Obj.digest, e]
      cases l <;> cases hr
      · have z : beBytes 4 (Murmur.M32.new s).hash.toNat = List.replicate 4 0#8 := by show beBytes 4 0 = _; decide +kernel
        rw [z]
        rfl
      · rfl
    | _ => exact hr.elim
  | murmur128 c =>
    cases m with
    | murmur128 s l =>
      refine ⟨.murmur128 c, ?_, hr⟩
      cases l with
      | none =>
        cases hr
        have z : ((Murmur.M128.new s).digest h).1 = List.replicate 16 0#8 := by
          show hostRepr h.big 8 0 ++ hostRepr h.big 8 0 = _
          cases h.big <;> decide +kernel
        rw [Obj.digest, z]
        rfl
      | some b =>
        cases hr.1
        rw [Obj.digest, Murmur.M128.digest, hr.2, hostRepr, hostRepr, if_neg (by decide), if_neg (by decide), leRepr_eq,
          leRepr_eq]
        rfl
    | _ => exact hr.elim

/-- The two worlds agree. -/
structure Agree (h : Host) (w : World) (s : SWorld) : Prop where
  out : w.out = s.out
  len : w.objs.length = s.msgs.length
  rep : ∀ (i : Nat) (o : Obj) (m : Msg), w.objs[i]? = some o → s.msgs[i]? = some m → Rep h o m

theorem lookup {α β : Type} {xs : List α} {ys : List β} (hl : xs.length = ys.length) {i : Nat} {a : α} (hi : xs[i]? = some a) :
    ∃ b, ys[i]? = some b := by
  obtain ⟨hlt, -⟩ := List.getElem?_eq_some_iff.mp hi
  exact ⟨ys[i]'(by omega), List.getElem?_eq_getElem (by omega)⟩

theorem lookup_none {α β : Type} {xs : List α} {ys : List β} (hl : xs.length = ys.length) {i : Nat} (hi : xs[i]? = none) :
    ys[i]? = none := by
  rw [List.getElem?_eq_none_iff] at hi ⊢
  omega

theorem agree_push {h : Host} {w : World} {s : SWorld} (ha : Agree h w s) {o : Obj} {m : Msg} (hr : Rep h o m) :
    Agree h { w with objs := w.objs ++ [o] } { s with msgs := s.msgs ++ [m] } := by
  refine ⟨ha.out, by simp [ha.len], ?_⟩
  intro i a b h1 h2
  dsimp only at h1 h2
  by_cases hi : i < w.objs.length
  · rw [List.getElem?_append_left hi] at h1
    rw [List.getElem?_append_left (by rw [← ha.len]; exact hi)] at h2
    exact ha.rep i a b h1 h2
  · rw [List.getElem?_append_right (by omega)] at h1
    rw [List.getElem?_append_right (by rw [← ha.len]; omega), ← ha.len] at h2
    cases hk : i - w.objs.length with
    | zero => rw [hk] at h1 h2; cases h1; cases h2; exact hr
    | succ n => rw [hk] at h1; cases h1

theorem agree_set {h : Host} {w : World} {s : SWorld} (ha : Agree h w s) (x : Nat) {o : Obj} {m : Msg} (hr : Rep h o m)
    (d : List (List Byte)) : Agree h ⟨w.objs.set x o, w.out ++ d⟩ ⟨s.msgs.set x m, s.out ++ d⟩ := by
  refine ⟨by rw [ha.out], by simp [ha.len], ?_⟩
  intro i a b h1 h2
  dsimp only at h1 h2
  by_cases hx : x = i
  · subst hx
    rw [List.getElem?_set_self'] at h1 h2
    cases e1 : w.objs[x]? <;> rw [e1] at h1 <;> cases h1
    cases e2 : s.msgs[x]? <;> rw [e2] at h2 <;> cases h2
    exact hr
  · rw [List.getElem?_set_ne hx] at h1 h2
    exact ha.rep i a b h1 h2

theorem agree_step {h : Host} {w : World} {s : SWorld} (ha : Agree h w s) (op : Op)
    (hw : match op with
      | .update x addr b => ∀ m, s.msgs[x]? = some m → m.Takes h addr b
      | _ => True) : ∃ w', step h w op = .ok w' ∧ Agree h w' (specStep s op) := by
  cases op with
  | make k => exact ⟨_, rfl, agree_push ha (rep_new h k)⟩
  | copy x =>
    rw [step, specStep]
    cases e : w.objs[x]? with
    | none => rw [lookup_none ha.len e]; exact ⟨_, rfl, ha⟩
    | some o =>
      obtain ⟨m, e'⟩ := lookup ha.len e
      rw [e']
      exact ⟨_, rfl, agree_push ha (ha.rep x o m e e')⟩
  | assign x y =>
    rw [step, specStep]
    cases e : w.objs[x]? with
    | none => rw [lookup_none ha.len e]; exact ⟨_, rfl, ha⟩
    | some o =>
      obtain ⟨m, e'⟩ := lookup ha.len e
      rw [e']
      cases f : w.objs[y]? with
      | none => rw [lookup_none ha.len f]; exact ⟨_, rfl, ha⟩
      | some p =>
        obtain ⟨n, f'⟩ := lookup ha.len f
        rw [f']
        have hn := rep_name (ha.rep x o m e e') (ha.rep y p n f f')
        refine ⟨_, rfl, ?_⟩
        dsimp only
        by_cases hq : o.name = p.name
        · rw [if_pos hq, if_pos (hn.mp hq)]
          have := agree_set ha x (ha.rep y p n f f') []
          rwa [List.append_nil, List.append_nil] at this
        · rw [if_neg hq, if_neg (fun hc => hq (hn.mpr hc))]
          exact ha
  | assignBase x y => exact ⟨_, rfl, ha⟩
  | update x addr b =>
    rw [step, specStep]
    cases e : w.objs[x]? with
    | none => rw [lookup_none ha.len e]; exact ⟨_, rfl, ha⟩
    | some o =>
      obtain ⟨m, e'⟩ := lookup ha.len e
      rw [e']
      obtain ⟨o', eo, ho⟩ := rep_update (ha.rep x o m e e') (hw m e')
      dsimp only
      rw [eo, Outcome.bind_ok, Outcome.pure_def]
      have := agree_set ha x ho []
      rw [List.append_nil, List.append_nil] at this
      exact ⟨_, rfl, this⟩
  | digest x =>
    rw [step, specStep]
    cases e : w.objs[x]? with
    | none => rw [lookup_none ha.len e]; exact ⟨_, rfl, ha⟩
    | some o =>
      obtain ⟨m, e'⟩ := lookup ha.len e
      rw [e']
      obtain ⟨o', eo, ho⟩ := rep_digest (ha.rep x o m e e')
      dsimp only
      rw [eo, Outcome.bind_ok, Outcome.pure_def]
      exact ⟨_, rfl, agree_set ha x ho [m.published]⟩

theorem agree_run {h : Host} (ops : List Op) : ∀ {w : World} {s : SWorld}, Agree h w s → Within h s ops →
    ∃ w', run h w ops = .ok w' ∧ Agree h w' (specRun s ops) := by
  induction ops with
  | nil => intro w s ha _; exact ⟨w, rfl, ha⟩
  | cons op rest ih =>
    intro w s ha hw
    obtain ⟨w1, e1, ha1⟩ := agree_step ha op hw.1
    obtain ⟨w2, e2, ha2⟩ := ih ha1 hw.2
    exact ⟨w2, by rw [run, e1, Outcome.bind_ok, e2], ha2⟩

/-! ### The naive reading -/

/-- A message of the naive reading and one of the precise reading: equal unless a digest was taken. -/
def Near (p : Plain) (m : Msg) : Prop :=
  p.msg.algorithm = m.algorithm ∧ (p.taken = false ∨ ¬ p.msg.Block → m = p.msg)

structure Nearly (p : PWorld) (s : SWorld) : Prop where
  out : p.out = s.out
  len : p.objs.length = s.msgs.length
  near : ∀ (i : Nat) (a : Plain) (m : Msg), p.objs[i]? = some a → s.msgs[i]? = some m → Near a m

theorem algorithm_give (b : List Byte) (m : Msg) : (m.give b).algorithm = m.algorithm := by cases m <;> rfl

theorem algorithm_padded (m : Msg) : m.padded.algorithm = m.algorithm := by cases m <;> rfl

theorem padded_other {m : Msg} (hm : ¬ m.Block) : m.padded = m := by
  cases m <;> first | rfl | exact (hm trivial).elim

theorem block_give (b : List Byte) (m : Msg) : (m.give b).Block ↔ m.Block := by cases m <;> exact Iff.rfl

theorem nearly_push {p : PWorld} {s : SWorld} (ha : Nearly p s) {a : Plain} {m : Msg} (hr : Near a m) :
    Nearly { p with objs := p.objs ++ [a] } { s with msgs := s.msgs ++ [m] } := by
  refine ⟨ha.out, by simp [ha.len], ?_⟩
  intro i x y h1 h2
  dsimp only at h1 h2
  by_cases hi : i < p.objs.length
  · rw [List.getElem?_append_left hi] at h1
    rw [List.getElem?_append_left (by rw [← ha.len]; exact hi)] at h2
    exact ha.near i x y h1 h2
  · rw [List.getElem?_append_right (by omega)] at h1
    rw [List.getElem?_append_right (by rw [← ha.len]; omega), ← ha.len] at h2
    cases hk : i - p.objs.length with
    | zero => rw [hk] at h1 h2; cases h1; cases h2; exact hr
    | succ n => rw [hk] at h1; cases h1

theorem nearly_set {p : PWorld} {s : SWorld} (ha : Nearly p s) (x : Nat) {a : Plain} {m : Msg} (hr : Near a m)
    (d : List (List Byte)) : Nearly ⟨p.objs.set x a, p.out ++ d⟩ ⟨s.msgs.set x m, s.out ++ d⟩ := by
  refine ⟨by rw [ha.out], by simp [ha.len], ?_⟩
  intro i y z h1 h2
  dsimp only at h1 h2
  by_cases hx : x = i
  · subst hx
    rw [List.getElem?_set_self'] at h1 h2
    cases e1 : p.objs[x]? <;> rw [e1] at h1 <;> cases h1
    cases e2 : s.msgs[x]? <;> rw [e2] at h2 <;> cases h2
    exact hr
  · rw [List.getElem?_set_ne hx] at h1 h2
    exact ha.near i y z h1 h2

theorem nearly_step {p : PWorld} {s : SWorld} (ha : Nearly p s) (op : Op)
    (hw : match op with
      | .update x _ _ => ∀ q, p.objs[x]? = some q → q.msg.Block → q.taken = false
      | .digest x => ∀ q, p.objs[x]? = some q → q.msg.Block → q.taken = false
      | _ => True) : Nearly (plainStep p op) (specStep s op) := by
  have same : ∀ {q : Plain} {m : Msg}, Near q m → (q.msg.Block → q.taken = false) → m = q.msg := by
    intro q m hn hq
    by_cases hb : q.msg.Block
    · exact hn.2 (Or.inl (hq hb))
    · exact hn.2 (Or.inr hb)
  cases op with
  | make k => exact nearly_push ha ⟨rfl, fun _ => rfl⟩
  | copy x =>
    rw [plainStep, specStep]
    cases e : p.objs[x]? with
    | none => rw [lookup_none ha.len e]; exact ha
    | some q =>
      obtain ⟨m, e'⟩ := lookup ha.len e
      rw [e']
      exact nearly_push ha (ha.near x q m e e')
  | assign x y =>
    rw [plainStep, specStep]
    cases e : p.objs[x]? with
    | none => rw [lookup_none ha.len e]; exact ha
    | some q =>
      obtain ⟨m, e'⟩ := lookup ha.len e
      rw [e']
      cases f : p.objs[y]? with
      | none => rw [lookup_none ha.len f]; exact ha
      | some r =>
        obtain ⟨n, f'⟩ := lookup ha.len f
        rw [f']
        dsimp only
        have h1 := (ha.near x q m e e').1
        have h2 := (ha.near y r n f f').1
        rw [h1, h2]
        split
        · have := nearly_set ha x (ha.near y r n f f') []
          rwa [List.append_nil, List.append_nil] at this
        · exact ha
  | assignBase x y => exact ha
  | update x addr b =>
    rw [plainStep, specStep]
    cases e : p.objs[x]? with
    | none => rw [lookup_none ha.len e]; exact ha
    | some q =>
      obtain ⟨m, e'⟩ := lookup ha.len e
      rw [e']
      have hm := same (ha.near x q m e e') (hw q e)
      have := nearly_set ha x (a := { q with msg := q.msg.give b }) (m := m.give b) ⟨by rw [hm], fun _ => by rw [hm]⟩ []
      rwa [List.append_nil, List.append_nil] at this
  | digest x =>
    rw [plainStep, specStep]
    cases e : p.objs[x]? with
    | none => rw [lookup_none ha.len e]; exact ha
    | some q =>
      obtain ⟨m, e'⟩ := lookup ha.len e
      rw [e']
      have hm := same (ha.near x q m e e') (hw q e)
      subst hm
      refine nearly_set ha x ⟨(algorithm_padded _).symm, ?_⟩ [q.msg.published]
      rintro (h | h)
      · cases h
      · exact padded_other h

theorem nearly_run (ops : List Op) : ∀ {p : PWorld} {s : SWorld}, Nearly p s → Once p ops → Nearly (plainRun p ops) (specRun s ops) := by
  induction ops with
  | nil => intro p s ha _; exact ha
  | cons op rest ih => intro p s ha hw; exact ih (nearly_step ha op hw.1) hw.2

end Solace.Hash.Prog
