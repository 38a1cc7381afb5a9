import Verif.Lemmas.DigestObjects
import Verif.Props.C61_C62_Hashing
/-
C138: digests as objects that own memory.
-/
namespace Solace.Hash.Digests
open PathMem (Policy Heap Owns Fair)
open Prog (Msg Kind)

/-- **C138**: any program with hash objects and digests, whichever requests for memory are refused, does what the program with
messages and byte strings does. It sees the same: two digests compare equal exactly if they are the same bytes. Every digest alive is
the published digest of the message it was computed from, or the bytes it was made of, wherever it was moved. The blocks of
memory given out are exactly those of the digests alive, each once. -/
theorem C138_programs (h : Host) (g : Policy) (hg : Fair g) (ops : List Op) (hw : Within h g .start ops) :
    ∃ w, run h g .start ops = .ok w ∧ w.seen = (specRun g .start ops).seen ∧
      w.digests.map (Option.map DObj.bytes) = (specRun g .start ops).digests ∧ Owns w.heap (blocksOf w.digests) := by
  obtain ⟨w, e, ha⟩ := agree_run hg ops (agree_start h) hw
  exact ⟨w, e, ha.seen, ha.values, ha.owns⟩

/-- **C138**: when all digests are destroyed no memory is left. -/
theorem C138_all_returned (h : Host) (g : Policy) (hg : Fair g) (ops : List Op) (hw : Within h g .start ops)
    (hd : ∀ d ∈ (specRun g .start ops).digests, d = none) : ∃ w, run h g .start ops = .ok w ∧ w.heap.live = [] := by
  obtain ⟨w, e, -, hv, ho⟩ := C138_programs h g hg ops hw
  refine ⟨w, e, ?_⟩
  have hn : blocksOf w.digests = [] := by
    rw [blocksOf, List.flatMap_eq_nil_iff]
    intro o hm
    cases o with
    | none => rfl
    | some d =>
      exfalso
      have := hd (some d.bytes) (by rw [← hv]; exact List.mem_map.mpr ⟨some d, hm, rfl⟩)
      cases this
  rw [hn] at ho
  cases hl : w.heap.live with
  | nil => rfl
  | cons b bs =>
    have := ho.count b
    rw [hl, List.count_cons_self, List.count_nil] at this
    omega

/-- **C138**: as long as memory is granted, the digests of a program that only hashes are those of C128, in the order of the calls. -/
theorem C138_granted (g : Policy) (hg : ∀ k n, granted g k n = true) (ops : List Prog.Op) :
    (specRun g .start (ops.map .hash)).digests = (Prog.specRun .empty ops).out.map some := by
  have key : ∀ (ops : List Prog.Op) (s : SWorld) (p : Prog.SWorld), s.msgs = p.msgs → s.digests = p.out.map some →
      (specRun g s (ops.map .hash)).digests = (Prog.specRun p ops).out.map some := by
    intro ops
    induction ops with
    | nil => intro s p _ hd; exact hd
    | cons op rest ih =>
      intro s p hm hd
      refine ih (specStep g s (.hash op)) (Prog.specStep p op) ?_ ?_
      · cases op with
        | digest x =>
          rw [specStep, Prog.specStep, hm]
          cases p.msgs[x]? <;> first | exact hm | rfl
        | make k => rw [specStep, Prog.specStep, Prog.specStep, hm]; intro x hx; cases hx
        | copy x =>
          rw [specStep, Prog.specStep, Prog.specStep, hm]
          · dsimp only; cases p.msgs[x]? <;> rfl
          · intro x hx; cases hx
        | assign x y =>
          rw [specStep, Prog.specStep, Prog.specStep, hm]
          · dsimp only
            cases p.msgs[x]? with
            | none => rfl
            | some a => cases p.msgs[y]? with
              | none => rfl
              | some b => dsimp only; split <;> rfl
          · intro x hx; cases hx
        | assignBase x y => rw [specStep, Prog.specStep, Prog.specStep, hm]; intro x hx; cases hx
        | update x a b =>
          rw [specStep, Prog.specStep, Prog.specStep, hm]
          · dsimp only; cases p.msgs[x]? <;> rfl
          · intro x hx; cases hx
      · cases op with
        | digest x =>
          rw [specStep, Prog.specStep, hm]
          cases p.msgs[x]? with
          | none => exact hd
          | some m =>
            dsimp only
            rw [added, if_pos (hg _ _), hd, List.map_append]
            rfl
        | make k => exact hd
        | copy x =>
          have : (Prog.specStep p (.copy x)).out = p.out := by rw [Prog.specStep]; cases p.msgs[x]? <;> rfl
          rw [this]; exact hd
        | assign x y =>
          have : (Prog.specStep p (.assign x y)).out = p.out := by
            rw [Prog.specStep]
            cases p.msgs[x]? with
            | none => rfl
            | some a => cases p.msgs[y]? with
              | none => rfl
              | some b => dsimp only; split <;> rfl
          rw [this]; exact hd
        | assignBase x y => exact hd
        | update x a b =>
          have : (Prog.specStep p (.update x a b)).out = p.out := by rw [Prog.specStep]; cases p.msgs[x]? <;> rfl
          rw [this]; exact hd
  exact key ops _ _ rfl rfl

theorem specRun_append (g : Policy) (w : SWorld) (a b : List Op) : specRun g w (a ++ b) = specRun g (specRun g w a) b :=
  List.foldl_append ..

theorem within_append {h : Host} {g : Policy} : ∀ (a b : List Op) (w : SWorld), Within h g w a → Within h g (specRun g w a) b →
    Within h g w (a ++ b) := by
  intro a
  induction a with
  | nil => intro b w _ hb; exact hb
  | cons op a ih => intro b w ha hb; exact ⟨ha.1, ih b _ ha.2 hb⟩

/-- **C138**, trying again: a call of `digest` that finds no memory raises an exception, and has padded the message; the next call gives
the digest of the padded message. -/
theorem C138_again (h : Host) (g : Policy) (hg : Fair g) (ops : List Op) (hw : Within h g .start ops) (x : Nat) (m : Msg)
    (hm : (specRun g .start ops).msgs[x]? = some m) (h1 : ∀ n, granted g (specRun g .start ops).asked n = false)
    (h2 : ∀ n, granted g ((specRun g .start ops).asked + 1) n = true) :
    ∃ w, run h g .start (ops ++ [.hash (.digest x), .hash (.digest x)]) = .ok w ∧
      w.digests.map (Option.map DObj.bytes) = (specRun g .start ops).digests ++ [some m.padded.published] := by
  obtain ⟨w, e, -, hv, -⟩ := C138_programs h g hg (ops ++ [.hash (.digest x), .hash (.digest x)])
    (within_append _ _ _ hw ⟨trivial, trivial, trivial⟩)
  refine ⟨w, e, ?_⟩
  rw [hv, specRun_append]
  generalize specRun g .start ops = s at *
  have hl : x < s.msgs.length := (List.getElem?_eq_some_iff.mp hm).1
  have e1 : specStep g s (.hash (.digest x)) = { s with msgs := s.msgs.set x m.padded, asked := s.asked + 1 } := by
    rw [specStep, hm]
    dsimp only
    rw [added, h1, if_neg (by decide)]
  show (specStep g (specStep g s (.hash (.digest x))) (.hash (.digest x))).digests = _
  rw [e1, specStep]
  dsimp only
  rw [List.getElem?_set_self hl]
  dsimp only
  rw [added, if_pos (h2 _)]

/-- **C138** (partial: Murmur3 and the stub of SHA-3): there the digest obtained in the second call is the one of the message. Missing
are MD5, SHA-1 and SHA-256, see the next theorem. -/
theorem C138_again_partial (h : Host) (g : Policy) (hg : Fair g) (ops : List Op) (hw : Within h g .start ops) (x : Nat) (m : Msg)
    (hm : (specRun g .start ops).msgs[x]? = some m) (h1 : ∀ n, granted g (specRun g .start ops).asked n = false)
    (h2 : ∀ n, granted g ((specRun g .start ops).asked + 1) n = true) (hb : ¬ m.Block) :
    ∃ w, run h g .start (ops ++ [.hash (.digest x), .hash (.digest x)]) = .ok w ∧
      w.digests.map (Option.map DObj.bytes) = (specRun g .start ops).digests ++ [some m.published] := by
  obtain ⟨w, e, hv⟩ := C138_again h g hg ops hw x m hm h1 h2
  rw [Prog.padded_other hb] at hv
  exact ⟨w, e, hv⟩

/-- A manager that refuses the first request only. -/
def firstRefused (k n : Nat) : Except Err MutView := if k = 0 then .error .nomem else .ok ⟨false, List.replicate n 0⟩

theorem fair_first : Fair firstRefused := by
  intro k n v hv
  rw [firstRefused] at hv
  split at hv
  · cases hv
  · cases hv; exact ⟨rfl, List.length_replicate ..⟩

theorem kinds_differ (k : Kind) (hk : k = .md5 ∨ k = .sha1 ∨ k = .sha256) : (Msg.new k).padded.published ≠ (Msg.new k).published := by
  have key : ∀ {o : Outcome (List Byte × List Byte)} {a b c d : List Byte}, o = .ok (a, b) → (∃ x y, o = .ok (x, y) ∧ x ≠ y) → a = c → b = d →
      d ≠ c := by
    intro o a b c d h1 h2 h3 h4 he
    obtain ⟨x, y, e, hn⟩ := h2
    rw [h1] at e
    cases e
    exact hn (h3.trans (he.symm.trans h4.symm))
  rcases hk with rfl | rfl | rfl
  · exact key (C61_second_md5 Md5.someHost [] (by simp)) (C61_md5 Md5.someHost) rfl rfl
  · exact key (C61_second_sha1 Md5.someHost [] (by simp)) (C61_sha1 Md5.someHost) rfl rfl
  · exact key (C61_second_sha256 Md5.someHost [] (by simp)) (C61_sha256 Md5.someHost) rfl rfl

/-- **C138**, negation: with MD5, SHA-1 and SHA-256, a program that catches the exception and asks again for the digest of the message
without bytes gets another digest than the published one. -/
theorem C138_again_wrong (h : Host) (k : Kind) (hk : k = .md5 ∨ k = .sha1 ∨ k = .sha256) :
    ∃ w d, run h firstRefused .start [.hash (.make k), .hash (.digest 0), .hash (.digest 0)] = .ok w ∧
      w.digests.map (Option.map DObj.bytes) = [some d] ∧ d ≠ (Msg.new k).published := by
  obtain ⟨w, e, hv⟩ := C138_again h firstRefused fair_first [.hash (.make k)] ⟨trivial, trivial⟩ 0 (Msg.new k) rfl (fun _ => rfl) (fun _ => rfl)
  exact ⟨w, _, e, hv, kinds_differ k hk⟩

/-! ### Examples -/

/-- A manager that refuses the second request only. -/
def secondRefused (k n : Nat) : Except Err MutView := if k = 1 then .error .nomem else .ok ⟨false, List.replicate n 0⟩

example (h : Host) : Within h secondRefused .start [.make [1, 2], .make [3], .move 0, .make [1, 2], .same 1 2, .assign 0 1, .index 0 1,
    .index 1 0, .destroy 0, .destroy 1, .destroy 2] := by simp [Within]

/-- The second digest is not made; the moved digest equals the one made of the same bytes. -/
example : (specRun secondRefused .start [.make [1, 2], .make [3], .move 0, .make [1, 2], .same 1 2, .assign 0 1, .index 0 1,
    .index 1 0, .destroy 0, .destroy 1, .destroy 2]) =
    ⟨[], 3, [none, none, none], [.truth true, .byte (some 2), .byte none]⟩ := by
  simp [specRun, specStep, added, granted, secondRefused, value, SWorld.start, Except.toBool]

example (h : Host) : ∃ w, run h firstRefused .start
    ([.hash (.make .sha3)] ++ [.hash (.digest 0), .hash (.digest 0)]) = .ok w ∧
    w.digests.map (Option.map DObj.bytes) = [] ++ [some (List.replicate 32 0#8)] :=
  C138_again_partial h firstRefused fair_first [.hash (.make .sha3)] ⟨trivial, trivial⟩ 0 .sha3 rfl (fun _ => rfl) (fun _ => rfl)
    (fun hb => hb)

example : ∀ k n, granted (fun _ n => .ok ⟨false, List.replicate n 0⟩) k n = true := fun _ _ => rfl

end Solace.Hash.Digests
