import Verif.Lemmas.HashProgram
/-
C128: programs with hash objects.
-/
namespace Solace.Hash.Prog
open Spec

/-- **C128**: any program that makes, copies, assigns, feeds and finishes hash objects — in any order, interleaved in any way — computes
the digests that the program with messages does: of MD5, SHA-1 and SHA-256 the published digest of the message, which a digest itself
extends by the padding of the standard; of Murmur3 the hash of the last input; of Sha3 zeros. -/
theorem C128_programs (h : Host) (ops : List Op) (hw : Within h .empty ops) :
    ∃ w, run h .empty ops = .ok w ∧ w.out = (specRun .empty ops).out := by
  obtain ⟨w, e, ha⟩ := agree_run ops (w := .empty) (s := .empty)
    ⟨rfl, rfl, fun i o m h1 _ => by simp [World.empty] at h1⟩ hw
  exact ⟨w, e, ha.out⟩

/-- **C128** (partial: MD5, SHA-1 and SHA-256 objects are left alone after their digest; Murmur3 objects forget all but the last input):
each digest computed is the published digest of all bytes given to the object, or to the object it was copied from before. -/
theorem C128_plain_partial (h : Host) (ops : List Op) (hw : Within h .empty ops) (ho : Once ⟨[], []⟩ ops) :
    ∃ w, run h .empty ops = .ok w ∧ w.out = (plainRun ⟨[], []⟩ ops).out := by
  obtain ⟨w, e, hs⟩ := C128_programs h ops hw
  have hn := nearly_run ops (p := ⟨[], []⟩) (s := .empty) ⟨rfl, rfl, fun i o m h1 _ => by simp at h1⟩ ho
  exact ⟨w, e, by rw [hs, hn.out]⟩

/-- **C128**: whatever a program does, a variable reports the name it was made with; a copy that of its original. -/
theorem C128_names (h : Host) (ops : List Op) : ∀ (w w' : World), run h w ops = .ok w' →
    w'.objs.map Obj.name = ops.foldl namesStep (w.objs.map Obj.name) := by
  have set_same : ∀ (l : List Obj) (x : Nat) (o o' : Obj), l[x]? = some o → o'.name = o.name →
      (l.set x o').map Obj.name = l.map Obj.name := by
    intro l x o o' hx hn
    rw [List.map_set, hn]
    apply List.ext_getElem? 
    intro i
    by_cases hi : x = i
    · subst hi
      rw [List.getElem?_set_self', List.getElem?_map, hx]
      rfl
    · rw [List.getElem?_set_ne hi]
  have upd : ∀ (o o' : Obj) (a : Nat) (b : List Byte), o.update h a b = .ok o' → o'.name = o.name := by
    intro o o' a b e
    cases o <;> simp only [Obj.update] at e
    case md5 c => cases u : Hash.update (Md5.process h) c b <;> rw [u] at e <;> cases e; rfl
    case sha1 c => cases u : Hash.update (Sha1.process h) c b <;> rw [u] at e <;> cases e; rfl
    case sha256 c => cases u : Hash.update (Sha2.process h) c b <;> rw [u] at e <;> cases e; rfl
    case sha3 c => cases e; rfl
    case murmur32 c => cases u : c.update h a b <;> rw [u] at e <;> cases e; rfl
    case murmur128 c => cases u : c.update h a b <;> rw [u] at e <;> cases e; rfl
  have dig : ∀ (o : Obj) (r : List Byte × Obj), o.digest h = .ok r → r.2.name = o.name := by
    intro o r e
    cases o <;> simp only [Obj.digest] at e
    case md5 c => cases u : Md5.digest h c <;> rw [u] at e <;> cases e; rfl
    case sha1 c => cases u : Sha1.digest h c <;> rw [u] at e <;> cases e; rfl
    case sha256 c => cases u : Sha2.digest h c <;> rw [u] at e <;> cases e; rfl
    case sha3 c => cases e; rfl
    case murmur32 c => cases e; rfl
    case murmur128 c => cases e; rfl
  induction ops with
  | nil => intro w w' e; cases e; rfl
  | cons op rest ih =>
    intro w w' e
    rw [run] at e
    cases es : step h w op with
    | throws => rw [es] at e; cases e
    | terminate => rw [es] at e; cases e
    | ub => rw [es] at e; cases e
    | ok w1 =>
      rw [es, Outcome.bind_ok] at e
      rw [ih w1 w' e, List.foldl_cons]
      congr 1
      cases op with
      | make k =>
        cases es
        cases k <;> simp [namesStep, make, Obj.name, Kind.called]
      | copy x =>
        rw [step] at es
        rw [namesStep, List.getElem?_map]
        cases ex : w.objs[x]? with
        | none => rw [ex] at es; cases es; simp
        | some o => rw [ex] at es; cases es; simp
      | assign x y =>
        rw [step] at es
        show _ = w.objs.map Obj.name
        cases ex : w.objs[x]? with
        | none => rw [ex] at es; cases es; rfl
        | some o =>
          cases ey : w.objs[y]? with
          | none => rw [ex, ey] at es; cases es; rfl
          | some p =>
            rw [ex, ey] at es
            cases es
            split
            · next hn => exact set_same _ _ _ _ ex hn.symm
            · rfl
      | assignBase x y => cases es; rfl
      | update x a b =>
        rw [step] at es
        show _ = w.objs.map Obj.name
        cases ex : w.objs[x]? with
        | none => rw [ex] at es; cases es; rfl
        | some o =>
          rw [ex] at es
          dsimp only at es
          cases eo : o.update h a b with
          | ok o' => rw [eo] at es; cases es; exact set_same _ _ _ _ ex (upd _ _ _ _ eo)
          | throws => rw [eo] at es; cases es
          | terminate => rw [eo] at es; cases es
          | ub => rw [eo] at es; cases es
      | digest x =>
        rw [step] at es
        show _ = w.objs.map Obj.name
        cases ex : w.objs[x]? with
        | none => rw [ex] at es; cases es; rfl
        | some o =>
          rw [ex] at es
          dsimp only at es
          cases eo : o.digest h with
          | ok r => rw [eo] at es; cases es; exact set_same _ _ _ _ ex (dig _ _ eo)
          | throws => rw [eo] at es; cases es
          | terminate => rw [eo] at es; cases es
          | ub => rw [eo] at es; cases es

/-- The digests of a run. -/
def outs (h : Host) (ops : List Op) : Option (List (List Byte)) :=
  match run h .empty ops with
  | .ok w => some w.out
  | _ => none

theorem outs_eq (h : Host) (ops : List Op) (hw : Within h .empty ops) : outs h ops = some (specRun .empty ops).out := by
  obtain ⟨w, e, ho⟩ := C128_programs h ops hw
  rw [outs, e, ← ho]

/-- **C128, what the plain reading misses**: an object given "a" after a digest of nothing does not have the digest of "a" but of the
padding followed by "a"; on every machine. -/
theorem C128_reuse (h : Host) : ∃ d e, outs h [.make .md5, .digest 0, .update 0 0 [97#8], .digest 0] = some [d, e] ∧
    d = Spec.Md5.md5 [] ∧ e = Spec.Md5.md5 (padded (leBytes 8 0) [] ++ [97#8]) ∧ e ≠ Spec.Md5.md5 [97#8] := by
  refine ⟨_, _, ?_, rfl, rfl, by decide +kernel⟩
  rw [outs_eq h]
  · rfl
  · refine ⟨trivial, trivial, ?_, trivial, trivial⟩
    intro m hm
    cases hm
    show [97#8].length < 2 ^ 32
    decide

/-- **C128, assignment through the base class**: it compiles, and copies nothing, while the assignment of the class itself does. -/
theorem C128_slicing (h : Host) :
    outs h [.make .md5, .make .md5, .update 1 0 [97#8], .assignBase 0 1, .digest 0] = some [Spec.Md5.md5 []] ∧
    outs h [.make .md5, .make .md5, .update 1 0 [97#8], .assign 0 1, .digest 0] = some [Spec.Md5.md5 [97#8]] ∧
    Spec.Md5.md5 [] ≠ Spec.Md5.md5 [97#8] := by
  refine ⟨?_, ?_, by decide +kernel⟩
  · rw [outs_eq h]
    · rfl
    · refine ⟨trivial, trivial, ?_, trivial, trivial, trivial⟩
      intro m hm
      cases hm
      show [97#8].length < 2 ^ 32
      decide
  · rw [outs_eq h]
    · rfl
    · refine ⟨trivial, trivial, ?_, trivial, trivial, trivial⟩
      intro m hm
      cases hm
      show [97#8].length < 2 ^ 32
      decide

/-- A program within the limits in which nothing is used after its digest: a SHA-1 object is copied half way, the copy goes on with other
bytes, beside a Murmur3 object that is used twice. -/
def sample : List Op :=
  [.make .sha1, .update 0 1 [97#8], .copy 0, .update 0 2 [98#8], .update 1 3 [99#8], .make (.murmur32 7), .update 2 8 [97#8], .digest 2,
    .digest 2, .digest 0, .digest 1]

theorem sample_within (h : Host) (hh : h.big = false) : Within h .empty sample := by
  have l : ∀ x : Byte, [x].length < 2 ^ 32 := fun x => by show 1 < 2 ^ 32; decide
  refine ⟨trivial, ?_, trivial, ?_, ?_, trivial, ?_, trivial, trivial, trivial, trivial, trivial⟩ <;> intro m hm <;> cases hm
  · exact l _
  · exact l _
  · exact l _
  · exact ⟨hh, rfl, by show 1 < 2 ^ 31; decide⟩

theorem sample_once : Once ⟨[], []⟩ sample := by
  refine ⟨trivial, ?_, trivial, ?_, ?_, trivial, ?_, ?_, ?_, ?_, ?_, trivial⟩ <;> intro p hp hb <;> cases hp <;>
    first | rfl | exact hb.elim

example (h : Host) (hh : h.big = false) : ∃ w, run h .empty sample = .ok w ∧
    w.out = [beBytes 4 (Murmur3.x86_32 7 [97#8]).toNat, beBytes 4 (Murmur3.x86_32 7 [97#8]).toNat,
      Spec.Sha1.sha1 [97#8, 98#8], Spec.Sha1.sha1 [97#8, 99#8]] :=
  C128_plain_partial h sample (sample_within h hh) sample_once

example (h : Host) (hh : h.big = false) : ∃ w, run h .empty sample = .ok w ∧ w.objs.map Obj.name = ["SHA1", "SHA1", "MURMUR3-32"] := by
  obtain ⟨w, e, -⟩ := C128_programs h sample (sample_within h hh)
  exact ⟨w, e, C128_names h sample _ _ e⟩

end Solace.Hash.Prog
