import Verif.Props.C118_LengthExtension
import Verif.Props.C58_C60_Exact
/-
C118 for pieces of any size. The number to go on from is what the counters stand for (`counted`, the number recorded in the padding),
which is the length of the message unless a piece has lost a carry (C58_exact). With it a digest can be extended in all cases.
-/
namespace Solace.Hash

open Spec

theorem carries_append (xs ys : List Nat) : ∀ (t : Nat) (t1 : Word), carries t t1 (xs ++ ys) = carries (t + xs.sum) (carries t t1 xs) ys := by
  induction xs with
  | nil => intro t t1; rfl
  | cons x xs ih =>
    intro t t1
    rw [List.cons_append, carries, carries, ih, List.sum_cons, Nat.add_assoc]

theorem counted_mod (pieces : List (List Byte)) : counted pieces % 64 = pieces.flatten.length % 64 := by
  rw [counted]; omega

theorem paddingFor_counted (le : Bool) (pieces : List (List Byte)) :
    pieces.flatten ++ paddingFor le (counted pieces) = padded (lengthField le (counted pieces)) pieces.flatten := by
  rw [paddingFor, padded, counted_mod, lengthField]
  simp only [List.append_assoc]

/-- The counters after the padding: those of an object set up from the number recorded in it. -/
theorem counters_after (pieces : List (List Byte)) (n : Nat) (hn : n ≤ 72) :
    carry pieces.flatten.length (carries 0 0 (pieces.map List.length)) n = (countersFor (counted pieces + n)).2 := by
  apply BitVec.eq_of_toNat_eq
  rw [carry, countersFor, counted]
  generalize carries 0 0 (pieces.map List.length) = T
  have hT := T.isLt
  simp only [BitVec.toNat_ofNat]
  have h1 : (1 : Word).toNat = 1 := rfl
  split
  · rw [BitVec.toNat_add, h1]
    omega
  · omega

theorem counted_extended (le : Bool) (pieces more : List (List Byte)) :
    counted (pieces ++ paddingFor le (counted pieces) :: more) =
      (pieces.flatten ++ paddingFor le (counted pieces) ++ more.flatten).length % 2 ^ 32 +
        2 ^ 32 * (carries (pieces.flatten ++ paddingFor le (counted pieces)).length
          (countersFor (counted pieces + (paddingFor le (counted pieces)).length)).2 (more.map List.length)).toNat := by
  rw [← counters_after pieces _ (paddingFor_length le _)]
  generalize paddingFor le (counted pieces) = P
  rw [counted, List.flatten_append, List.flatten_cons, ← List.append_assoc, List.map_append, carries_append, Nat.zero_add,
    ← List.length_flatten, List.map_cons, carries, ← List.length_append (as := pieces.flatten) (bs := P)]

/-- Set up from the recorded number and the chaining value, then given more: the same chaining value as the object that has seen
everything. -/
theorem resume_any {S : Type} (process : S → List Byte → S) (h : Host) (le : Bool) {init : S} (pieces more : List (List Byte))
    {c : Ctx S} (hi : Inv process init c (pieces.flatten ++ paddingFor le (counted pieces)))
    (hm : (pieces.flatten ++ paddingFor le (counted pieces)).length % 64 = 0) (buffer : List Byte) (hb : buffer.length = 64) :
    ∃ c1 c2, updates process ⟨(countersFor (counted pieces + (paddingFor le (counted pieces)).length)).1,
        (countersFor (counted pieces + (paddingFor le (counted pieces)).length)).2, c.state, buffer⟩ more = .ok c1 ∧
      pad h le process c1 = .ok c2 ∧
      c2.state = chain process init (lengthField le (counted (pieces ++ paddingFor le (counted pieces) :: more)))
        (pieces ++ paddingFor le (counted pieces) :: more).flatten := by
  have hr : Inv process init ⟨(countersFor (counted pieces + (paddingFor le (counted pieces)).length)).1,
        (countersFor (counted pieces + (paddingFor le (counted pieces)).length)).2, c.state, buffer⟩
        (pieces.flatten ++ paddingFor le (counted pieces)) := by
    refine ⟨hb, ?_, ?_⟩
    · have := hi.state
      rw [hm] at this ⊢
      simpa using this
    · simp only [countersFor, BitVec.toNat_ofNat, List.length_append]
      rw [counted]
      omega
  obtain ⟨c1, e1, i1, t1⟩ := updates_inv process more hr
  obtain ⟨c2, e2, s2, -⟩ := pad_chain process h le i1
  refine ⟨c1, c2, e1, e2, ?_⟩
  rw [s2, i1.total0, t1, counted_extended, List.flatten_append, List.flatten_cons, List.append_assoc]

/-- An object that has seen the message and its padding. -/
theorem padded_any {S : Type} (process : S → List Byte → S) (h : Host) (le : Bool) (init : S) (pieces : List (List Byte)) :
    ∃ c : Ctx S, Inv process init c (pieces.flatten ++ paddingFor le (counted pieces)) ∧
      c.state = chain process init (lengthField le (counted pieces)) pieces.flatten := by
  obtain ⟨c, e, i, t⟩ := updates_inv process pieces (inv_init process init (h.bytes 64).val (h.bytes 64).property)
  obtain ⟨c', e', s', i'⟩ := pad_chain process h le i
  have ht : c.total0.toNat + 2 ^ 32 * c.total1.toNat = counted pieces := by
    rw [counted, i.total0, t, List.nil_append]
    rfl
  rw [ht, List.nil_append] at s' i'
  exact ⟨c', by rw [paddingFor_counted]; exact i', s'⟩

/-- **C118** in full, MD5: for all pieces, of any size, the digest of the message, its padding and more pieces is computed from the digest
of the message and the number its padding records. -/
theorem C118_md5 (h : Host) (pieces more : List (List Byte)) :
    Md5.hash h (pieces ++ paddingFor true (counted pieces) :: more) = (do
      let d ← Md5.hash h pieces
      Md5.extend h d (counted pieces) more) := by
  rw [Md5.hash_eq h _, Md5.hash_eq h pieces, Outcome.bind_ok]
  obtain ⟨c, i, hc⟩ := padded_any (Md5.process h) h true (Md5.init h).state pieces
  have hi : Spec.Md5.init = Md5.view 0 (Md5.init h).state := rfl
  have hl : ∀ n, leBytes 8 (8 * n) = lengthField true n := fun _ => rfl
  have hd : Spec.Md5.md5WithLength (counted pieces) pieces.flatten = Spec.Md5.out (Md5.view 0 c.state) := by
    rw [Spec.Md5.md5WithLength, hc, Md5.chain_view, hl, hi]
  obtain ⟨c1, c2, e1, e2, hs⟩ := resume_any (Md5.process h) h true pieces more i (by rw [paddingFor_counted, padded_length])
    (h.bytes 64).val (h.bytes 64).property
  rw [hd, Md5.extend, Md5.resume_state, e1, Outcome.bind_ok, Md5.digest, e2, Outcome.bind_ok, Outcome.pure_def,
    Outcome.bind_ok, Outcome.pure_def]
  refine congrArg Outcome.ok ?_
  simp only
  rw [output_eq h true 16 _ rfl (by decide), hs, Spec.Md5.md5WithLength, hl, hi, ← Md5.chain_view, Spec.Md5.out]
  rfl

/-- **C118** in full, SHA-1. -/
theorem C118_sha1 (h : Host) (pieces more : List (List Byte)) :
    Sha1.hash h (pieces ++ paddingFor false (counted pieces) :: more) = (do
      let d ← Sha1.hash h pieces
      Sha1.extend h d (counted pieces) more) := by
  rw [Sha1.hash_eq h _, Sha1.hash_eq h pieces, Outcome.bind_ok]
  obtain ⟨c, i, hc⟩ := padded_any (Sha1.process h) h false (Sha1.init h).state pieces
  have hi : Spec.Sha1.init = Sha1.view 0 (Sha1.init h).state := rfl
  have hl : ∀ n, beBytes 8 (8 * n) = lengthField false n := fun _ => rfl
  have hd : Spec.Sha1.sha1WithLength (counted pieces) pieces.flatten = Spec.Sha1.out (Sha1.view 0 c.state) := by
    rw [Spec.Sha1.sha1WithLength, hc, Sha1.chain_view, hl, hi]
  obtain ⟨c1, c2, e1, e2, hs⟩ := resume_any (Sha1.process h) h false pieces more i (by rw [paddingFor_counted, padded_length])
    (h.bytes 64).val (h.bytes 64).property
  rw [hd, Sha1.extend, Sha1.resume_state, e1, Outcome.bind_ok, Sha1.digest, e2, Outcome.bind_ok, Outcome.pure_def,
    Outcome.bind_ok, Outcome.pure_def]
  refine congrArg Outcome.ok ?_
  simp only
  rw [output_eq h false 20 _ rfl (by decide), hs, Spec.Sha1.sha1WithLength, hl, hi, ← Sha1.chain_view, Spec.Sha1.out]
  rfl

/-- **C118** in full, SHA-256. -/
theorem C118_sha256 (h : Host) (pieces more : List (List Byte)) :
    Sha2.hash h (pieces ++ paddingFor false (counted pieces) :: more) = (do
      let d ← Sha2.hash h pieces
      Sha2.extend h d (counted pieces) more) := by
  rw [Sha2.hash_eq h _, Sha2.hash_eq h pieces, Outcome.bind_ok]
  obtain ⟨c, i, hc⟩ := padded_any (Sha2.process h) h false Sha2.init.state pieces
  have hi : Spec.Sha256.init = Sha2.bufOf Sha2.init.state := by decide +kernel
  have hl : ∀ n, beBytes 8 (8 * n) = lengthField false n := fun _ => rfl
  obtain ⟨hv, hlen⟩ := Sha2.chain_view h pieces.flatten false (counted pieces) Sha2.init.state rfl
  have hd : Spec.Sha256.sha256WithLength (counted pieces) pieces.flatten = Spec.Sha256.out (Sha2.bufOf c.state) := by
    rw [Spec.Sha256.sha256WithLength, hc, hv, hl, hi]
  obtain ⟨c1, c2, e1, e2, hs⟩ := resume_any (Sha2.process h) h false pieces more i (by rw [paddingFor_counted, padded_length])
    (h.bytes 64).val (h.bytes 64).property
  rw [hd, Sha2.extend, Sha2.resume_state _ (by rw [hc]; exact hlen), e1, Outcome.bind_ok, Sha2.digest, e2,
    Outcome.bind_ok, Outcome.pure_def, Outcome.bind_ok, Outcome.pure_def]
  refine congrArg Outcome.ok ?_
  simp only
  generalize counted (pieces ++ paddingFor false (counted pieces) :: more) = n at hs
  generalize (pieces ++ paddingFor false (counted pieces) :: more).flatten = m at hs
  obtain ⟨hv2, hlen2⟩ := Sha2.chain_view h m false n Sha2.init.state rfl
  rw [← hs] at hv2 hlen2
  rw [output_eq h false 32 _ (by rw [hlen2]) (by decide), Spec.Sha256.sha256WithLength]
  rw [hl, hi, ← hv2, Spec.Sha256.out, ← Sha2.list8 _ hlen2]
  rfl

/-- The number recorded is the length of the message, modulo 2^64, exactly if the pieces have not lost a carry, for messages of less
than 2^61 bytes. -/
theorem C118_number (pieces : List (List Byte)) (h : pieces.flatten.length < 2 ^ 61) :
    counted pieces = pieces.flatten.length ↔ Gentle pieces := by
  have h1 := counted_lost pieces
  have h2 := lost_le (pieces.map List.length) 0
  rw [← List.length_flatten] at h2
  have h3 : counted pieces < 2 ^ 64 := by
    rw [counted]
    have := (carries 0 0 (pieces.map List.length)).isLt
    omega
  rw [gentle_iff]
  omega

/-- One function of a digest, the recorded number and the appended pieces gives the digest of everything, for every message and cut. -/
theorem C118_forge (h : Host) : ∃ forge : List Byte → Nat → List (List Byte) → Outcome (List Byte),
    ∀ pieces more d, Sha2.hash h pieces = .ok d →
      Sha2.hash h (pieces ++ paddingFor false (counted pieces) :: more) = forge d (counted pieces) more := by
  refine ⟨Sha2.extend h, fun pieces more d hd => ?_⟩
  rw [C118_sha256, hd, Outcome.bind_ok]

/-- Two messages with one recorded number and one digest keep one digest under every continuation, whatever their pieces. -/
theorem C118_collision (h : Host) (pieces pieces' more : List (List Byte)) (hl : counted pieces = counted pieces') :
    (Md5.hash h pieces = Md5.hash h pieces' → Md5.hash h (pieces ++ paddingFor true (counted pieces) :: more) =
      Md5.hash h (pieces' ++ paddingFor true (counted pieces) :: more)) ∧
    (Sha1.hash h pieces = Sha1.hash h pieces' → Sha1.hash h (pieces ++ paddingFor false (counted pieces) :: more) =
      Sha1.hash h (pieces' ++ paddingFor false (counted pieces) :: more)) ∧
    (Sha2.hash h pieces = Sha2.hash h pieces' → Sha2.hash h (pieces ++ paddingFor false (counted pieces) :: more) =
      Sha2.hash h (pieces' ++ paddingFor false (counted pieces) :: more)) := by
  refine ⟨fun hd => ?_, fun hd => ?_, fun hd => ?_⟩
  · rw [C118_md5, hl, C118_md5, hd]
  · rw [C118_sha1, hl, C118_sha1, hd]
  · rw [C118_sha256, hl, C118_sha256, hd]

/-- One piece of 8 GiB is recorded as 4 GiB; the extension goes on from there. -/
example (m : List Byte) (hm : m.length = 2 ^ 33) : counted [m] ≠ [m].flatten.length := by
  have : [m].flatten.length = 2 ^ 33 := by simpa using hm
  rw [Ne, C118_number [m] (by omega), gentle_single]
  omega
example : counted [[1#8, 2#8]] = 2 := rfl

end Solace.Hash
