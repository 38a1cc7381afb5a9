import Verif.Model.Sha2Smaller
import Verif.Props.C60_Sha256
/-
C103: both variants of SHA-256 compute the same.
-/
namespace Solace.Hash.Sha2.Smaller
open Spec

theorem beWord_eq (h : Host) (data : List Byte) (hd : data.length = 64) (i : Nat) (hi : i < 16) :
    BitVec.ofNat 32 (leValue ((data.drop (4 * i)).take 4).reverse) = beWord data i := by
  have e1 := readWords_block h false data hd (List.replicate 16 0#32) (by simp)
  rw [ByteReader.ofView, readWords_eq h false data (by omega) (List.replicate 16 0#32) 0 (by simp; omega)] at e1
  have e2 := congrArg (fun l => l[i]?) e1
  simpa [hi] using e2

theorem rotate_eq (a b c d e f g x : Word) : rotate [a, b, c, d, e, f, g, x] = [x, a, b, c, d, e, f, g] := rfl

/-- `P` on the array, in the order of the array, and then rotated, is one step of the standard. -/
theorem rotate_P (A : List Word) (hA : A.length = 8) (x k : Word) :
    (rotate (P A [0, 1, 2, 3, 4, 5, 6, 7] x k)).length = 8 ∧
    bufOf (rotate (P A [0, 1, 2, 3, 4, 5, 6, 7] x k)) = view 1 (P A (indices 0) x k) := by
  match A, hA with
  | [_, _, _, _, _, _, _, _], _ => exact ⟨rfl, rfl⟩

/-- The locals before step `i`. -/
structure Before (data : List Byte) (i : Nat) (s : Locals) (b : Sha256.Buf) : Prop where
  reader : s.reader = ⟨data, 4 * min i 16, data.length⟩
  len : s.A.length = 8
  regs : bufOf s.A = b
  wlen : s.W.length = 64
  sched : ∀ t, t < i → at' s.W t = Sha256.W (beWord data) t

/-- Reading word `i` of the block. -/
theorem read_word (big : Bool) (data : List Byte) (hd : data.length = 64) (i : Nat) (hi : i < 16) (old : Nat) :
    (⟨data, 4 * i, data.length⟩ : ByteReader).readBEInt big 4 old =
      (⟨data, 4 * i + 4, data.length⟩, .ok none, leValue ((data.drop (4 * i)).take 4).reverse) := by
  have hd' : data.length < 2 ^ 64 := by rw [hd]; decide
  have hle : 4 * i ≤ data.length := by omega
  have hle4 : 4 * i + 4 ≤ data.length := by omega
  exact readBEInt_stored _ _ _ ⟨hle, Nat.le_refl _, hd'⟩ _ hle4

theorem schedule_before (h : Host) {data : List Byte} (hd : data.length = 64) {i : Nat} (hi : i < 64) {s : Locals}
    {b : Sha256.Buf} (hb : Before data i s b) :
    (schedule h s i).A = s.A ∧ (schedule h s i).reader = ⟨data, 4 * min (i + 1) 16, data.length⟩ ∧
    (schedule h s i).W.length = 64 ∧ ∀ t, t < i + 1 → at' (schedule h s i).W t = Sha256.W (beWord data) t := by
  rw [schedule]
  by_cases h16 : i < 16
  · rw [if_pos h16]
    have hx := read_word h.big data hd i h16 (at' s.W i).toNat
    rw [hb.reader, Nat.min_eq_left (Nat.le_of_lt h16), hx]
    simp only
    refine ⟨trivial, ?_, by rw [List.length_set]; exact hb.wlen, ?_⟩
    · rw [Nat.min_eq_left (by omega), Nat.mul_succ]
    · intro t ht
      rw [at_set _ _ _ _ (by rw [hb.wlen]; exact hi), beWord_eq h data hd i h16]
      by_cases e : t = i
      · rw [if_pos e, e, Sha256.W.eq_def, if_pos h16]
      · rw [if_neg e]; exact hb.sched t (by omega)
  · rw [if_neg h16]
    have hold : Holds (beWord data) s.W i := ⟨hb.wlen, fun t ht => hb.sched t (by omega)⟩
    obtain ⟨-, hR⟩ := R_spec hold (by omega) hi
    refine ⟨rfl, ?_, hR.1, fun t ht => hR.2 t (by omega)⟩
    show s.reader = _
    rw [hb.reader, Nat.min_eq_right (by omega), Nat.min_eq_right (by omega)]

theorem body_before (h : Host) {data : List Byte} (hd : data.length = 64) {i : Nat} (hi : i < 64) {s : Locals}
    {b : Sha256.Buf} (hb : Before data i s b) : Before data (i + 1) (body h s i) (Sha256.step (beWord data) b i) := by
  obtain ⟨hA, hr, hl, hw⟩ := schedule_before h hd hi hb
  have hx : at' (schedule h s i).W i = Sha256.W (beWord data) i := hw i (by omega)
  obtain ⟨l8, hv⟩ := rotate_P s.A hb.len (Sha256.W (beWord data) i) (Sha256.K i)
  refine ⟨hr, ?_, ?_, hl, hw⟩
  · simp only [body]
    rw [hA, hx, K_at _ hi]
    exact l8
  · simp only [body]
    rw [hA, hx, K_at _ hi, hv, view_P _ hb.len, show view 0 s.A = b from hb.regs, Sha256.step]

theorem loop_before (h : Host) {data : List Byte} (hd : data.length = 64) (s : List Word) (hs : s.length = 8) :
    ∀ n, n ≤ 64 → Before data n ((List.range n).foldl (body h) ⟨ByteReader.ofView data, s, (h.words 64).val⟩)
      ((List.range n).foldl (Sha256.step (beWord data)) (bufOf s)) := by
  intro n
  induction n with
  | zero => intro _; exact ⟨rfl, hs, rfl, (h.words 64).property, fun t ht => absurd ht (by omega)⟩
  | succ n ih =>
    intro hn
    rw [List.range_succ, List.foldl_append, List.foldl_append]
    exact body_before h hd (by omega) (ih (by omega))

theorem process_spec (h : Host) (s : List Word) (hs : s.length = 8) (data : List Byte) (hd : data.length = 64) :
    bufOf (process h s data) = Sha256.compress (bufOf s) data := by
  have hreg := (loop_before h hd s hs 64 (Nat.le_refl _)).regs
  rw [process]
  generalize (List.range 64).foldl (body h) _ = F at hreg ⊢
  rw [Sha256.compress, ← hreg]
  rfl

theorem process_len (h : Host) (s : List Word) (data : List Byte) : (process h s data).length = 8 := by
  simp [process]

/-- **C103**, one block: both variants take every state to the same state, whatever uninitialised memory holds. -/
theorem C103_block (h h' : Host) (s : List Word) (hs : s.length = 8) (data : List Byte) (hd : data.length = 64) :
    process h s data = Sha2.process h' s data := by
  have e : bufOf (process h s data) = bufOf (Sha2.process h' s data) := by rw [process_spec h s hs data hd, process_eq h' s hs data hd]
  rw [list8 _ (process_len h s data), list8 _ (Sha2.process_length h' s data), e]

example : init.state.length = 8 ∧ (List.replicate 64 0#8).length = 64 := ⟨rfl, rfl⟩
#guard process Md5.someHost init.state (List.replicate 64 0#8) ≠ init.state

theorem chain_view' (h : Host) (m : List Byte) (le : Bool) (n : Nat) (s : List Word) (hs : s.length = 8) :
    bufOf (chain (process h) s (lengthField le n) m) = chain Sha256.compress (bufOf s) (lengthField le n) m ∧
    (chain (process h) s (lengthField le n) m).length = 8 := by
  rw [chain, chain]
  have hall : ∀ b ∈ blocksOf (padded (lengthField le n) m), b.length = 64 := blocksOf_length le n m
  generalize blocksOf (padded (lengthField le n) m) = bs at hall
  induction bs generalizing s with
  | nil => exact ⟨rfl, hs⟩
  | cons b bs ih =>
    rw [List.foldl_cons, List.foldl_cons, ← process_spec h s hs b (hall b (List.mem_cons_self ..))]
    exact ih _ (process_len h s b) fun b hb => hall b (List.mem_cons_of_mem _ hb)

theorem hash_spec (h : Host) (pieces : List (List Byte)) :
    hash h pieces = .ok (Sha256.sha256WithLength (counted pieces) pieces.flatten) := by
  rw [hash]
  obtain ⟨c, e, i, t⟩ := updates_inv (process h) pieces (inv_init (process h) init.state (List.replicate 64 0#8) (by simp))
  have e' : updates (process h) init pieces = .ok c := e
  rw [e', Outcome.bind_ok, digest]
  obtain ⟨c', e2, hs, -⟩ := pad_chain (process h) h false i
  rw [e2, Outcome.bind_ok, Outcome.pure_def, Outcome.bind_ok, Outcome.pure_def]
  refine congrArg Outcome.ok ?_
  have ht : c.total0.toNat + 2 ^ 32 * c.total1.toNat = counted pieces := by
    rw [counted, i.total0, t, List.nil_append]
    rfl
  rw [ht, List.nil_append] at hs
  simp only
  obtain ⟨hv, hlen⟩ := chain_view' h pieces.flatten false (counted pieces) init.state rfl
  rw [← hs] at hv hlen
  rw [output_eq h false 32 _ (by rw [hlen]) (by decide), Sha256.sha256WithLength]
  have hl : beBytes 8 (8 * counted pieces) = lengthField false (counted pieces) := rfl
  have hi : Spec.Sha256.init = bufOf init.state := by decide +kernel
  rw [hl, hi, ← hv, Sha256.out, ← list8 _ hlen]
  rfl

/-- **C103**, whole messages: the digests of the two variants are equal for every way of giving a message in pieces of any
length, and on all machines. -/
theorem C103_same_digest (h h' : Host) (pieces : List (List Byte)) : hash h pieces = Sha2.hash h' pieces := by
  rw [hash_spec, Sha2.hash_eq]

/-- **C103**: with pieces below 4 GiB this is the SHA-256 digest of the message. -/
theorem C103_sha256 (h : Host) (pieces : List (List Byte)) (hp : ∀ p ∈ pieces, p.length < 2 ^ 32) :
    hash h pieces = .ok (Sha256.sha256 pieces.flatten) := by
  rw [C103_same_digest h h, C60_sha256_partial h pieces hp]

example : ∀ p ∈ [Md5.bytesOf [97], Md5.bytesOf [98, 99]], p.length < 2 ^ 32 := by decide

#guard hash Md5.someHost [Md5.bytesOf [97], Md5.bytesOf [98, 99]] = .ok (Md5.bytesOf [0xba, 0x78, 0x16, 0xbf, 0x8f, 0x01,
  0xcf, 0xea, 0x41, 0x41, 0x40, 0xde, 0x5d, 0xae, 0x22, 0x23, 0xb0, 0x03, 0x61, 0xa3, 0x96, 0x17, 0x7a, 0x9c, 0xb4, 0x10,
  0xff, 0x61, 0xf2, 0x00, 0x15, 0xad])

end Solace.Hash.Sha2.Smaller
