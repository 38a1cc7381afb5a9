import Verif.Model.Hashing
import Verif.Spec.Hashing
import Verif.Lemmas.Chunks
import Verif.Props.C06_Endian
/-
The buffering and padding of Model/Hashing compute the chaining value of Spec/Hashing, for any compression function.
-/
namespace Solace.Hash
open Spec

variable {S : Type} (process : S → List Byte → S)

theorem cons_eq {A : Type} {a b : A} {l m : List A} (h : a = b) (h' : l = m) : a :: l = b :: m := by rw [h, h']

theorem blocks_long (s : S) (m : List Byte) (h : 64 ≤ m.length) :
    blocks process s m = blocks process (process s (m.take 64)) (m.drop 64) := by
  rw [blocks, if_pos h]

theorem blocks_short (s : S) (m : List Byte) (h : m.length < 64) : blocks process s m = (s, m) := by
  rw [blocks, if_neg (by omega)]

theorem blocks_append (n : Nat) : ∀ (s : S) (a b : List Byte), a.length = n →
    blocks process s (a ++ b) = blocks process (blocks process s a).1 ((blocks process s a).2 ++ b) := by
  induction n using Nat.strongRecOn with
  | ind n ih =>
    intro s a b hn
    by_cases h : 64 ≤ a.length
    · rw [blocks_long _ _ _ h, blocks_long _ _ _ (by rw [List.length_append]; omega), List.take_append_of_le_length h,
        List.drop_append_of_le_length h]
      exact ih (n - 64) (by omega) _ _ _ (by rw [List.length_drop, hn])
    · rw [blocks_short _ _ a (by omega)]

theorem blocks_rest (n : Nat) : ∀ (s : S) (a : List Byte), a.length = n →
    (blocks process s a).2.length = a.length % 64 := by
  induction n using Nat.strongRecOn with
  | ind n ih =>
    intro s a hn
    by_cases h : 64 ≤ a.length
    · rw [blocks_long _ _ _ h, ih (n - 64) (by omega) _ _ (by rw [List.length_drop, hn]), List.length_drop,
        Nat.mod_eq_sub_mod h]
    · rw [blocks_short _ _ a (by omega), Nat.mod_eq_of_lt (by omega)]

theorem blocks_chain (n : Nat) : ∀ (s : S) (a : List Byte), a.length = n →
    (blocks process s a).1 = (blocksOf a).foldl process s := by
  induction n using Nat.strongRecOn with
  | ind n ih =>
    intro s a hn
    by_cases h : 64 ≤ a.length
    · rw [blocks_long _ _ _ h, ih (n - 64) (by omega) _ _ (by rw [List.length_drop, hn])]
      have hb : blocksOf a = a.take 64 :: blocksOf (a.drop 64) := by
        rw [blocksOf, blocksOf, List.length_drop]
        have : a.length / 64 = (a.length - 64) / 64 + 1 := by omega
        rw [this, List.range_succ_eq_map, List.map_cons, List.map_map]
        refine cons_eq (by simp) ?_
        refine List.map_congr_left fun i _ => ?_
        simp only [Function.comp, List.drop_drop]
        rw [Nat.mul_succ, Nat.add_comm]
      rw [hb, List.foldl_cons]
    · rw [blocks_short _ _ a (by omega), blocksOf, Nat.div_eq_of_lt (by omega)]
      rfl

/-! ### update -/

/-- What the context is after the bytes `m`, whatever the second counter says. -/
structure Inv (init : S) (c : Ctx S) (m : List Byte) : Prop where
  buffer : c.buffer.length = 64
  state : (c.state, c.buffer.take (m.length % 64)) = blocks process init m
  total0 : c.total0.toNat = m.length % 2 ^ 32

theorem and63 (w : Word) : (w &&& 0x3F#32).toNat = w.toNat % 64 := by
  rw [BitVec.toNat_and]
  exact Nat.and_two_pow_sub_one_eq_mod w.toNat 6

theorem Inv.left {init : S} {c : Ctx S} {m : List Byte} (h : Inv process init c m) :
    (c.total0 &&& 0x3F#32).toNat = m.length % 64 := by
  rw [and63, h.total0, Nat.mod_mod_of_dvd _ (by decide)]

theorem memcpy_fits (buffer : List Byte) (off : Nat) (src : List Byte) (h : off + src.length ≤ buffer.length) :
    memcpy buffer off src = .ok (ByteWriter.overwrite buffer off src) := by
  rw [memcpy, if_pos h]

theorem overwrite_take_end (buffer : List Byte) (off : Nat) (src : List Byte) (h : off ≤ buffer.length) :
    (ByteWriter.overwrite buffer off src).take (off + src.length) = buffer.take off ++ src := by
  rw [ByteWriter.overwrite]
  have hl : (buffer.take off ++ src).length = off + src.length := by
    rw [List.length_append, List.length_take, Nat.min_eq_left h]
  rw [List.take_append_of_le_length (by omega), List.take_of_length_le (by omega)]

theorem finish_spec (c : Ctx S) (left : Nat) (input : List Byte) (hb : c.buffer.length = 64)
    (hl : left = 0 ∨ left + input.length < 64) :
    ∃ c', finish process c left input = .ok c' ∧ c'.buffer.length = 64 ∧ c'.total0 = c.total0 ∧ c'.total1 = c.total1 ∧
      c'.state = (blocks process c.state input).1 ∧
      c'.buffer.take (left + (blocks process c.state input).2.length) =
        c.buffer.take left ++ (blocks process c.state input).2 := by
  have hr := blocks_rest process _ c.state input rfl
  have hfit : left + (blocks process c.state input).2.length ≤ c.buffer.length := by
    rw [hr, hb]
    rcases hl with hl | hl
    · omega
    · rw [Nat.mod_eq_of_lt (by omega)]; omega
  rw [finish]
  split
  · rw [memcpy_fits _ _ _ hfit]
    refine ⟨_, rfl, ?_, rfl, rfl, rfl, ?_⟩
    · show (ByteWriter.overwrite _ _ _).length = 64
      rw [ByteWriter.overwrite_length _ _ _ hfit, hb]
    · exact overwrite_take_end _ _ _ (by omega)
  · rename_i h0
    have h0 : (blocks process c.state input).2 = [] := List.eq_nil_of_length_eq_zero (by omega)
    refine ⟨_, rfl, hb, rfl, rfl, rfl, ?_⟩
    simp [h0]

/-- The second counter after `n` more bytes. -/
def carry (t0 : Nat) (t1 : Word) (n : Nat) : Word := if (t0 + n) % 2 ^ 32 < n then t1 + 1 else t1

theorem update_inv {init : S} {c : Ctx S} {m : List Byte} (h : Inv process init c m) (input : List Byte) :
    ∃ c', update process c input = .ok c' ∧ Inv process init c' (m ++ input) ∧
      c'.total1 = carry m.length c.total1 input.length := by
  rw [update]
  by_cases h0 : input.length = 0
  · rw [if_pos h0]
    have : input = [] := List.eq_nil_of_length_eq_zero h0
    subst this
    refine ⟨c, rfl, by rw [List.append_nil]; exact h, ?_⟩
    simp [carry]
  · rw [if_neg h0]
    simp only [h.left]
    have ht0 : (c.total0 + BitVec.ofNat 32 input.length).toNat = (m ++ input).length % 2 ^ 32 := by
      rw [BitVec.toNat_add, h.total0, BitVec.toNat_ofNat, List.length_append]
      omega
    have hc0 : (count c input.length).total0.toNat = (m ++ input).length % 2 ^ 32 := ht0
    have hc1 : (count c input.length).total1 = carry m.length c.total1 input.length := by
      show (if (c.total0 + BitVec.ofNat 32 input.length).toNat < input.length then c.total1 + 1 else c.total1) = _
      rw [ht0, carry, List.length_append]
    have hcs : (count c input.length).state = c.state := rfl
    have hcb : (count c input.length).buffer = c.buffer := rfl
    generalize count c input.length = d at *
    have hstate := h.state
    have hm64 : m.length % 64 < 64 := Nat.mod_lt _ (by decide)
    have hb1 : (blocks process init m).1 = c.state := by rw [← hstate]
    have hb2 : (blocks process init m).2 = c.buffer.take (m.length % 64) := by rw [← hstate]
    have hgoal : blocks process init (m ++ input) = blocks process c.state (c.buffer.take (m.length % 64) ++ input) := by
      rw [blocks_append process _ init m input rfl, hb1, hb2]
    have hbl : (c.buffer.take (m.length % 64)).length = m.length % 64 := by
      rw [List.length_take, h.buffer, Nat.min_eq_left (by omega)]
    by_cases hfill : m.length % 64 ≠ 0 ∧ 64 - m.length % 64 ≤ input.length
    · rw [if_pos hfill]
      have htl : (input.take (64 - m.length % 64)).length = 64 - m.length % 64 := by
        rw [List.length_take, Nat.min_eq_left hfill.2]
      rw [memcpy_fits _ _ _ (by rw [htl, hcb, h.buffer]; omega)]
      rw [Outcome.bind_ok]
      have hover : ByteWriter.overwrite d.buffer (m.length % 64) (input.take (64 - m.length % 64)) =
          c.buffer.take (m.length % 64) ++ input.take (64 - m.length % 64) := by
        rw [ByteWriter.overwrite, hcb, htl, List.drop_of_length_le (by rw [h.buffer]; omega), List.append_nil]
      rw [hover]
      generalize hB : c.buffer.take (m.length % 64) ++ input.take (64 - m.length % 64) = B
      have hBl : B.length = 64 := by rw [← hB, List.length_append, hbl, htl]; omega
      obtain ⟨c', e1, e2, e3, e4, e5, e6⟩ := finish_spec process { d with state := process d.state B, buffer := B } 0
        (input.drop (64 - m.length % 64)) hBl (.inl rfl)
      simp only [hcs] at e5 e6 e3 e4
      have hblk : blocks process init (m ++ input) = blocks process (process c.state B) (input.drop (64 - m.length % 64)) := by
        rw [hgoal]
        have hsplit : c.buffer.take (m.length % 64) ++ input = B ++ input.drop (64 - m.length % 64) := by
          rw [← hB, List.append_assoc, List.take_append_drop]
        rw [hsplit, blocks_long _ _ _ (by rw [List.length_append]; omega), List.take_append_of_le_length (by omega),
          List.take_of_length_le (by omega), List.drop_append_of_le_length (by omega), List.drop_of_length_le (by omega),
          List.nil_append]
      refine ⟨c', e1, ⟨e2, ?_, by rw [e3]; exact hc0⟩, by rw [e4]; exact hc1⟩
      have hrest := blocks_rest process _ init (m ++ input) rfl
      rw [hblk] at hrest ⊢
      rw [e5, ← hrest]
      rw [Nat.zero_add, List.take_zero, List.nil_append] at e6
      rw [e6]
    · rw [if_neg hfill]
      obtain ⟨c', e1, e2, e3, e4, e5, e6⟩ := finish_spec process d (m.length % 64) input (by rw [hcb]; exact h.buffer) (by
        by_cases hz : m.length % 64 = 0
        · exact .inl hz
        · right
          have : ¬ 64 - m.length % 64 ≤ input.length := fun hc => hfill ⟨hz, hc⟩
          omega)
      rw [hcs, hcb] at e6
      rw [hcs] at e5
      refine ⟨c', e1, ⟨e2, ?_, by rw [e3]; exact hc0⟩, by rw [e4]; exact hc1⟩
      have hrest := blocks_rest process _ init (m ++ input) rfl
      by_cases hz : m.length % 64 = 0
      · rw [hz, List.take_zero, List.nil_append] at hgoal
        rw [hz, Nat.zero_add, List.take_zero, List.nil_append] at e6
        rw [hgoal] at hrest ⊢
        rw [e5, ← hrest, e6]
      · have hlt : input.length < 64 - m.length % 64 := Nat.lt_of_not_le fun hc => hfill ⟨hz, hc⟩
        have hs1 : blocks process c.state (c.buffer.take (m.length % 64) ++ input) =
            (c.state, c.buffer.take (m.length % 64) ++ input) :=
          blocks_short _ _ _ (by rw [List.length_append, hbl]; omega)
        have hs2 : blocks process c.state input = (c.state, input) := blocks_short _ _ _ (by omega)
        rw [hs2] at e5 e6
        rw [hgoal, hs1] at hrest ⊢
        rw [e5, ← hrest]
        simp only at e6
        rw [List.length_append, hbl, e6]

/-- The second counter after pieces of these lengths. -/
def carries (t0 : Nat) (t1 : Word) : List Nat → Word
  | [] => t1
  | n :: ns => carries (t0 + n) (carry t0 t1 n) ns

theorem updates_inv {init : S} (pieces : List (List Byte)) : ∀ {c : Ctx S} {m : List Byte}, Inv process init c m →
    ∃ c', updates process c pieces = .ok c' ∧ Inv process init c' (m ++ pieces.flatten) ∧
      c'.total1 = carries m.length c.total1 (pieces.map List.length) := by
  induction pieces with
  | nil => intro c m h; exact ⟨c, rfl, by simpa using h, rfl⟩
  | cons p ps ih =>
    intro c m h
    obtain ⟨c1, e1, i1, t1⟩ := update_inv process h p
    obtain ⟨c2, e2, i2, t2⟩ := ih i1
    refine ⟨c2, by rw [updates, e1, Outcome.bind_ok, e2], by simpa using i2, ?_⟩
    rw [t2, t1, List.length_append]
    rfl

/-- With pieces below 4 GiB the second counter is the high word of the number of bytes. -/
theorem carries_small (ns : List Nat) : ∀ (t0 : Nat) (t1 : Word), (∀ n ∈ ns, n < 2 ^ 32) → t1.toNat = t0 / 2 ^ 32 % 2 ^ 32 →
    (carries t0 t1 ns).toNat = (t0 + ns.sum) / 2 ^ 32 % 2 ^ 32 := by
  induction ns with
  | nil => intro t0 t1 _ h; simpa [carries] using h
  | cons n ns ih =>
    intro t0 t1 hn h
    have hlt := hn n (List.mem_cons_self ..)
    rw [carries, ih _ _ (fun k hk => hn k (List.mem_cons_of_mem _ hk)), List.sum_cons, Nat.add_assoc]
    rw [carry]
    split
    · rw [BitVec.toNat_add, h]
      have : (1 : Word).toNat = 1 := rfl
      rw [this]
      omega
    · rw [h]; omega

/-! ### The length field -/

theorem leBytes_succ (n v : Nat) : leBytes (n + 1) v = BitVec.ofNat 8 v :: leBytes n (v / 256) := by
  rw [leBytes, List.range_succ_eq_map, List.map_cons, List.map_map, leBytes]
  refine cons_eq (by simp) (List.map_congr_left fun i _ => ?_)
  simp only [Function.comp]
  rw [Nat.pow_succ, Nat.mul_comm, Nat.div_div_eq_div_mul]

theorem leRepr_eq (n v : Nat) : leRepr n v = leBytes n v := by
  induction n generalizing v with
  | zero => rfl
  | succ n ih => rw [leRepr, leBytes_succ, ih]

theorem leBytes_length (n v : Nat) : (leBytes n v).length = n := by simp [leBytes]

theorem leBytes_append (a b v : Nat) : leBytes (a + b) v = leBytes a v ++ leBytes b (v / 256 ^ a) := by
  induction a generalizing v with
  | zero => simp [leBytes]
  | succ a ih =>
    rw [Nat.succ_add, leBytes_succ, leBytes_succ, ih, List.cons_append, Nat.div_div_eq_div_mul, Nat.pow_succ, Nat.mul_comm 256]

theorem leBytes_mod (n v : Nat) : leBytes n (v % 256 ^ n) = leBytes n v := by
  induction n generalizing v with
  | zero => rfl
  | succ n ih =>
    rw [leBytes_succ, leBytes_succ]
    refine cons_eq ?_ ?_
    · apply BitVec.eq_of_toNat_eq
      rw [BitVec.toNat_ofNat, BitVec.toNat_ofNat, Nat.pow_succ]
      exact Nat.mod_mod_of_dvd _ (Nat.dvd_mul_left _ _)
    · rw [← ih (v / 256), Nat.pow_succ, Nat.mul_comm, Nat.mod_mul_right_div_self]

/-- `high` and `low` of `digest`. -/
theorem length_words (t0 t1 : Word) :
    (t0 <<< 3).toNat = (8 * (t0.toNat + 2 ^ 32 * t1.toNat)) % 2 ^ 32 ∧
    ((t0 >>> 29) ||| (t1 <<< 3)).toNat = (8 * (t0.toNat + 2 ^ 32 * t1.toNat)) / 2 ^ 32 % 2 ^ 32 := by
  have h0 := t0.isLt
  have h1 := t1.isLt
  constructor
  · rw [BitVec.toNat_shiftLeft, Nat.shiftLeft_eq]
    omega
  · rw [BitVec.toNat_or, BitVec.toNat_shiftLeft, BitVec.toNat_ushiftRight, Nat.shiftLeft_eq, Nat.shiftRight_eq_div_pow]
    have hd : t1.toNat * 2 ^ 3 % 2 ^ 32 = 2 ^ 3 * (t1.toNat % 2 ^ 29) := by omega
    rw [hd, Nat.or_comm, ← Nat.two_pow_add_eq_or_of_lt (by omega)]
    omega

theorem ofBuffer_ready (b : List Byte) (hb : b.length < 2 ^ 64) : (ByteWriter.ofBuffer b).Ready :=
  ⟨Nat.zero_le _, Nat.le_refl _, hb⟩

/-- Two words written into a buffer of 8 bytes. -/
theorem write_two (b x y : List Byte) (hb : b.length = 8) (hx : x.length = 4) (hy : y.length = 4) :
    ((((ByteWriter.ofBuffer b).write x).1).write y).1.data = x ++ y := by
  have hr := ofBuffer_ready b (by omega)
  have hp : (ByteWriter.ofBuffer b).position = 0 := rfl
  have hl : (ByteWriter.ofBuffer b).limit = b.length := rfl
  have hd : (ByteWriter.ofBuffer b).data = b := rfl
  rw [ByteWriter.write_ready _ x hr (by omega)]
  obtain ⟨r1, r2, r3⟩ := ByteWriter.wrote_ready _ x hr (by omega)
  rw [ByteWriter.write_ready _ y r1 (by omega), ByteWriter.wrote_wrote _ _ _ (by rw [hd]; omega)]
  show ByteWriter.overwrite b 0 (x ++ y) = _
  rw [ByteWriter.overwrite, List.drop_of_length_le (by simp; omega)]
  simp

theorem padding_take (n : Nat) (h1 : 1 ≤ n) (h2 : n ≤ 64) : padding.take n = 0x80#8 :: List.replicate (n - 1) 0#8 := by
  rw [padding]
  obtain ⟨k, rfl⟩ : ∃ k, n = k + 1 := ⟨n - 1, by omega⟩
  rw [List.take_succ_cons, List.take_replicate, Nat.min_eq_left (by omega)]
  rfl

/-- The length field `digest` appends. -/
def lengthField (le : Bool) (bytes : Nat) : List Byte := if le then leBytes 8 (8 * bytes) else beBytes 8 (8 * bytes)

theorem lengthField_length (le : Bool) (n : Nat) : (lengthField le n).length = 8 := by
  cases le <;> simp [lengthField, beBytes, leBytes_length]

theorem msglen_eq (h : Host) (le : Bool) (t0 t1 : Word) :
    (if le then ((((ByteWriter.ofBuffer (h.bytes 8).val).writeLEInt h.big 4 (t0 <<< 3).toNat).1).writeLEInt h.big 4
      ((t0 >>> 29) ||| (t1 <<< 3)).toNat).1.data
    else ((((ByteWriter.ofBuffer (h.bytes 8).val).writeBEInt h.big 4 ((t0 >>> 29) ||| (t1 <<< 3)).toNat).1).writeBEInt h.big 4
      (t0 <<< 3).toNat).1.data) = lengthField le (t0.toNat + 2 ^ 32 * t1.toNat) := by
  obtain ⟨e1, e2⟩ := length_words t0 t1
  generalize hL : 8 * (t0.toNat + 2 ^ 32 * t1.toNat) = L at e1 e2
  have hpow : (256 : Nat) ^ 4 = 2 ^ 32 := by decide
  have key : leBytes 4 (t0 <<< 3).toNat ++ leBytes 4 ((t0 >>> 29) ||| (t1 <<< 3)).toNat = leBytes 8 L := by
    rw [e1, e2, ← hpow, leBytes_mod, leBytes_mod]
    exact (leBytes_append 4 4 L).symm
  rw [lengthField, hL]
  cases le with
  | true =>
    rw [if_pos rfl, if_pos rfl, writeLEInt_eq, writeLEInt_eq, leRepr_eq, leRepr_eq,
      write_two _ _ _ (h.bytes 8).property (leBytes_length _ _) (leBytes_length _ _), key]
  | false =>
    rw [if_neg (by decide), if_neg (by decide), writeBEInt_eq, writeBEInt_eq, leRepr_eq, leRepr_eq,
      write_two _ _ _ (h.bytes 8).property (by rw [List.length_reverse, leBytes_length])
        (by rw [List.length_reverse, leBytes_length]), ← List.reverse_append, key]
    rfl

theorem pad_inv (h : Host) (le : Bool) {init : S} {c : Ctx S} {m : List Byte} (hi : Inv process init c m) :
    ∃ c', pad h le process c = .ok c' ∧
      Inv process init c' (padded (lengthField le (c.total0.toNat + 2 ^ 32 * c.total1.toNat)) m) := by
  rw [pad]
  simp only [msglen_eq, hi.left]
  have hm := Nat.mod_lt m.length (show 0 < 64 by decide)
  generalize hn : (if m.length % 64 < 56 then 56 - m.length % 64 else 120 - m.length % 64) = n
  have hn1 : 1 ≤ n ∧ n ≤ 64 ∧ n - 1 = (119 - m.length % 64) % 64 := by
    rw [← hn]
    split <;> omega
  rw [paddingBytes, if_pos (by simp [padding]; omega), Outcome.bind_ok, padding_take n hn1.1 hn1.2.1, hn1.2.2]
  obtain ⟨c1, e1, i1, -⟩ := update_inv process hi (0x80#8 :: List.replicate ((119 - m.length % 64) % 64) 0#8)
  rw [e1, Outcome.bind_ok]
  obtain ⟨c2, e2, i2, -⟩ := update_inv process i1 (lengthField le (c.total0.toNat + 2 ^ 32 * c.total1.toNat))
  refine ⟨c2, e2, ?_⟩
  rw [padded]
  simpa using i2

theorem padded_length (le : Bool) (n : Nat) (m : List Byte) : (padded (lengthField le n) m).length % 64 = 0 := by
  rw [padded]
  simp only [List.length_append, List.length_replicate, lengthField_length, List.length_singleton]
  omega

/-- The state after padding is the chaining value, with the length the counters hold. -/
theorem pad_chain (h : Host) (le : Bool) {init : S} {c : Ctx S} {m : List Byte} (hi : Inv process init c m) :
    ∃ c', pad h le process c = .ok c' ∧
      c'.state = chain process init (lengthField le (c.total0.toNat + 2 ^ 32 * c.total1.toNat)) m ∧
      Inv process init c' (padded (lengthField le (c.total0.toNat + 2 ^ 32 * c.total1.toNat)) m) := by
  obtain ⟨c', e, i⟩ := pad_inv process h le hi
  refine ⟨c', e, ?_, i⟩
  have := i.state
  rw [chain, ← blocks_chain process _ _ _ rfl, ← this]

/-- The bytes the counters stand for. -/
def counted (pieces : List (List Byte)) : Nat :=
  pieces.flatten.length % 2 ^ 32 + 2 ^ 32 * (carries 0 0 (pieces.map List.length)).toNat

theorem counted_small (pieces : List (List Byte)) (h : ∀ p ∈ pieces, p.length < 2 ^ 32) :
    counted pieces = pieces.flatten.length % 2 ^ 64 := by
  rw [counted, carries_small _ _ _ (by simpa using h) (by simp), Nat.zero_add, ← List.length_flatten]
  omega

theorem lengthField_mod (le : Bool) (n : Nat) : lengthField le (n % 2 ^ 64) = lengthField le n := by
  have : leBytes 8 (8 * (n % 2 ^ 64)) = leBytes 8 (8 * n) := by
    rw [← leBytes_mod 8 (8 * (n % 2 ^ 64)), ← leBytes_mod 8 (8 * n)]
    refine congrArg _ ?_
    have : (256 : Nat) ^ 8 = 2 ^ 64 := by decide
    rw [this]
    omega
  cases le <;> simp [lengthField, beBytes, this]

/-- A fresh context. -/
theorem inv_init (init : S) (buffer : List Byte) (hb : buffer.length = 64) : Inv process init ⟨0, 0, init, buffer⟩ [] := by
  refine ⟨hb, ?_, by simp⟩
  rw [blocks_short _ _ _ (by simp)]
  simp

theorem blocksOf_length (le : Bool) (n : Nat) (m : List Byte) : ∀ b ∈ blocksOf (padded (lengthField le n) m), b.length = 64 := by
  intro b hb
  rw [blocksOf, List.mem_map] at hb
  obtain ⟨i, hi, rfl⟩ := hb
  rw [List.mem_range] at hi
  rw [List.length_take, List.length_drop]
  have := padded_length le n m
  omega

/-! ### Words in and out -/

theorem readWords_eq (h : Host) (le : Bool) (data : List Byte) (hd : data.length < 2 ^ 64) (old : List Word) :
    ∀ p, p + 4 * old.length ≤ data.length →
    readWords h le ⟨data, p, data.length⟩ old = (List.range old.length).map fun k =>
      BitVec.ofNat 32 (if le then leValue ((data.drop (p + 4 * k)).take 4)
        else leValue ((data.drop (p + 4 * k)).take 4).reverse) := by
  induction old with
  | nil => intro p _; rfl
  | cons o os ih =>
    intro p hp
    rw [List.length_cons] at hp
    have hwf : (⟨data, p, data.length⟩ : ByteReader).WF := ⟨by simp only; omega, Nat.le_refl _, hd⟩
    rw [List.length_cons, List.range_succ_eq_map, List.map_cons, List.map_map, readWords]
    have hx : (if le then (⟨data, p, data.length⟩ : ByteReader).readLEInt h.big 4 o.toNat
        else (⟨data, p, data.length⟩ : ByteReader).readBEInt h.big 4 o.toNat) =
        (⟨data, p + 4, data.length⟩, .ok none, if le then leValue ((data.drop p).take 4)
          else leValue ((data.drop p).take 4).reverse) := by
      cases le with
      | true => rw [if_pos rfl, readLEInt_stored _ _ _ hwf _ (by simp only; omega)]; rfl
      | false => rw [if_neg (by decide), readBEInt_stored _ _ _ hwf _ (by simp only; omega)]; rfl
    rw [hx, ih (p + 4) (by omega)]
    refine cons_eq rfl (List.map_congr_left fun k _ => ?_)
    simp only [Function.comp, Nat.mul_succ]
    have : p + 4 + 4 * k = p + (4 * k + 4) := by omega
    rw [this]

theorem drop_take_four (data : List Byte) (i : Nat) (h : i + 4 ≤ data.length) :
    (data.drop i).take 4 = [data[i], data[i + 1], data[i + 2], data[i + 3]] := by
  rw [List.drop_eq_getElem_cons (by omega), List.drop_eq_getElem_cons (by omega), List.drop_eq_getElem_cons (by omega),
    List.drop_eq_getElem_cons (by omega)]
  rfl

/-- The words of a block. -/
theorem readWords_block (h : Host) (le : Bool) (data : List Byte) (hd : data.length = 64) (old : List Word) (ho : old.length = 16) :
    readWords h le (ByteReader.ofView data) old = (List.range 16).map (if le then leWord data else beWord data) := by
  rw [ByteReader.ofView, readWords_eq h le data (by omega) old 0 (by omega), ho]
  refine List.map_congr_left fun k hk => ?_
  rw [List.mem_range] at hk
  rw [Nat.zero_add, drop_take_four data (4 * k) (by omega)]
  have hb : ∀ i, (hi : i < data.length) → byteAt data i = (data[i]).toNat := by
    intro i hi
    rw [byteAt, List.getElem?_eq_getElem hi, Option.getD_some]
  cases le with
  | true =>
    rw [if_pos rfl, if_pos rfl, leWord, hb _ (by omega), hb _ (by omega), hb _ (by omega), hb _ (by omega)]
    refine congrArg _ ?_
    simp only [leValue]
    omega
  | false =>
    rw [if_neg (by decide), if_neg (by decide), beWord, hb _ (by omega), hb _ (by omega), hb _ (by omega), hb _ (by omega)]
    refine congrArg _ ?_
    simp only [leValue, List.reverse_cons, List.reverse_nil, List.nil_append, List.cons_append]
    omega

theorem output_eq (h : Host) (le : Bool) (size : Nat) (ws : List Word) (hs : size = 4 * ws.length) (hs' : size < 2 ^ 64) :
    output h le size ws = ws.flatMap fun w => if le then leBytes 4 w.toNat else beBytes 4 w.toNat := by
  have key : ∀ (ws : List Word) (w : ByteWriter), w.Ready → w.limit = w.data.length → w.position + 4 * ws.length = w.limit →
      let r := ws.foldl (fun w x => if le then (w.writeLEInt h.big 4 x.toNat).1 else (w.writeBEInt h.big 4 x.toNat).1) w
      r.position = w.limit ∧ r.data = w.data.take w.position ++ ws.flatMap fun w => if le then leBytes 4 w.toNat else beBytes 4 w.toNat := by
    intro ws
    induction ws with
    | nil =>
      intro w hr hl hp
      simp only [List.foldl_nil, List.flatMap_nil, List.append_nil]
      simp only [List.length_nil, Nat.mul_zero, Nat.add_zero] at hp
      refine ⟨hp, ?_⟩
      rw [List.take_of_length_le (by omega)]
    | cons x xs ih =>
      intro w hr hl hp
      rw [List.length_cons] at hp
      simp only [List.foldl_cons, List.flatMap_cons]
      have hw : (if le then (w.writeLEInt h.big 4 x.toNat).1 else (w.writeBEInt h.big 4 x.toNat).1) =
          w.wrote (if le then leBytes 4 x.toNat else beBytes 4 x.toNat) := by
        cases le with
        | true =>
          rw [if_pos rfl, if_pos rfl, writeLEInt_eq, leRepr_eq, ByteWriter.write_ready _ _ hr (by rw [leBytes_length]; omega)]
        | false =>
          rw [if_neg (by decide), if_neg (by decide), writeBEInt_eq, leRepr_eq,
            ByteWriter.write_ready _ _ hr (by rw [List.length_reverse, leBytes_length]; omega)]
          rfl
      rw [hw]
      generalize hd : (if le then leBytes 4 x.toNat else beBytes 4 x.toNat) = d
      have hdl : d.length = 4 := by
        rw [← hd]; cases le <;> simp [leBytes_length, beBytes]
      obtain ⟨r1, r2, r3⟩ := ByteWriter.wrote_ready w d hr (by omega)
      have hfit : w.position + d.length ≤ w.data.length := by omega
      have hlen : (w.wrote d).data.length = w.data.length := ByteWriter.overwrite_length _ _ _ hfit
      obtain ⟨e1, e2⟩ := ih (w.wrote d) r1 (by rw [r2, hlen, hl]) (by rw [r2, r3]; omega)
      refine ⟨by rw [e1, r2], ?_⟩
      rw [e2, r3, ← List.append_assoc]
      refine congrArg (· ++ _) ?_
      exact overwrite_take_end _ _ _ (by omega)
  obtain ⟨e1, e2⟩ := key ws (ByteWriter.ofBuffer (h.bytes size).val) (ofBuffer_ready _ (by rw [(h.bytes size).property]; exact hs')) rfl (by
    show 0 + _ = (h.bytes size).val.length
    rw [(h.bytes size).property]; omega)
  rw [output, ByteWriter.viewWritten, e1, e2]
  have hl : (ByteWriter.ofBuffer (h.bytes size).val).limit = size := (h.bytes size).property
  have hp : (ByteWriter.ofBuffer (h.bytes size).val).position = 0 := rfl
  rw [hl, hp, List.take_zero, List.nil_append]
  have hlen : (ws.flatMap fun w => if le then leBytes 4 w.toNat else beBytes 4 w.toNat).length = size := by
    rw [hs]
    clear e1 e2 hl hp hs hs' key
    induction ws with
    | nil => rfl
    | cons w ws ih =>
      rw [List.flatMap_cons, List.length_append, ih, List.length_cons]
      cases le <;> simp [leBytes_length, beBytes] <;> omega
  generalize ws.flatMap (fun w => if le then leBytes 4 w.toNat else beBytes 4 w.toNat) = l at hlen
  subst hlen
  rw [slice_eq]
  simp

end Solace.Hash
