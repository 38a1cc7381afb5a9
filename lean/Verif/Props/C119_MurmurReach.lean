import Verif.Lemmas.Murmur
import Verif.Props.C63_C84_Exact
/-
C119: the Murmur3 hashes (/repo/src/hashing/murmur3.cpp:41-378) are made of steps that can be undone. So over inputs of exactly
one block the digest takes every value exactly once, whatever the seed, and a block appended to any whole blocks can bring about
any digest: an input for a given digest always exists and can be computed by running the steps backwards.
-/
namespace Solace.Hash.Spec.Murmur3.Reach

/-! ### Bytes and numbers -/

theorem number_leBytes (n : Nat) : ∀ v, number (leBytes n v) = v % 256 ^ n := by
  induction n with
  | zero => intro v; simp [leBytes, number, Nat.mod_one]
  | succ n ih =>
    intro v
    have h1 : number (leBytes (n + 1) v) = (BitVec.ofNat 8 v).toNat + 256 * number (leBytes n (v / 256)) := by
      rw [leBytes_succ]; rfl
    have h2 : (256 : Nat) ^ (n + 1) = 256 * 256 ^ n := by rw [Nat.pow_succ, Nat.mul_comm]
    rw [h1, ih, h2, Nat.mod_mul, BitVec.toNat_ofNat]

theorem leBytes_number (bs : List Byte) : leBytes bs.length (number bs) = bs := by
  induction bs with
  | nil => simp [leBytes]
  | cons b bs ih =>
    have h1 : number (b :: bs) = b.toNat + 256 * number bs := rfl
    have hb := b.isLt
    rw [List.length_cons, leBytes_succ, h1]
    congr 1
    · apply BitVec.eq_of_toNat_eq
      rw [BitVec.toNat_ofNat]
      omega
    · have : (b.toNat + 256 * number bs) / 256 = number bs := by omega
      rw [this, ih]

theorem number_inj {a b : List Byte} (hl : a.length = b.length) (h : number a = number b) : a = b := by
  rw [← leBytes_number a, ← leBytes_number b, hl, h]

theorem ofNat_number_inj {w : Nat} {a b : List Byte} (hl : a.length = b.length) (ha : 256 ^ a.length ≤ 2 ^ w)
    (h : BitVec.ofNat w (number a) = BitVec.ofNat w (number b)) : a = b := by
  refine number_inj hl ?_
  have h1 := Murmur.number_lt a
  have h2 := Murmur.number_lt b
  rw [← hl] at h2
  have := congrArg BitVec.toNat h
  rwa [BitVec.toNat_ofNat, BitVec.toNat_ofNat, Nat.mod_eq_of_lt (Nat.lt_of_lt_of_le h1 ha),
    Nat.mod_eq_of_lt (Nat.lt_of_lt_of_le h2 ha)] at this

theorem ofNat_number_surj {w n : Nat} (hw : 256 ^ n = 2 ^ w) (v : BitVec w) :
    BitVec.ofNat w (number (leBytes n v.toNat)) = v := by
  rw [number_leBytes, hw, Nat.mod_eq_of_lt v.isLt]
  exact BitVec.eq_of_toNat_eq (by rw [BitVec.toNat_ofNat, Nat.mod_eq_of_lt v.isLt])

/-! ### Hashes that take an input in blocks -/

/-- A hash over blocks of `B` bytes: each changes the state, then the rest and the length are put in. -/
structure Shape (α β : Type) where
  B : Nat
  pos : 0 < B
  init : α
  blk : List Byte → β
  step : α → β → α
  fin : Nat → α → β → α
  blk_inj : ∀ a b : List Byte, a.length = b.length → a.length ≤ B → blk a = blk b → a = b
  blk_surj : ∀ k, ∃ a : List Byte, a.length = B ∧ blk a = k
  step_state : ∀ k, Bij fun h => step h k
  step_block : ∀ h, Bij fun k => step h k
  fin_state : ∀ len k, Bij fun h => fin len h k
  fin_block : ∀ len h, Bij fun k => fin len h k

variable {α β : Type} (S : Shape α β)

/-- The words of the whole blocks. -/
def Shape.words (m : List Byte) : List β := (List.range (m.length / S.B)).map fun i => S.blk ((m.drop (S.B * i)).take S.B)

def Shape.rest (m : List Byte) : List Byte := m.drop (S.B * (m.length / S.B))

/-- The hash of `m` with `len` put in as its length. -/
def Shape.hash (len : Nat) (m : List Byte) : α := S.fin len ((S.words m).foldl S.step S.init) (S.blk (S.rest m))

/-- Lists that differ in exactly one place give different states. -/
theorem fold_one (f : α → β → α) (h1 : ∀ k, Bij fun h => f h k) (h2 : ∀ h, Bij fun k => f h k) (ks : List β) :
    ∀ (ks' : List β) (i : Nat) (a : α), ks.length = ks'.length → (∀ j, j ≠ i → ks[j]? = ks'[j]?) → ks.foldl f a = ks'.foldl f a →
      ks = ks' := by
  induction ks with
  | nil => intro ks' i a hl _ _; cases ks' with | nil => rfl | cons _ _ => cases hl
  | cons k ks ih =>
    intro ks' i a hl hs he
    cases ks' with
    | nil => cases hl
    | cons k' ks' =>
      rw [List.length_cons, List.length_cons] at hl
      rw [List.foldl_cons, List.foldl_cons] at he
      cases i with
      | zero =>
        have ht : ks = ks' := List.ext_getElem? fun j => by
          have := hs (j + 1) (by omega)
          simpa using this
        subst ht
        have := fold_inj f (fun k => (h1 k).inj) ks _ _ he
        rw [(h2 a).inj _ _ this]
      | succ i =>
        have hk : k = k' := by
          have := hs 0 (by omega)
          simpa using this
        subst hk
        rw [ih ks' i (f a k) (by omega) (fun j hj => by
          have := hs (j + 1) (by omega)
          simpa using this) he]

theorem chunk_eq {m m' : List Byte} (B i j : Nat) (hs : ∀ p, p / B ≠ i → m[p]? = m'[p]?) (hB : 0 < B) (hj : j ≠ i) :
    (m.drop (B * j)).take B = (m'.drop (B * j)).take B := by
  refine List.ext_getElem? fun p => ?_
  by_cases hp : p < B
  · rw [List.getElem?_take_of_lt hp, List.getElem?_take_of_lt hp, List.getElem?_drop, List.getElem?_drop]
    refine hs _ ?_
    rw [Nat.mul_add_div hB, Nat.div_eq_of_lt hp]
    exact hj
  · rw [List.getElem?_take_eq_none (by omega), List.getElem?_take_eq_none (by omega)]

theorem rest_eq {m m' : List Byte} (B i n : Nat) (hs : ∀ p, p / B ≠ i → m[p]? = m'[p]?) (hB : 0 < B) (hi : i < n) :
    m.drop (B * n) = m'.drop (B * n) := by
  refine List.ext_getElem? fun p => ?_
  rw [List.getElem?_drop, List.getElem?_drop]
  refine hs _ ?_
  rw [Nat.mul_add_div hB]
  have := Nat.zero_le (p / B)
  generalize p / B = q at this
  omega

/-- Inputs of one length that agree outside one block have different hashes unless they are the same. -/
theorem Shape.neighbours (len : Nat) (m m' : List Byte) (hl : m.length = m'.length) (i : Nat)
    (hs : ∀ p, p / S.B ≠ i → m[p]? = m'[p]?) (h : S.hash len m = S.hash len m') : m = m' := by
  have hB := S.pos
  have hwl : (S.words m).length = (S.words m').length := by simp [Shape.words, hl]
  have hws : ∀ j, j ≠ i → (S.words m)[j]? = (S.words m')[j]? := by
    intro j hj
    rw [Shape.words, Shape.words, hl]
    by_cases hjn : j < m'.length / S.B
    · rw [List.getElem?_map, List.getElem?_map, List.getElem?_range hjn, Option.map_some, Option.map_some, chunk_eq S.B i j hs hB hj]
    · rw [List.getElem?_eq_none (by simpa using hjn), List.getElem?_eq_none (by simpa using hjn)]
  have parts : S.words m = S.words m' ∧ S.blk (S.rest m) = S.blk (S.rest m') := by
    rw [Shape.hash, Shape.hash] at h
    by_cases hi : i < m.length / S.B
    · have hr : S.rest m = S.rest m' := by
        rw [Shape.rest, Shape.rest, ← hl]
        exact rest_eq S.B i _ hs hB hi
      rw [hr] at h
      exact ⟨fold_one S.step S.step_state S.step_block _ _ i _ hwl hws ((S.fin_state _ _).inj _ _ h), by rw [hr]⟩
    · have hw : S.words m = S.words m' := by
        refine List.ext_getElem? fun j => ?_
        by_cases hj : j = i
        · rw [List.getElem?_eq_none (by simp [Shape.words]; omega), List.getElem?_eq_none (by simp [Shape.words, ← hl]; omega)]
        · exact hws j hj
      rw [hw] at h
      exact ⟨hw, (S.fin_block _ _).inj _ _ h⟩
  have hr : S.rest m = S.rest m' := by
    refine S.blk_inj _ _ ?_ ?_ parts.2
    · simp [Shape.rest, hl]
    · rw [Shape.rest, List.length_drop]
      have := Nat.mod_lt m.length hB
      have := Nat.div_add_mod m.length S.B
      omega
  refine List.ext_getElem? fun p => ?_
  by_cases hp : p < S.B * (m.length / S.B)
  · have hj : p / S.B < m.length / S.B := Nat.div_lt_of_lt_mul hp
    have hw := congrArg (fun l : List β => l[p / S.B]?) parts.1
    simp only [Shape.words] at hw
    rw [← hl, List.getElem?_map, List.getElem?_map, List.getElem?_range hj, Option.map_some, Option.map_some] at hw
    have hle : S.B * (p / S.B) + S.B ≤ m.length := by
      have := Nat.mul_le_mul_left S.B hj
      rw [Nat.mul_succ] at this
      have := Nat.mul_div_le m.length S.B
      omega
    have hc := S.blk_inj _ _ (by simp [hl]) (by simp; omega) (Option.some.inj hw)
    have := congrArg (fun l : List Byte => l[p % S.B]?) hc
    have hm := Nat.mod_lt p hB
    rwa [List.getElem?_take_of_lt hm, List.getElem?_take_of_lt hm, List.getElem?_drop, List.getElem?_drop, Nat.div_add_mod] at this
  · have := congrArg (fun l : List Byte => l[p - S.B * (m.length / S.B)]?) hr
    simp only [Shape.rest] at this
    rw [← hl, List.getElem?_drop, List.getElem?_drop] at this
    have e : S.B * (m.length / S.B) + (p - S.B * (m.length / S.B)) = p := by omega
    rwa [e] at this

/-- Every value is the hash of exactly one input of one block. -/
theorem Shape.one_block (len : Nat) (v : α) : ∃ m : List Byte, m.length = S.B ∧ S.hash len m = v := by
  have hB := S.pos
  obtain ⟨h, hh⟩ := (S.fin_state len (S.blk [])).surj v
  obtain ⟨k, hk⟩ := (S.step_block S.init).surj h
  obtain ⟨m, hm, hmk⟩ := S.blk_surj k
  refine ⟨m, hm, ?_⟩
  have hw : S.words m = [k] := by
    rw [Shape.words, hm, Nat.div_self hB]
    simp [List.range_succ, List.take_of_length_le (Nat.le_of_eq hm), hmk]
  have hr : S.rest m = [] := by
    rw [Shape.rest, hm, Nat.div_self hB, Nat.mul_one, List.drop_of_length_le (Nat.le_of_eq hm)]
  rw [Shape.hash, hw, hr, List.foldl_cons, List.foldl_nil]
  rw [← hh, ← hk]

/-- After whole blocks one more block can give every value. -/
theorem Shape.append_block (len : Nat) (pre : List Byte) (hp : pre.length % S.B = 0) (v : α) :
    ∃ s : List Byte, s.length = S.B ∧ S.hash len (pre ++ s) = v := by
  have hB := S.pos
  obtain ⟨h, hh⟩ := (S.fin_state len (S.blk [])).surj v
  obtain ⟨k, hk⟩ := (S.step_block ((S.words pre).foldl S.step S.init)).surj h
  obtain ⟨s, hs, hsk⟩ := S.blk_surj k
  refine ⟨s, hs, ?_⟩
  have hdm := Nat.div_add_mod pre.length S.B
  rw [hp, Nat.add_zero] at hdm
  have hd : (pre ++ s).length / S.B = pre.length / S.B + 1 := by
    rw [List.length_append, hs, Nat.add_div_right _ hB]
  have hw : S.words (pre ++ s) = S.words pre ++ [k] := by
    rw [Shape.words, hd, List.range_succ, List.map_append, Shape.words]
    congr 1
    · refine List.map_congr_left fun i hi => ?_
      have hi := List.mem_range.mp hi
      have h1 := Nat.mul_le_mul_left S.B hi
      rw [Nat.mul_succ] at h1
      rw [List.drop_append_of_le_length (by omega), List.take_append_of_le_length (by rw [List.length_drop]; omega)]
    · rw [List.map_cons, List.map_nil, hdm, List.drop_left, List.take_of_length_le (Nat.le_of_eq hs), hsk]
  have hr : S.rest (pre ++ s) = [] := by
    rw [Shape.rest, hd, Nat.mul_succ, hdm, List.drop_of_length_le (by rw [List.length_append, hs]; exact Nat.le_refl _)]
  rw [Shape.hash, hw, hr, List.foldl_append, List.foldl_cons, List.foldl_nil, ← hh, ← hk]

/-! ### The three hashes -/

def shape32 (seed : BitVec 32) : Shape (BitVec 32) (BitVec 32) where
  B := 4
  pos := by decide
  init := seed
  blk l := BitVec.ofNat 32 (number l)
  step := step32
  fin := end32
  blk_inj a b hl ha h := ofNat_number_inj hl (Nat.le_trans (Nat.pow_le_pow_right (by decide) ha) (by decide)) h
  blk_surj k := ⟨leBytes 4 k.toNat, leBytes_length _ _, ofNat_number_surj (by decide) k⟩
  step_state := bij_step32_state
  step_block := bij_step32_block
  fin_state := bij_end32_state
  fin_block := bij_end32_block

theorem shape_hash32 (seed : BitVec 32) (m : List Byte) : (shape32 seed).hash m.length m = x86_32 seed m := by
  rw [Shape.hash, Shape.words, List.foldl_map]
  rfl

def shape64 (seed : BitVec 32) : Shape (BitVec 64 × BitVec 64) (BitVec 64 × BitVec 64) where
  B := 16
  pos := by decide
  init := (seed.setWidth 64, seed.setWidth 64)
  blk l := (BitVec.ofNat 64 (number (l.take 8)), BitVec.ofNat 64 (number (l.drop 8)))
  step := step64
  fin := end64
  blk_inj a b hl ha h := by
    have h1 := congrArg Prod.fst h
    have h2 := congrArg Prod.snd h
    have e1 := ofNat_number_inj (by simp [hl]) (Nat.le_trans (Nat.pow_le_pow_right (by decide) (by simp; omega : _ ≤ 8)) (by decide)) h1
    have e2 := ofNat_number_inj (by simp [hl]) (Nat.le_trans (Nat.pow_le_pow_right (by decide) (by simp; omega : _ ≤ 8)) (by decide)) h2
    rw [← List.take_append_drop 8 a, ← List.take_append_drop 8 b, e1, e2]
  blk_surj k := by
    refine ⟨leBytes 8 k.1.toNat ++ leBytes 8 k.2.toNat, by simp [leBytes_length], ?_⟩
    rw [List.take_left' (leBytes_length _ _), List.drop_left' (leBytes_length _ _), ofNat_number_surj (by decide),
      ofNat_number_surj (by decide)]
  step_state := bij_step64_state
  step_block := bij_step64_block
  fin_state := bij_end64_state
  fin_block := bij_end64_block

theorem shape_hash64 (seed : BitVec 32) (len : Nat) (m : List Byte) : (shape64 seed).hash len m = x64_128WithLength seed len m := by
  rw [Shape.hash, Shape.words, List.foldl_map]
  have hstep : (fun h i => (shape64 seed).step h ((shape64 seed).blk ((m.drop ((shape64 seed).B * i)).take (shape64 seed).B))) =
      round m := by
    funext h i
    have e1 : ((m.drop (16 * i)).take 16).take 8 = (m.drop (64 / 8 * (2 * i))).take 8 := by
      rw [List.take_take]
      congr 2
      omega
    have e2 : ((m.drop (16 * i)).take 16).drop 8 = (m.drop (64 / 8 * (2 * i + 1))).take 8 := by
      rw [List.drop_take, List.drop_drop]
      congr 2
      omega
    simp only [shape64, step64, round, block, e1, e2]
  rw [hstep]
  rfl

def shapeX86 (seed : BitVec 32) : Shape Words Words where
  B := 16
  pos := by decide
  init := ⟨seed, seed, seed, seed⟩
  blk l := ⟨BitVec.ofNat 32 (number ((l.drop 0).take 4)), BitVec.ofNat 32 (number ((l.drop 4).take 4)),
    BitVec.ofNat 32 (number ((l.drop 8).take 4)), BitVec.ofNat 32 (number ((l.drop 12).take 4))⟩
  step := stepX86
  fin := endX86
  blk_inj a b hl ha h := by
    simp only [Words.mk.injEq] at h
    obtain ⟨h0, h1, h2, h3⟩ := h
    have e0 := ofNat_number_inj (by simp [hl]) (Nat.le_trans (Nat.pow_le_pow_right (by decide) (by simp; omega : _ ≤ 4)) (by decide)) h0
    have e1 := ofNat_number_inj (by simp [hl]) (Nat.le_trans (Nat.pow_le_pow_right (by decide) (by simp; omega : _ ≤ 4)) (by decide)) h1
    have e2 := ofNat_number_inj (by simp [hl]) (Nat.le_trans (Nat.pow_le_pow_right (by decide) (by simp; omega : _ ≤ 4)) (by decide)) h2
    have e3 := ofNat_number_inj (by simp [hl]) (Nat.le_trans (Nat.pow_le_pow_right (by decide) (by simp; omega : _ ≤ 4)) (by decide)) h3
    have split : ∀ l : List Byte, l.length ≤ 16 →
        l = (l.drop 0).take 4 ++ ((l.drop 4).take 4 ++ ((l.drop 8).take 4 ++ (l.drop 12).take 4)) := by
      intro l hl
      have hd : ∀ n, l.drop n = (l.drop n).take 4 ++ l.drop (n + 4) := fun n => by
        rw [← List.drop_drop, List.take_append_drop]
      have h12 : l.drop 12 = (l.drop 12).take 4 := by rw [List.take_of_length_le]; simp; omega
      rw [← h12, ← hd 8, ← hd 4, ← hd 0, List.drop_zero]
    rw [split a ha, split b (by omega), e0, e1, e2, e3]
  blk_surj k := by
    refine ⟨leBytes 4 k.w0.toNat ++ (leBytes 4 k.w1.toNat ++ (leBytes 4 k.w2.toNat ++ leBytes 4 k.w3.toNat)), by simp [leBytes_length], ?_⟩
    have e : ∀ (a b : List Byte) (n : Nat), a.length = 4 → (a ++ b).drop (n + 4) = b.drop n := by
      intro a b n ha
      rw [Nat.add_comm, ← List.drop_drop, List.drop_left' ha]
    have l4 : ∀ v, (leBytes 4 v).length = 4 := leBytes_length 4
    rw [List.drop_zero, List.take_left' (l4 _), e _ _ 0 (l4 _), e _ _ 4 (l4 _), e _ _ 8 (l4 _), List.drop_zero, List.take_left' (l4 _),
      e _ _ 0 (l4 _), e _ _ 4 (l4 _), List.drop_zero, List.take_left' (l4 _), e _ _ 0 (l4 _), List.drop_zero,
      List.take_of_length_le (Nat.le_of_eq (l4 _)), ofNat_number_surj (by decide), ofNat_number_surj (by decide),
      ofNat_number_surj (by decide), ofNat_number_surj (by decide)]
  step_state := bij_stepX86_state
  step_block := bij_stepX86_block
  fin_state := bij_endX86_state
  fin_block := bij_endX86_block

theorem shape_hashX86 (seed : BitVec 32) (m : List Byte) : (shapeX86 seed).hash m.length m = x86_128 seed m := by
  rw [Shape.hash, Shape.words, List.foldl_map]
  have hstep : (fun h i => (shapeX86 seed).step h ((shapeX86 seed).blk ((m.drop ((shapeX86 seed).B * i)).take (shapeX86 seed).B))) =
      roundX86 m := by
    funext h i
    have e : ∀ n, n + 4 ≤ 16 → (((m.drop (16 * i)).take 16).drop n).take 4 = (m.drop (16 * i + n)).take 4 := by
      intro n hn
      rw [List.drop_take, List.take_take, List.drop_drop]
      congr 1
      omega
    have i0 : 16 * i + 0 = 32 / 8 * (4 * i) := by omega
    have i1 : 16 * i + 4 = 32 / 8 * (4 * i + 1) := by omega
    have i2 : 16 * i + 8 = 32 / 8 * (4 * i + 2) := by omega
    have i3 : 16 * i + 12 = 32 / 8 * (4 * i + 3) := by omega
    simp only [shapeX86, stepX86, roundX86, block]
    rw [e 0 (by decide), e 4 (by decide), e 8 (by decide), e 12 (by decide), i0, i1, i2, i3]
  rw [hstep]
  rfl

end Solace.Hash.Spec.Murmur3.Reach

namespace Solace.Hash.Murmur.Reach
open Spec Spec.Murmur3 Spec.Murmur3.Reach

/-! ### What a machine of either byte order sees -/

/-- Where the byte `j` of the reversed words comes from. -/
def mirror (k b j : Nat) : Nat := if j < k * b then k * (j / k) + (k - 1 - j % k) else j

theorem mirror_lt (k b n j : Nat) (hk : 0 < k) (hb : k * b ≤ n) (hj : j < n) : mirror k b j < n := by
  rw [mirror]
  split
  · rename_i h
    have h1 : j / k < b := Nat.div_lt_of_lt_mul h
    have h2 := Nat.mul_le_mul_left k h1
    rw [Nat.mul_succ] at h2
    omega
  · exact hj

theorem mirror_mirror (k b j : Nat) (hk : 0 < k) : mirror k b (mirror k b j) = j := by
  rw [mirror, mirror]
  by_cases h : j < k * b
  · have h1 : j / k < b := Nat.div_lt_of_lt_mul h
    have h2 := Nat.mul_le_mul_left k h1
    have h3 := Nat.mod_lt j hk
    have h4 := Nat.div_add_mod j k
    rw [Nat.mul_succ] at h2
    rw [if_pos h, if_pos (by omega), Nat.mul_add_div hk, Nat.div_eq_of_lt (by omega : k - 1 - j % k < k), Nat.mul_add_mod,
      Nat.mod_eq_of_lt (by omega : k - 1 - j % k < k), Nat.add_zero]
    omega
  · rw [if_neg h, if_neg h]

theorem mirror_block (k b q j : Nat) (hk : 0 < k) : mirror k b j / (k * q) = j / (k * q) := by
  rw [mirror]
  split
  · rw [← Nat.div_div_eq_div_mul, ← Nat.div_div_eq_div_mul, Nat.mul_add_div hk, Nat.div_eq_of_lt (by omega : k - 1 - j % k < k),
      Nat.add_zero]
  · rfl

theorem wordsReversed_mirror (k b : Nat) (m : List Byte) (hk : 0 < k) (hb : k * b ≤ m.length) (j : Nat) :
    (wordsReversed k b m)[j]? = m[mirror k b j]? := by
  by_cases hj : j < m.length
  · have := mirror_lt k b m.length j hk hb hj
    rw [wordsReversed_get k b m j hj, List.getD_eq_getElem?_getD, ← mirror, List.getElem?_eq_getElem this]
    rfl
  · rw [List.getElem?_eq_none (by rw [wordsReversed_length]; omega), mirror, if_neg (by omega), List.getElem?_eq_none (by omega)]

theorem wordsReversed_twice (k b : Nat) (m : List Byte) (hk : 0 < k) (hb : k * b ≤ m.length) :
    wordsReversed k b (wordsReversed k b m) = m := by
  refine List.ext_getElem? fun j => ?_
  rw [wordsReversed_mirror k b _ hk (by rw [wordsReversed_length]; exact hb), wordsReversed_mirror k b m hk hb, mirror_mirror k b j hk]

theorem asSeen_twice (big : Bool) (k b : Nat) (m : List Byte) (hk : 0 < k) (hb : k * b ≤ m.length) :
    asSeen big k b (asSeen big k b m) = m := by
  cases big
  · rfl
  · exact wordsReversed_twice k b m hk hb

theorem asSeen_inj (big : Bool) (k b : Nat) {m m' : List Byte} (hk : 0 < k) (hb : k * b ≤ m.length) (hl : m.length = m'.length)
    (h : asSeen big k b m = asSeen big k b m') : m = m' := by
  rw [← asSeen_twice big k b m hk hb, h, asSeen_twice big k b m' hk (by omega)]

theorem asSeen_neighbours (big : Bool) (k b q i : Nat) {m m' : List Byte} (hk : 0 < k) (hb : k * b ≤ m.length)
    (hl : m.length = m'.length) (hs : ∀ p, p / (k * q) ≠ i → m[p]? = m'[p]?) :
    ∀ p, p / (k * q) ≠ i → (asSeen big k b m)[p]? = (asSeen big k b m')[p]? := by
  intro p hp
  cases big
  · exact hs p hp
  · show (wordsReversed k b m)[p]? = (wordsReversed k b m')[p]?
    rw [wordsReversed_mirror k b m hk hb, wordsReversed_mirror k b m' hk (by omega)]
    exact hs _ (by rw [mirror_block k b q p hk]; exact hp)

theorem mirror_append (k a b j : Nat) (hk : 0 < k) : mirror k (a + b) (k * a + j) = k * a + mirror k b j := by
  rw [mirror, mirror, Nat.mul_add_div hk, Nat.mul_add_mod, Nat.mul_add, Nat.mul_add]
  by_cases h : j < k * b
  · rw [if_pos (by omega), if_pos h]; omega
  · rw [if_neg (by omega), if_neg h]

theorem asSeen_append (big : Bool) (k a b : Nat) (x y : List Byte) (hk : 0 < k) (hx : x.length = k * a) (hy : k * b ≤ y.length) :
    asSeen big k (a + b) (x ++ y) = asSeen big k a x ++ asSeen big k b y := by
  cases big
  · rfl
  · show wordsReversed k (a + b) (x ++ y) = wordsReversed k a x ++ wordsReversed k b y
    have hle : k * (a + b) ≤ (x ++ y).length := by rw [List.length_append, Nat.mul_add]; omega
    refine List.ext_getElem? fun j => ?_
    rw [wordsReversed_mirror k (a + b) _ hk hle]
    by_cases hj : j < k * a
    · have h1 : mirror k (a + b) j = mirror k a j := by
        rw [mirror, mirror, if_pos hj, if_pos (by rw [Nat.mul_add]; omega)]
      have h2 := mirror_lt k a x.length j hk (by omega) (by omega)
      rw [h1, List.getElem?_append_left h2, List.getElem?_append_left (by rw [wordsReversed_length]; omega),
        wordsReversed_mirror k a x hk (by omega)]
    · obtain ⟨t, rfl⟩ : ∃ t, j = k * a + t := ⟨j - k * a, by omega⟩
      rw [mirror_append k a b t hk, List.getElem?_append_right (by omega),
        List.getElem?_append_right (by rw [wordsReversed_length]; omega), wordsReversed_length, wordsReversed_mirror k b y hk hy, hx,
        Nat.add_sub_cancel_left, Nat.add_sub_cancel_left]

/-! ### Digests and words -/

theorem leBytes_word_inj {w n : Nat} (hw : 256 ^ n = 2 ^ w) {a b : BitVec w} (h : leBytes n a.toNat = leBytes n b.toNat) : a = b := by
  rw [← ofNat_number_surj hw a, h, ofNat_number_surj hw b]

theorem beBytes_word_inj {w n : Nat} (hw : 256 ^ n = 2 ^ w) {a b : BitVec w} (h : beBytes n a.toNat = beBytes n b.toNat) : a = b :=
  leBytes_word_inj hw (List.reverse_inj.mp h)

theorem leBytes_word_surj {w n : Nat} (hw : 256 ^ n = 2 ^ w) (d : List Byte) (hd : d.length = n) :
    ∃ v : BitVec w, leBytes n v.toNat = d := by
  refine ⟨BitVec.ofNat w (number d), ?_⟩
  have h1 := number_lt d
  rw [hd, hw] at h1
  rw [BitVec.toNat_ofNat, Nat.mod_eq_of_lt h1]
  subst hd
  exact leBytes_number d

theorem beBytes_word_surj {w n : Nat} (hw : 256 ^ n = 2 ^ w) (d : List Byte) (hd : d.length = n) :
    ∃ v : BitVec w, beBytes n v.toNat = d := by
  obtain ⟨v, hv⟩ := leBytes_word_surj hw d.reverse (by simpa using hd)
  exact ⟨v, by rw [beBytes, hv, List.reverse_reverse]⟩

theorem prefix_length {m m' : List Byte} {n : Nat} (hl : m.length = m'.length) : (m.take n).length = (m'.take n).length := by
  simp [hl]

/-! ### The 32-bit hash -/

/-- The 32-bit hash (C85 has this for every length): two inputs of one length that differ only inside one block of four bytes, at whatever addresses,
have different digests if both have one. -/
theorem neighbours32 (h : Host) (c : M32) (addr addr' : Nat) (data data' : List Byte) (hl : data.length = data'.length)
    (hlen : data.length < 2 ^ 34) (i : Nat) (hs : ∀ p, p / 4 ≠ i → data[p]? = data'[p]?) (hne : data ≠ data') (c1 c2 : M32)
    (h1 : c.update h addr data = .ok c1) (h2 : c.update h addr' data' = .ok c2) : (c1.digest h).1 ≠ (c2.digest h).1 := by
  have get : ∀ (a : Nat) (d : List Byte) (c' : M32), d.length < 2 ^ 34 → c.update h a d = .ok c' →
      (c'.digest h).1 = beBytes 4 (Murmur3.x86_32 c.seed (asSeen h.big 4 (d.length / 4) d)).toNat := by
    intro a d c' hd hu
    obtain ⟨hub, hok⟩ := C63_murmur32_exact h c a d d.length (Nat.mod_eq_of_lt hd).symm
    have hn : ¬ (2 ^ 31 ≤ d.length ∨ (4 ≤ d.length ∧ a % 4 ≠ 0)) := fun hc => by rw [hub hc] at hu; cases hu
    obtain ⟨c'', hu', -, hdig⟩ := hok (by omega) (by omega)
    rw [hu] at hu'
    rw [Outcome.ok.inj hu', hdig, List.take_length]
  intro he
  rw [get addr data c1 hlen h1, get addr' data' c2 (by omega) h2, ← hl] at he
  have e1 := beBytes_word_inj (by decide) he
  have hb : 4 * (data.length / 4) ≤ data.length := Nat.mul_div_le _ _
  rw [← shape_hash32, ← shape_hash32, asSeen_length, asSeen_length, hl] at e1
  rw [hl] at hb
  exact hne (asSeen_inj h.big 4 (data'.length / 4) (by decide) (by omega) hl
    ((shape32 c.seed).neighbours _ _ _ (by rw [asSeen_length, asSeen_length, hl]) i
      (asSeen_neighbours h.big 4 (data'.length / 4) 1 i (by decide) (by omega) hl hs) e1))

/-- **C119, an input for every digest**: for every seed and every four bytes there is exactly one input of four bytes with that
digest. -/
theorem C119_preimage32 (h : Host) (c : M32) (addr : Nat) (ha : addr % 4 = 0) (d : List Byte) (hd : d.length = 4) :
    ∃ data : List Byte, data.length = 4 ∧ (∃ c', c.update h addr data = .ok c' ∧ (c'.digest h).1 = d) ∧
      ∀ other : List Byte, other.length = 4 → (∃ c', c.update h addr other = .ok c' ∧ (c'.digest h).1 = d) → other = data := by
  obtain ⟨v, hv⟩ := beBytes_word_surj (w := 32) (by decide) d hd
  obtain ⟨m, hm, hmv⟩ := (shape32 c.seed).one_block 4 v
  have hm4 : m.length = 4 := hm
  have hx : Murmur3.x86_32 c.seed m = v := by rw [← shape_hash32, hm4]; exact hmv
  have hlen : (asSeen h.big 4 1 m).length = 4 := by rw [asSeen_length, hm4]
  obtain ⟨c', hu, -, hdig⟩ := (C63_murmur32_exact h c addr (asSeen h.big 4 1 m) 4 (by rw [hlen])).2 (by decide) (Or.inr ha)
  rw [List.take_of_length_le (Nat.le_of_eq hlen), Nat.div_self (by decide), asSeen_twice h.big 4 1 m (by decide) (by omega), hx, hv] at hdig
  refine ⟨asSeen h.big 4 1 m, hlen, ⟨c', hu, hdig⟩, ?_⟩
  intro other ho hoc
  obtain ⟨c2, hu2, hdig2⟩ := hoc
  refine Classical.byContradiction fun hne => ?_
  refine neighbours32 h c addr addr other (asSeen h.big 4 1 m) (by omega) (by omega) 0 ?_ hne c2 c' hu2 hu ?_
  · intro p hp
    rw [List.getElem?_eq_none (by omega), List.getElem?_eq_none (by omega)]
  · rw [hdig2, hdig]

/-- **C119, a digest can be forced**: to every input of whole blocks four bytes can be appended that give any digest wanted. -/
theorem C119_force32 (h : Host) (c : M32) (addr : Nat) (ha : addr % 4 = 0) (data : List Byte) (h4 : data.length % 4 = 0)
    (hlen : data.length + 4 < 2 ^ 31) (d : List Byte) (hd : d.length = 4) :
    ∃ s : List Byte, s.length = 4 ∧ ∃ c', c.update h addr (data ++ s) = .ok c' ∧ (c'.digest h).1 = d := by
  obtain ⟨v, hv⟩ := beBytes_word_surj (w := 32) (by decide) d hd
  obtain ⟨s, hs, hsv⟩ := (shape32 c.seed).append_block (data.length + 4) (asSeen h.big 4 (data.length / 4) data)
    (by rw [asSeen_length]; exact h4) v
  have hs4 : s.length = 4 := hs
  have hl : (data ++ asSeen h.big 4 1 s).length = data.length + 4 := by rw [List.length_append, asSeen_length, hs4]
  obtain ⟨c', hu, -, hdig⟩ := (C63_murmur32_exact h c addr (data ++ asSeen h.big 4 1 s) (data.length + 4)
    (by rw [hl, Nat.mod_eq_of_lt (by omega)])).2 hlen (Or.inr ha)
  refine ⟨asSeen h.big 4 1 s, by rw [asSeen_length, hs4], c', hu, ?_⟩
  have hdiv : (data.length + 4) / 4 = data.length / 4 + 1 := by omega
  rw [hdig, List.take_of_length_le (Nat.le_of_eq hl), hdiv, asSeen_append h.big 4 (data.length / 4) 1 _ _ (by decide) (by omega)
    (by rw [asSeen_length, hs4]; decide), asSeen_twice h.big 4 1 s (by decide) (by omega), ← shape_hash32, List.length_append,
    asSeen_length, hs4, hsv, hv]

/-! ### The 128-bit hash of 64-bit targets -/

/-- The 128-bit hash: the same for blocks of 16 bytes and inputs below 64 GiB. -/
theorem neighbours128 (h : Host) (c : M128) (addr addr' : Nat) (data data' : List Byte) (hl : data.length = data'.length)
    (hlen : data.length < 2 ^ 36) (i : Nat) (hs : ∀ p, p / 16 ≠ i → data[p]? = data'[p]?) (hne : data ≠ data') (c1 c2 : M128)
    (h1 : c.update h addr data = .ok c1) (h2 : c.update h addr' data' = .ok c2) : (c1.digest h).1 ≠ (c2.digest h).1 := by
  have get : ∀ (a : Nat) (d : List Byte) (c' : M128), d.length < 2 ^ 36 → c.update h a d = .ok c' →
      ∃ v, v = Murmur3.x64_128WithLength c.seed d.length (asSeen h.big 8 (2 * (d.length / 16)) d) ∧
      (c'.digest h).1 = if h.big then beBytes 8 v.1.toNat ++ beBytes 8 v.2.toNat else leBytes 8 v.1.toNat ++ leBytes 8 v.2.toNat := by
    intro a d c' hd hu
    obtain ⟨hub, hok⟩ := C63_murmur128_exact h c a d d.length (Nat.mod_eq_of_lt hd).symm
    have hn : ¬ (2 ^ 31 ≤ d.length ∨ (16 ≤ d.length ∧ a % 8 ≠ 0)) := fun hc => by rw [hub hc] at hu; cases hu
    obtain ⟨c'', v, hu', -, hv, hdig⟩ := hok (by omega) (by omega)
    rw [hu] at hu'
    rw [List.take_length] at hv
    exact ⟨v, hv, by rw [Outcome.ok.inj hu', hdig]⟩
  intro he
  obtain ⟨v, hv, e1⟩ := get addr data c1 hlen h1
  obtain ⟨v', hv', e2⟩ := get addr' data' c2 (by omega) h2
  rw [e1, e2] at he
  have hvv : v = v' := by
    have l8 : ∀ a b, (leBytes 8 a).length = (leBytes 8 b).length := fun a b => by rw [leBytes_length, leBytes_length]
    have b8 : ∀ a b, (beBytes 8 a).length = (beBytes 8 b).length := fun a b => by simp [beBytes, leBytes_length]
    cases hb : h.big with
    | true =>
      rw [hb, if_pos rfl, if_pos rfl] at he
      obtain ⟨a1, a2⟩ := List.append_inj he (b8 _ _)
      exact Prod.ext (beBytes_word_inj (by decide) a1) (beBytes_word_inj (by decide) a2)
    | false =>
      rw [hb, if_neg (by decide), if_neg (by decide)] at he
      obtain ⟨a1, a2⟩ := List.append_inj he (l8 _ _)
      exact Prod.ext (leBytes_word_inj (by decide) a1) (leBytes_word_inj (by decide) a2)
  rw [hv, hv', ← shape_hash64, ← shape_hash64, hl] at hvv
  have hb : 8 * (2 * (data'.length / 16)) ≤ data'.length := by omega
  exact hne (asSeen_inj h.big 8 (2 * (data'.length / 16)) (by decide) (by omega) hl
    ((shape64 c.seed).neighbours _ _ _ (by rw [asSeen_length, asSeen_length, hl]) i
      (asSeen_neighbours h.big 8 (2 * (data'.length / 16)) 2 i (by decide) (by omega) hl hs) hvv))

theorem pair_of_digest (big : Bool) (d : List Byte) (hd : d.length = 16) : ∃ v : BitVec 64 × BitVec 64,
    (if big then beBytes 8 v.1.toNat ++ beBytes 8 v.2.toNat else leBytes 8 v.1.toNat ++ leBytes 8 v.2.toNat) = d := by
  cases big with
  | true =>
    obtain ⟨a, ea⟩ := beBytes_word_surj (w := 64) (n := 8) (by decide) (d.take 8) (by simp; omega)
    obtain ⟨b, eb⟩ := beBytes_word_surj (w := 64) (n := 8) (by decide) (d.drop 8) (by simp; omega)
    exact ⟨(a, b), by rw [if_pos rfl, ea, eb, List.take_append_drop]⟩
  | false =>
    obtain ⟨a, ea⟩ := leBytes_word_surj (w := 64) (n := 8) (by decide) (d.take 8) (by simp; omega)
    obtain ⟨b, eb⟩ := leBytes_word_surj (w := 64) (n := 8) (by decide) (d.drop 8) (by simp; omega)
    exact ⟨(a, b), by rw [if_neg (by decide), ea, eb, List.take_append_drop]⟩

/-- **C119, an input for every digest**, 128 bits: for every seed and every 16 bytes there is exactly one input of 16 bytes with that
digest. -/
theorem C119_preimage128 (h : Host) (c : M128) (addr : Nat) (ha : addr % 8 = 0) (d : List Byte) (hd : d.length = 16) :
    ∃ data : List Byte, data.length = 16 ∧ (∃ c', c.update h addr data = .ok c' ∧ (c'.digest h).1 = d) ∧
      ∀ other : List Byte, other.length = 16 → (∃ c', c.update h addr other = .ok c' ∧ (c'.digest h).1 = d) → other = data := by
  obtain ⟨v, hv⟩ := pair_of_digest h.big d hd
  obtain ⟨m, hm, hmv⟩ := (shape64 c.seed).one_block 16 v
  have hm16 : m.length = 16 := hm
  have hlen : (asSeen h.big 8 2 m).length = 16 := by rw [asSeen_length, hm16]
  obtain ⟨c', v', hu, -, hv', hdig⟩ := (C63_murmur128_exact h c addr (asSeen h.big 8 2 m) 16 (by rw [hlen])).2 (by decide) (Or.inr ha)
  rw [hlen, List.take_of_length_le (Nat.le_of_eq hlen), Nat.div_self (by decide), Nat.mul_one,
    asSeen_twice h.big 8 2 m (by decide) (by omega), ← shape_hash64, hmv] at hv'
  rw [hv', hv] at hdig
  refine ⟨asSeen h.big 8 2 m, hlen, ⟨c', hu, hdig⟩, ?_⟩
  intro other ho hoc
  obtain ⟨c2, hu2, hdig2⟩ := hoc
  refine Classical.byContradiction fun hne => ?_
  refine neighbours128 h c addr addr other (asSeen h.big 8 2 m) (by omega) (by omega) 0 ?_ hne c2 c' hu2 hu ?_
  · intro p hp
    rw [List.getElem?_eq_none (by omega), List.getElem?_eq_none (by omega)]
  · rw [hdig2, hdig]

/-- **C119, a digest can be forced**, 128 bits: to every input of whole blocks 16 bytes can be appended that give any digest wanted. -/
theorem C119_force128 (h : Host) (c : M128) (addr : Nat) (ha : addr % 8 = 0) (data : List Byte) (h16 : data.length % 16 = 0)
    (hlen : data.length + 16 < 2 ^ 31) (d : List Byte) (hd : d.length = 16) :
    ∃ s : List Byte, s.length = 16 ∧ ∃ c', c.update h addr (data ++ s) = .ok c' ∧ (c'.digest h).1 = d := by
  obtain ⟨v, hv⟩ := pair_of_digest h.big d hd
  obtain ⟨s, hs, hsv⟩ := (shape64 c.seed).append_block (data.length + 16) (asSeen h.big 8 (2 * (data.length / 16)) data)
    (by rw [asSeen_length]; exact h16) v
  have hs16 : s.length = 16 := hs
  have hl : (data ++ asSeen h.big 8 2 s).length = data.length + 16 := by rw [List.length_append, asSeen_length, hs16]
  obtain ⟨c', v', hu, -, hv', hdig⟩ := (C63_murmur128_exact h c addr (data ++ asSeen h.big 8 2 s) (data.length + 16)
    (by rw [hl, Nat.mod_eq_of_lt (by omega)])).2 hlen (Or.inr ha)
  refine ⟨asSeen h.big 8 2 s, by rw [asSeen_length, hs16], c', hu, ?_⟩
  have hdiv : 2 * ((data.length + 16) / 16) = 2 * (data.length / 16) + 2 := by omega
  rw [List.take_of_length_le (Nat.le_of_eq hl), hdiv, asSeen_append h.big 8 (2 * (data.length / 16)) 2 _ _ (by decide) (by omega)
    (by rw [asSeen_length, hs16]; decide), asSeen_twice h.big 8 2 s (by decide) (by omega), ← shape_hash64, hl, hsv] at hv'
  rw [hdig, hv', hv]

/-! ### The 128-bit hash of 32-bit targets -/

theorem words_digest_inj (big : Bool) (v v' : Words)
    (he : ([v.w0, v.w1, v.w2, v.w3].flatMap fun w => if big then beBytes 4 w.toNat else leBytes 4 w.toNat) =
      [v'.w0, v'.w1, v'.w2, v'.w3].flatMap fun w => if big then beBytes 4 w.toNat else leBytes 4 w.toNat) : v = v' := by
  have l4 : ∀ a b : BitVec 32, (if big then beBytes 4 a.toNat else leBytes 4 a.toNat).length =
      (if big then beBytes 4 b.toNat else leBytes 4 b.toNat).length := fun a b => by
    cases big <;> simp [beBytes, leBytes_length]
  have inj : ∀ a b : BitVec 32, (if big then beBytes 4 a.toNat else leBytes 4 a.toNat) =
      (if big then beBytes 4 b.toNat else leBytes 4 b.toNat) → a = b := fun a b h => by
    cases big
    · exact leBytes_word_inj (by decide) h
    · exact beBytes_word_inj (by decide) h
  simp only [List.flatMap_cons, List.flatMap_nil, List.append_nil] at he
  obtain ⟨a0, he⟩ := List.append_inj he (l4 _ _)
  obtain ⟨a1, he⟩ := List.append_inj he (l4 _ _)
  obtain ⟨a2, a3⟩ := List.append_inj he (l4 _ _)
  cases v; cases v'
  simp only [Words.mk.injEq]
  exact ⟨inj _ _ a0, inj _ _ a1, inj _ _ a2, inj _ _ a3⟩

/-- The 128-bit hash of 32-bit targets: the same for every input such a target can hold. -/
theorem neighboursX86 (h : Host) (c : M128x86) (addr addr' : Nat) (data data' : List Byte) (hl : data.length = data'.length)
    (hlen : data.length < 2 ^ 32) (i : Nat) (hs : ∀ p, p / 16 ≠ i → data[p]? = data'[p]?) (hne : data ≠ data') (c1 c2 : M128x86)
    (h1 : c.update h addr data = .ok c1) (h2 : c.update h addr' data' = .ok c2) : (c1.digest h).1 ≠ (c2.digest h).1 := by
  have get : ∀ (a : Nat) (d : List Byte) (c' : M128x86), d.length < 2 ^ 32 → c.update h a d = .ok c' →
      ∃ v, v = Murmur3.x86_128 c.seed (asSeen h.big 4 (4 * (d.length / 16)) d) ∧
      (c'.digest h).1 = [v.w0, v.w1, v.w2, v.w3].flatMap fun w => if h.big then beBytes 4 w.toNat else leBytes 4 w.toNat := by
    intro a d c' hd hu
    obtain ⟨hub, hok⟩ := C84_murmur128_exact h c a d hd
    have hn : ¬ (2 ^ 31 ≤ d.length ∨ (16 ≤ d.length ∧ a % 4 ≠ 0)) := fun hc => by rw [hub hc] at hu; cases hu
    obtain ⟨c'', v, hu', -, hv, hdig⟩ := hok (by omega) (by omega)
    rw [hu] at hu'
    exact ⟨v, hv, by rw [Outcome.ok.inj hu', hdig]⟩
  intro he
  obtain ⟨v, hv, e1⟩ := get addr data c1 hlen h1
  obtain ⟨v', hv', e2⟩ := get addr' data' c2 (by omega) h2
  rw [e1, e2] at he
  have hvv := words_digest_inj h.big v v' he
  rw [hv, hv', ← shape_hashX86, ← shape_hashX86, asSeen_length, asSeen_length, hl] at hvv
  have hb : 4 * (4 * (data'.length / 16)) ≤ data'.length := by omega
  exact hne (asSeen_inj h.big 4 (4 * (data'.length / 16)) (by decide) (by omega) hl
    ((shapeX86 c.seed).neighbours _ _ _ (by rw [asSeen_length, asSeen_length, hl]) i
      (asSeen_neighbours h.big 4 (4 * (data'.length / 16)) 4 i (by decide) (by omega) hl hs) hvv))

theorem words_of_digest (big : Bool) (d : List Byte) (hd : d.length = 16) : ∃ v : Words,
    ([v.w0, v.w1, v.w2, v.w3].flatMap fun w => if big then beBytes 4 w.toNat else leBytes 4 w.toNat) = d := by
  have word : ∀ l : List Byte, l.length = 4 → ∃ a : BitVec 32, (if big then beBytes 4 a.toNat else leBytes 4 a.toNat) = l := by
    intro l hl
    cases big
    · exact leBytes_word_surj (by decide) l hl
    · exact beBytes_word_surj (by decide) l hl
  obtain ⟨a, ea⟩ := word (d.take 4) (by simp; omega)
  obtain ⟨b, eb⟩ := word ((d.drop 4).take 4) (by simp; omega)
  obtain ⟨x, ex⟩ := word (((d.drop 4).drop 4).take 4) (by simp; omega)
  obtain ⟨y, ey⟩ := word (((d.drop 4).drop 4).drop 4) (by simp; omega)
  refine ⟨⟨a, b, x, y⟩, ?_⟩
  simp only [List.flatMap_cons, List.flatMap_nil, List.append_nil]
  rw [ea, eb, ex, ey, List.take_append_drop, List.take_append_drop, List.take_append_drop]

/-- **C119, an input for every digest**, 32-bit targets. -/
theorem C119_preimageX86 (h : Host) (c : M128x86) (addr : Nat) (ha : addr % 4 = 0) (d : List Byte) (hd : d.length = 16) :
    ∃ data : List Byte, data.length = 16 ∧ (∃ c', c.update h addr data = .ok c' ∧ (c'.digest h).1 = d) ∧
      ∀ other : List Byte, other.length = 16 → (∃ c', c.update h addr other = .ok c' ∧ (c'.digest h).1 = d) → other = data := by
  obtain ⟨v, hv⟩ := words_of_digest h.big d hd
  obtain ⟨m, hm, hmv⟩ := (shapeX86 c.seed).one_block 16 v
  have hm16 : m.length = 16 := hm
  have hlen : (asSeen h.big 4 4 m).length = 16 := by rw [asSeen_length, hm16]
  obtain ⟨c', v', hu, -, hv', hdig⟩ := (C84_murmur128_exact h c addr (asSeen h.big 4 4 m) (by omega)).2 (by omega) (Or.inr ha)
  rw [hlen, Nat.div_self (by decide), Nat.mul_one, asSeen_twice h.big 4 4 m (by decide) (by omega), ← shape_hashX86, hm16, hmv] at hv'
  rw [hv', hv] at hdig
  refine ⟨asSeen h.big 4 4 m, hlen, ⟨c', hu, hdig⟩, ?_⟩
  intro other ho hoc
  obtain ⟨c2, hu2, hdig2⟩ := hoc
  refine Classical.byContradiction fun hne => ?_
  refine neighboursX86 h c addr addr other (asSeen h.big 4 4 m) (by omega) (by omega) 0 ?_ hne c2 c' hu2 hu ?_
  · intro p hp
    rw [List.getElem?_eq_none (by omega), List.getElem?_eq_none (by omega)]
  · rw [hdig2, hdig]

/-- **C119, a digest can be forced**, 32-bit targets. -/
theorem C119_forceX86 (h : Host) (c : M128x86) (addr : Nat) (ha : addr % 4 = 0) (data : List Byte) (h16 : data.length % 16 = 0)
    (hlen : data.length + 16 < 2 ^ 31) (d : List Byte) (hd : d.length = 16) :
    ∃ s : List Byte, s.length = 16 ∧ ∃ c', c.update h addr (data ++ s) = .ok c' ∧ (c'.digest h).1 = d := by
  obtain ⟨v, hv⟩ := words_of_digest h.big d hd
  obtain ⟨s, hs, hsv⟩ := (shapeX86 c.seed).append_block (data.length + 16) (asSeen h.big 4 (4 * (data.length / 16)) data)
    (by rw [asSeen_length]; exact h16) v
  have hs16 : s.length = 16 := hs
  have hl : (data ++ asSeen h.big 4 4 s).length = data.length + 16 := by rw [List.length_append, asSeen_length, hs16]
  obtain ⟨c', v', hu, -, hv', hdig⟩ := (C84_murmur128_exact h c addr (data ++ asSeen h.big 4 4 s) (by omega)).2 (by omega) (Or.inr ha)
  refine ⟨asSeen h.big 4 4 s, by rw [asSeen_length, hs16], c', hu, ?_⟩
  have hdiv : 4 * ((data.length + 16) / 16) = 4 * (data.length / 16) + 4 := by omega
  rw [hl, hdiv, asSeen_append h.big 4 (4 * (data.length / 16)) 4 _ _ (by decide) (by omega)
    (by rw [asSeen_length, hs16]; decide), asSeen_twice h.big 4 4 s (by decide) (by omega), ← shape_hashX86, List.length_append,
    asSeen_length, hs16, hsv] at hv'
  rw [hdig, hv', hv]

/-- Four bytes whose digest is zero exist. -/
example : ∃ data : List Byte, data.length = 4 ∧
    ∃ c', (M32.new 0).update Md5.someHost 0 data = .ok c' ∧ (c'.digest Md5.someHost).1 = [0, 0, 0, 0] := by
  obtain ⟨data, h1, h2, -⟩ := C119_preimage32 Md5.someHost (M32.new 0) 0 rfl [0, 0, 0, 0] rfl
  exact ⟨data, h1, h2⟩

/-- Any digest for an input that begins with eight given bytes. -/
example : ∃ s : List Byte, s.length = 4 ∧ ∃ c', (M32.new 1).update Md5.someHost 0 ([1, 2, 3, 4, 5, 6, 7, 8] ++ s) = .ok c' ∧
    (c'.digest Md5.someHost).1 = [0xde, 0xad, 0xbe, 0xef] :=
  C119_force32 Md5.someHost (M32.new 1) 0 rfl [1, 2, 3, 4, 5, 6, 7, 8] rfl (by decide) _ rfl

example : ∃ s : List Byte, s.length = 16 ∧ ∃ c', (M128.new 1).update Md5.someHost 0 ([] ++ s) = .ok c' ∧
    (c'.digest Md5.someHost).1 = List.replicate 16 0 :=
  C119_force128 Md5.someHost (M128.new 1) 0 rfl [] rfl (by decide) _ rfl

end Solace.Hash.Murmur.Reach
