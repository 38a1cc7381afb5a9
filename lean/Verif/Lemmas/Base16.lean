import Verif.Model.Base16
import Verif.Spec.Hex
import Verif.Lemmas.Chunks
namespace Solace.Base16
open ByteWriter

theorem hexPair_eq (b : Byte) : hexPair b = [Hex.digit (b.toNat / 16), Hex.digit (b.toNat % 16)] := by
  revert b; decide +kernel

theorem charToBin_eq (c : Byte) (h : c.toNat < 128) :
    charToBin c = .ok (match Hex.value c with | some v => .ok v | none => .error .ilseq) := by
  revert c; decide +kernel

theorem charToBin_ub (c : Byte) (h : 128 ≤ c.toNat) : charToBin c = .ub := by
  have : kHexToBin[c.toNat]? = none := by
    rw [List.getElem?_eq_none_iff]
    have : kHexToBin.length = 128 := by decide +kernel
    omega
  rw [charToBin, this]

theorem value_lt (c : Byte) (v : Nat) (h : Hex.value c = some v) : v < 16 := by
  unfold Hex.value at h
  split at h
  · cases h; omega
  · split at h
    · cases h; omega
    · split at h
      · cases h; omega
      · cases h

theorem value_ascii (c : Byte) (h : Hex.IsDigit c) : c.toNat < 128 := by
  revert c; decide +kernel

theorem decode16_eq (a b : Byte) (ha : a.toNat < 128) (hb : b.toNat < 128) :
    decode16 a b = .ok (match Hex.value a, Hex.value b with
      | some h, some l => .ok (BitVec.ofNat 8 (16 * h + l))
      | _, _ => .error .ilseq) := by
  rw [decode16, charToBin_eq a ha, charToBin_eq b hb]
  cases h1 : Hex.value a <;> cases h2 : Hex.value b <;> simp [Nat.shiftLeft_eq, Nat.mul_comm]

theorem encode_eq (src : List Byte) (dest : ByteWriter) :
    encode dest src = dest.writeChunks (src.map hexPair) := by
  induction src generalizing dest with
  | nil => rfl
  | cons b src ih =>
    rw [encode, List.map_cons, writeChunks]
    split <;> simp [*]

theorem text_eq (src : List Byte) : (src.map hexPair).flatten = Hex.text src := by
  induction src with
  | nil => rfl
  | cons b src ih => rw [List.map_cons, List.flatten_cons, ih, hexPair_eq]; rfl

theorem text_length (src : List Byte) : (Hex.text src).length = 2 * src.length := by
  induction src with
  | nil => rfl
  | cons b src ih =>
    have : Hex.text (b :: src) = Hex.digit (b.toNat / 16) :: Hex.digit (b.toNat % 16) :: Hex.text src := rfl
    rw [this, List.length_cons, List.length_cons, ih, List.length_cons]; omega

theorem digit_value (n : Nat) (h : n < 16) : Hex.value (Hex.digit n) = some n := by
  have : ∀ n : Fin 16, Hex.value (Hex.digit n) = some n.val := by decide +kernel
  exact this ⟨n, h⟩

theorem digit_lower (n : Nat) (h : n < 16) : Hex.IsLowerDigit (Hex.digit n) := by
  have : ∀ n : Fin 16, Hex.IsLowerDigit (Hex.digit n) := by decide +kernel
  exact this ⟨n, h⟩

theorem parse_text (src : List Byte) : Hex.parse (Hex.text src) = some src := by
  induction src with
  | nil => rfl
  | cons b src ih =>
    have : Hex.text (b :: src) = Hex.digit (b.toNat / 16) :: Hex.digit (b.toNat % 16) :: Hex.text src := rfl
    rw [this, Hex.parse, digit_value _ (by omega), digit_value _ (by omega), ih]
    simp only
    congr 2
    apply BitVec.eq_of_toNat_eq
    simp; omega

/-- Decoding accepted text: the bytes it denotes are written one by one. -/
theorem decodeLoop_parse (src : List Byte) (dest : ByteWriter) (bs : List Byte) (h : Hex.parse src = some bs) :
    decodeLoop dest src = .ok (dest.writeChunks (bs.map fun b => [b])) := by
  induction src using Hex.parse.induct generalizing dest bs with
  | case1 => cases h; rfl
  | case2 => cases h
  | case3 a b rest hh l bs' hr hb ha ih =>
    rw [Hex.parse, ha, hb, hr] at h
    cases h
    have h1 : a.toNat < 128 := value_ascii a (by simp [Hex.IsDigit, ha])
    have h2 : b.toNat < 128 := value_ascii b (by simp [Hex.IsDigit, hb])
    rw [decodeLoop, decode16_eq a b h1 h2, ha, hb, List.map_cons, writeChunks]
    simp only
    split
    · rename_i hw; rw [hw]; simp only; exact ih _ _ hr
    · rename_i hw; rw [hw]
  | case4 a b rest hno ih =>
    rw [Hex.parse] at h
    split at h
    · rename_i h1 h2 h3; exact absurd h3 (hno _ _ _ h1 h2)
    · cases h

theorem parse_isSome_iff (src : List Byte) :
    (Hex.parse src).isSome ↔ src.length % 2 = 0 ∧ ∀ c ∈ src, Hex.IsDigit c := by
  induction src using Hex.parse.induct with
  | case1 => simp [Hex.parse]
  | case2 c => simp [Hex.parse]
  | case3 a b rest hh l bs' hr hb ha ih =>
    rw [Hex.parse, ha, hb, hr]
    simp only [hr, Option.isSome_some, true_iff] at ih
    simp only [Option.isSome_some, true_iff]
    refine ⟨by simp; omega, ?_⟩
    intro c hc
    simp only [List.mem_cons] at hc
    rcases hc with rfl | rfl | hc
    · simp [Hex.IsDigit, ha]
    · simp [Hex.IsDigit, hb]
    · exact ih.2 c hc
  | case4 a b rest hno ih =>
    have : Hex.parse (a :: b :: rest) = none := by
      rw [Hex.parse]
      split
      · rename_i h1 h2 h3; exact absurd h3 (hno _ _ _ h1 h2)
      · rfl
    rw [this]
    simp only [Option.isSome_none, Bool.false_eq_true, false_iff, not_and]
    intro hlen hall
    have ha : Hex.IsDigit a := hall a (by simp)
    have hb : Hex.IsDigit b := hall b (by simp)
    have hr : (Hex.parse rest).isSome := ih.2 ⟨by simp at hlen; omega, fun c hc => hall c (by simp [hc])⟩
    obtain ⟨va, ha⟩ := Option.ne_none_iff_exists'.mp ha
    obtain ⟨vb, hb⟩ := Option.ne_none_iff_exists'.mp hb
    obtain ⟨vr, hr⟩ := Option.isSome_iff_exists.mp hr
    exact hno _ _ _ ha hb hr

end Solace.Base16

namespace Solace.Base16
open ByteWriter

theorem flatten_singletons (bs : List Byte) : (bs.map fun b => [b]).flatten = bs := by
  induction bs with
  | nil => rfl
  | cons b bs ih => simp [ih]

/-- Decoding text outside the language: an error, provided every character is ASCII. -/
theorem decodeLoop_reject (src : List Byte) (dest : ByteWriter) (hlen : src.length % 2 = 0)
    (hascii : ∀ c ∈ src, c.toNat < 128) (h : Hex.parse src = none) :
    ∃ d e, decodeLoop dest src = .ok (d, .error e) := by
  induction src using Hex.parse.induct generalizing dest with
  | case1 => cases h
  | case2 => simp at hlen
  | case3 a b rest hh l bs' hr hb ha ih => rw [Hex.parse, ha, hb, hr] at h; cases h
  | case4 a b rest hno ih =>
    rw [decodeLoop, decode16_eq a b (hascii a (by simp)) (hascii b (by simp))]
    cases ha : Hex.value a with
    | none => exact ⟨_, _, rfl⟩
    | some va =>
      cases hb : Hex.value b with
      | none => exact ⟨_, _, rfl⟩
      | some vb =>
        simp only
        split
        · apply ih
          · simp at hlen; omega
          · exact fun c hc => hascii c (by simp [hc])
          · cases hr : Hex.parse rest with
            | none => rfl
            | some vr => exact absurd hr (hno _ _ _ ha hb)
        · exact ⟨_, _, rfl⟩

theorem text_parse (src bs : List Byte) (h : Hex.parse src = some bs) : Hex.text bs = src.map Hex.toLower := by
  have hd : ∀ (c : Byte) (v : Nat), Hex.value c = some v → Hex.digit v = Hex.toLower c := by
    have : ∀ c : Byte, (Hex.value c).map Hex.digit = (Hex.value c).map fun _ => Hex.toLower c := by
      decide +kernel
    intro c v h
    have := this c
    rw [h] at this
    exact Option.some.inj this
  induction src using Hex.parse.induct generalizing bs with
  | case1 => cases h; rfl
  | case2 => cases h
  | case3 a b rest hh l bs' hr hb ha ih =>
    rw [Hex.parse, ha, hb, hr] at h
    cases h
    have h1 := value_lt a hh ha
    have h2 := value_lt b l hb
    have : Hex.text (BitVec.ofNat 8 (16 * hh + l) :: bs') =
        Hex.digit ((BitVec.ofNat 8 (16 * hh + l)).toNat / 16) :: Hex.digit ((BitVec.ofNat 8 (16 * hh + l)).toNat % 16) ::
          Hex.text bs' := rfl
    rw [this, BitVec.toNat_ofNat, ih bs' hr, List.map_cons, List.map_cons, ← hd a hh ha, ← hd b l hb]
    congr 2
    · omega
    · congr 1; omega
  | case4 a b rest hno ih =>
    rw [Hex.parse] at h
    split at h
    · rename_i h1 h2 h3; exact absurd h3 (hno _ _ _ h1 h2)
    · cases h

/-- The longest even prefix made of digit pairs, and what it denotes. -/
def goodPrefix : List Byte → List Byte × List Byte
  | a :: b :: rest =>
    match Hex.value a, Hex.value b with
    | some h, some l => (a :: b :: (goodPrefix rest).1, BitVec.ofNat 8 (16 * h + l) :: (goodPrefix rest).2)
    | _, _ => ([], [])
  | _ => ([], [])

theorem goodPrefix_spec (src : List Byte) : (goodPrefix src).1 <+: src ∧
    Hex.parse (goodPrefix src).1 = some (goodPrefix src).2 ∧
    ∀ q, q <+: src → (goodPrefix src).1.length < q.length → Hex.parse q = none := by
  induction src using goodPrefix.induct with
  | case1 a b rest h l ha hb ih =>
    obtain ⟨h1, h2, h3⟩ := ih
    rw [goodPrefix, hb, ha]
    refine ⟨by simpa using h1, by simp [Hex.parse, ha, hb, h2], ?_⟩
    intro q hq hl
    match q with
    | [] => simp at hl
    | [_] => rfl
    | x :: y :: q =>
      simp only [List.cons_prefix_cons] at hq
      obtain ⟨rfl, rfl, hq⟩ := hq
      rw [Hex.parse, h3 q hq (by simpa using hl)]
      simp
  | case2 a b rest hno =>
    have : goodPrefix (a :: b :: rest) = ([], []) := by
      rw [goodPrefix]; split
      · rename_i h1 h2; exact absurd h2 (hno _ _ h1)
      · rfl
    rw [this]
    refine ⟨List.nil_prefix, rfl, ?_⟩
    intro q hq hl
    match q with
    | [] => simp at hl
    | [_] => rfl
    | x :: y :: q =>
      simp only [List.cons_prefix_cons] at hq
      obtain ⟨rfl, rfl, hq⟩ := hq
      rw [Hex.parse]
      split
      · rename_i h1 h2 h3; exact absurd h2 (hno _ _ h1)
      · rfl
  | case3 src hno =>
    have : goodPrefix src = ([], []) := by
      match src with
      | [] => rfl
      | [_] => rfl
      | a :: b :: rest => exact absurd rfl (hno a b rest)
    rw [this]
    refine ⟨List.nil_prefix, rfl, ?_⟩
    intro q hq hl
    match src, q with
    | _, [] => simp at hl
    | _, [_] => rfl
    | [], x :: y :: q => simp at hq
    | [_], x :: y :: q => simp at hq
    | a :: b :: rest, _ => exact absurd rfl (hno a b rest)

theorem load_collect (src : List Byte) (hascii : ∀ c ∈ src, c.toNat < 128) (old : Option Byte) :
    ∃ it, DecIter.load src old = .ok it ∧ ∀ n, src.length < n → it.collect n = some (.ok (goodPrefix src).2) := by
  induction src using goodPrefix.induct generalizing old with
  | case1 a b rest h l ha hb ih =>
    have hd := decode16_eq a b (hascii a (by simp)) (hascii b (by simp))
    rw [ha, hb] at hd
    simp only at hd
    rw [DecIter.load, hd]
    refine ⟨_, rfl, ?_⟩
    intro n hn
    obtain ⟨it, h1, h2⟩ := ih (fun c hc => hascii c (by simp [hc])) (some (BitVec.ofNat 8 (16 * h + l)))
    match n with
    | 0 => simp at hn
    | n + 1 =>
      rw [DecIter.collect, goodPrefix, ha, hb]
      simp only [DecIter.deref, DecIter.next, h1, h2 n (by simp at hn; omega)]
      simp
  | case2 a b rest hno =>
    have hd := decode16_eq a b (hascii a (by simp)) (hascii b (by simp))
    have hg : goodPrefix (a :: b :: rest) = ([], []) := by
      rw [goodPrefix]; split
      · rename_i h1 h2; exact absurd h2 (hno _ _ h1)
      · rfl
    have hd' : decode16 a b = .ok (.error .ilseq) := by
      rw [hd]; split
      · rename_i h1 h2; exact absurd h2 (hno _ _ h1)
      · rfl
    rw [DecIter.load, hd']
    refine ⟨_, rfl, ?_⟩
    intro n hn
    match n with
    | 0 => simp at hn
    | n + 1 => rw [DecIter.collect, hg]; simp
  | case3 src hno =>
    have : goodPrefix src = ([], []) ∧ DecIter.load src old = .ok ⟨[], old⟩ := by
      match src with
      | [] => exact ⟨rfl, rfl⟩
      | [_] => exact ⟨rfl, rfl⟩
      | a :: b :: rest => exact absurd rfl (hno a b rest)
    rw [this.1, this.2]
    refine ⟨_, rfl, ?_⟩
    intro n hn
    match n with
    | 0 => simp at hn
    | n + 1 => rw [DecIter.collect]; simp

end Solace.Base16
