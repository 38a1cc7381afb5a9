import Verif.Lemmas.ByteWriter
import Verif.Props.C01_C02_ByteReader
/-
C06: integers survive a write/read round trip in both byte orders.
-/
namespace Solace

/-- Specification: `bs` is the `n`-byte little-endian notation of `v`: byte `i` is the digit of weight `256^i`. -/
def IsLittleEndian (n v : Nat) (bs : List Byte) : Prop :=
  bs.length = n ∧ ∀ i (h : i < bs.length), bs[i].toNat = v / 256 ^ i % 256

/-- Specification: most significant digit first. -/
def IsBigEndian (n v : Nat) (bs : List Byte) : Prop :=
  bs.length = n ∧ ∀ i (h : i < bs.length), bs[i].toNat = v / 256 ^ (n - 1 - i) % 256

/-- Widths of the overloads, in bytes. -/
def IsWidth (n : Nat) : Prop := n = 1 ∨ n = 2 ∨ n = 4 ∨ n = 8

theorem leRepr_length (n v : Nat) : (leRepr n v).length = n := by
  induction n generalizing v with
  | zero => rfl
  | succ n ih => simp [leRepr, ih]

theorem leRepr_spec (n v : Nat) : IsLittleEndian n v (leRepr n v) := by
  refine ⟨leRepr_length n v, ?_⟩
  induction n generalizing v with
  | zero => intro i h; simp [leRepr] at h
  | succ n ih =>
    intro i h
    cases i with
    | zero => simp [leRepr]
    | succ i =>
      simp only [leRepr, List.getElem_cons_succ]
      rw [ih, Nat.pow_succ, Nat.mul_comm, ← Nat.div_div_eq_div_mul]

theorem leRepr_reverse_spec (n v : Nat) : IsBigEndian n v (leRepr n v).reverse := by
  refine ⟨by rw [List.length_reverse, leRepr_length], ?_⟩
  intro i h
  rw [List.getElem_reverse, (leRepr_spec n v).2, leRepr_length]

theorem leValue_leRepr (n v : Nat) (h : v < 256 ^ n) : leValue (leRepr n v) = v := by
  induction n generalizing v with
  | zero => simp at h; simp [leRepr, leValue, h]
  | succ n ih =>
    simp only [leRepr, leValue]
    rw [ih (v / 256) (by rw [Nat.div_lt_iff_lt_mul (by decide)]; rwa [Nat.pow_succ] at h)]
    simp; omega

theorem hostValue_hostRepr (big : Bool) (n v : Nat) (h : v < 256 ^ n) : hostValue big (hostRepr big n v) = v := by
  cases big <;> simp [hostValue, hostRepr, leValue_leRepr n v h]

theorem leRepr_one_reverse (v : Nat) : (leRepr 1 v).reverse = leRepr 1 v := rfl

theorem writeLEInt_eq (big : Bool) (n : Nat) (s : ByteWriter) (v : Nat) :
    s.writeLEInt big n v = s.write (leRepr n v) := by
  unfold ByteWriter.writeLEInt
  split
  · subst_vars
    cases big <;> simp [hostRepr, leRepr_one_reverse]
  · cases big <;> simp [ByteWriter.writeLE, hostRepr, swapBytes_eq_reverse]

theorem writeBEInt_eq (big : Bool) (n : Nat) (s : ByteWriter) (v : Nat) :
    s.writeBEInt big n v = s.write (leRepr n v).reverse := by
  unfold ByteWriter.writeBEInt
  split
  · subst_vars
    cases big <;> simp [hostRepr, leRepr_one_reverse]
  · cases big <;> simp [ByteWriter.writeBE, hostRepr, swapBytes_eq_reverse]

theorem hostRepr_length (big : Bool) (n v : Nat) : (hostRepr big n v).length = n := by
  cases big <;> simp [hostRepr, leRepr_length]

open ByteWriter in
/-- Writing `bs` at position `p` of a buffer with room. -/
theorem write_fits (s : ByteWriter) (bs : List Byte) (hm : s.InMachine) (hb : bs ≠ [])
    (hle : s.position ≤ s.limit) (hlim : s.limit < 2 ^ 64)
    (hroom : s.position + bs.length ≤ s.limit) (hcap : s.limit ≤ s.data.length) :
    s.write bs = ({ s with data := overwrite s.data s.position bs, position := s.position + bs.length }, .ok ()) := by
  have hrem : s.remaining = s.limit - s.position := by rw [remaining, sub64_of_le hle hlim]
  rcases write_cases s bs hm with ⟨h, hw⟩ | ⟨_, hc, hw⟩ | ⟨_, hc, hr, hw⟩ | ⟨_, hc, hr, hw⟩
  · exact absurd h hb
  · omega
  · omega
  · exact hw

theorem drop_take_overwrite (data bs : List Byte) (p : Nat) (h : p + bs.length ≤ data.length) :
    ((ByteWriter.overwrite data p bs).drop p).take bs.length = bs := by
  have hl : (data.take p).length = p := by simp; omega
  unfold ByteWriter.overwrite
  rw [List.append_assoc, List.drop_append_of_le_length (by omega), List.drop_of_length_le (by omega)]
  simp

/-- Reading `n` bytes at the position gives the stored bytes. -/
theorem read_stored (r : ByteReader) (hwf : r.WF) (d : List Byte) (hroom : r.position + d.length ≤ r.limit) :
    r.read d = ⟨{ r with position := r.position + d.length }, .ok none, (r.data.drop r.position).take d.length⟩ := by
  have hrem := ByteReader.remaining_of_wf hwf
  obtain ⟨h1, h2, h3⟩ := hwf
  rcases ByteReader.read_cases r d h3 (by omega) with ⟨_, h⟩ | ⟨_, _, h⟩
  · omega
  · exact h

attribute [local irreducible] ByteReader.read ByteWriter.write ByteWriter.overwrite

theorem readLEInt_stored (big : Bool) (n : Nat) (r : ByteReader) (hwf : r.WF) (old : Nat)
    (hroom : r.position + n ≤ r.limit) :
    r.readLEInt big n old =
      ({ r with position := r.position + n }, .ok none, leValue ((r.data.drop r.position).take n)) := by
  have hlen := hostRepr_length big n old
  have hr := read_stored r hwf (hostRepr big n old) (by omega)
  rw [hlen] at hr
  rw [ByteReader.readLEInt]
  by_cases hn : n = 1
  · subst hn
    rw [if_pos rfl, hr]
    have hrev : ((r.data.drop r.position).take 1).reverse = (r.data.drop r.position).take 1 := by
      cases (r.data.drop r.position) <;> rfl
    simp only [ReadCall.asInt]
    cases big <;> simp [hostValue, hrev]
  · rw [if_neg hn, ByteReader.readLE, hr]
    simp only [ByteReader.thenSwap, ReadCall.asInt, swapBytes_eq_reverse]
    cases big <;> simp [hostValue]

theorem readBEInt_stored (big : Bool) (n : Nat) (r : ByteReader) (hwf : r.WF) (old : Nat)
    (hroom : r.position + n ≤ r.limit) :
    r.readBEInt big n old =
      ({ r with position := r.position + n }, .ok none, leValue ((r.data.drop r.position).take n).reverse) := by
  have hlen := hostRepr_length big n old
  have hr := read_stored r hwf (hostRepr big n old) (by omega)
  rw [hlen] at hr
  rw [ByteReader.readBEInt]
  by_cases hn : n = 1
  · subst hn
    rw [if_pos rfl, hr]
    have hrev : ((r.data.drop r.position).take 1).reverse = (r.data.drop r.position).take 1 := by
      cases (r.data.drop r.position) <;> rfl
    simp only [ReadCall.asInt]
    cases big <;> simp [hostValue, hrev]
  · rw [if_neg hn, ByteReader.readBE, hr]
    simp only [ByteReader.thenSwap, ReadCall.asInt, swapBytes_eq_reverse]
    cases big <;> simp [hostValue]

/-- A writer with room for `n` more bytes. -/
def HasRoom (s : ByteWriter) (n : Nat) : Prop :=
  s.position + n ≤ s.limit ∧ s.limit ≤ s.data.length ∧ s.data.length < 2 ^ 64

/-- A reader at the same place as the writer was: over the same buffer, same position and limit. -/
def readerAt (s : ByteWriter) (data : List Byte) : ByteReader := ⟨data, s.position, s.limit⟩

/-- **C06, canonical form.** On either host, `writeLE`/`writeBE` of an `n`-byte value `v` stores exactly the
little-endian or big-endian notation of `v` at the position, advances by `n`, and changes nothing else. -/
theorem C06_canonical (big : Bool) (n v : Nat) (hn : IsWidth n) (s : ByteWriter) (hs : HasRoom s n) :
    (∃ le, IsLittleEndian n v le ∧
      s.writeLEInt big n v = ({ s with data := ByteWriter.overwrite s.data s.position le, position := s.position + n }, .ok ())) ∧
    (∃ be, IsBigEndian n v be ∧
      s.writeBEInt big n v = ({ s with data := ByteWriter.overwrite s.data s.position be, position := s.position + n }, .ok ())) := by
  obtain ⟨h1, h2, h3⟩ := hs
  have hn0 : 0 < n := by rcases hn with h | h | h | h <;> omega
  have hl := leRepr_length n v
  have hl' : (leRepr n v).reverse.length = n := by simp [hl]
  constructor
  · refine ⟨_, leRepr_spec n v, ?_⟩
    rw [writeLEInt_eq, write_fits s (leRepr n v) ⟨h3, by omega⟩ (by intro h; rw [h] at hl; simp at hl; omega)
      (by omega) (by omega) (by omega) h2, hl]
  · refine ⟨_, leRepr_reverse_spec n v, ?_⟩
    rw [writeBEInt_eq, write_fits s (leRepr n v).reverse ⟨h3, by omega⟩
      (by intro h; rw [h] at hl'; simp at hl'; omega) (by omega) (by omega) (by omega) h2, hl']

/-- **C06, round trip.** Reading back with the same order gives the value; reading in the other order gives the value
of the reversed bytes. Writer host and reader host may even differ. -/
theorem C06_round_trip (bigW bigR : Bool) (n v old : Nat) (hn : IsWidth n) (hv : v < 256 ^ n)
    (s : ByteWriter) (hs : HasRoom s n) :
    let wLE := (s.writeLEInt bigW n v).1
    let wBE := (s.writeBEInt bigW n v).1
    ((readerAt s wLE.data).readLEInt bigR n old).2 = (.ok none, v) ∧
    ((readerAt s wBE.data).readBEInt bigR n old).2 = (.ok none, v) ∧
    (∃ w, (∀ be, IsBigEndian n v be → IsLittleEndian n w be) ∧
      ((readerAt s wBE.data).readLEInt bigR n old).2 = (.ok none, w) ∧
      ((readerAt s wLE.data).readBEInt bigR n old).2 = (.ok none, w)) := by
  obtain ⟨h1, h2, h3⟩ := hs
  have hn0 : 0 < n := by rcases hn with h | h | h | h <;> omega
  have hl := leRepr_length n v
  have hl' : (leRepr n v).reverse.length = n := by simp [hl]
  have e1 : (s.writeLEInt bigW n v).1.data = ByteWriter.overwrite s.data s.position (leRepr n v) := by
    rw [writeLEInt_eq, write_fits s (leRepr n v) ⟨h3, by omega⟩ (by intro h; rw [h] at hl; simp at hl; omega)
      (by omega) (by omega) (by omega) h2]
  have e2 : (s.writeBEInt bigW n v).1.data = ByteWriter.overwrite s.data s.position (leRepr n v).reverse := by
    rw [writeBEInt_eq, write_fits s (leRepr n v).reverse ⟨h3, by omega⟩
      (by intro h; rw [h] at hl'; simp at hl'; omega) (by omega) (by omega) (by omega) h2]
  simp only
  rw [e1, e2]
  have wf1 : (readerAt s (ByteWriter.overwrite s.data s.position (leRepr n v))).WF := by
    refine ⟨show s.position ≤ s.limit by omega, ?_, ?_⟩
    · show s.limit ≤ (ByteWriter.overwrite s.data s.position (leRepr n v)).length
      rw [ByteWriter.overwrite_length _ _ _ (by omega)]; exact h2
    · show (ByteWriter.overwrite s.data s.position (leRepr n v)).length < 2 ^ 64
      rw [ByteWriter.overwrite_length _ _ _ (by omega)]; exact h3
  have wf2 : (readerAt s (ByteWriter.overwrite s.data s.position (leRepr n v).reverse)).WF := by
    refine ⟨show s.position ≤ s.limit by omega, ?_, ?_⟩
    · show s.limit ≤ (ByteWriter.overwrite s.data s.position (leRepr n v).reverse).length
      rw [ByteWriter.overwrite_length _ _ _ (by omega)]; exact h2
    · show (ByteWriter.overwrite s.data s.position (leRepr n v).reverse).length < 2 ^ 64
      rw [ByteWriter.overwrite_length _ _ _ (by omega)]; exact h3
  have d1 := drop_take_overwrite s.data (leRepr n v) s.position (by omega)
  have d2 := drop_take_overwrite s.data (leRepr n v).reverse s.position (by omega)
  rw [hl] at d1
  rw [hl'] at d2
  rw [readLEInt_stored bigR n _ wf1 old h1, readBEInt_stored bigR n _ wf2 old h1,
    readLEInt_stored bigR n _ wf2 old h1, readBEInt_stored bigR n _ wf1 old h1]
  simp only [readerAt, d1, d2, List.reverse_reverse]
  refine ⟨by rw [leValue_leRepr n v hv], by rw [leValue_leRepr n v hv], leValue (leRepr n v).reverse, ?_, rfl, rfl⟩
  intro be hbe
  -- the big-endian notation is unique
  have hbe' : be = (leRepr n v).reverse := by
    apply List.ext_getElem
    · rw [hbe.1, hl']
    · intro i h h'
      have a := hbe.2 i h
      have b := (leRepr_reverse_spec n v).2 i h'
      exact BitVec.eq_of_toNat_eq (a.trans b.symm)
  subst hbe'
  have gen : ∀ bs : List Byte, IsLittleEndian bs.length (leValue bs) bs := by
    intro bs
    refine ⟨rfl, ?_⟩
    induction bs with
    | nil => intro i h; simp at h
    | cons b bs ih =>
      intro i h
      have hb := b.isLt
      cases i with
      | zero => simp [leValue]; omega
      | succ i =>
        simp only [leValue, List.getElem_cons_succ]
        rw [ih i (by simpa using h), Nat.pow_succ, Nat.mul_comm (256 ^ i), ← Nat.div_div_eq_div_mul]
        congr 2
        omega
  have := gen (leRepr n v).reverse
  rwa [hl'] at this

example : HasRoom ⟨[1, 2, 3, 4, 5], 1, 5⟩ 4 ∧ IsWidth 4 ∧ 0x01020304 < 256 ^ 4 := by
  refine ⟨⟨by decide, by decide, by decide⟩, .inr (.inr (.inl rfl)), by decide⟩

example : ((readerAt ⟨[0, 0, 0], 1, 3⟩ (ByteWriter.writeBEInt false 2 ⟨[0, 0, 0], 1, 3⟩ 0x1234).1.data).readLEInt
    true 2 0).2 = (.ok none, 0x3412) := by decide +kernel

end Solace
