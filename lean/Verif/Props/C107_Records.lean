import Verif.Model.Record
import Verif.Lemmas.Chunks
import Verif.Lemmas.MemoryView
import Verif.Props.C06_Endian
/-
C107: records written field by field are read back field by field.
-/
namespace Solace.Record

open ByteWriter ByteReader

/-- Specification: bytes a field takes. -/
def size : Item → Nat
  | .le n _ | .be n _ | .host n _ => n
  | .raw bs => bs.length

/-- Bytes a record takes. -/
def total (is : List Item) : Nat := (is.map size).sum

/-- Specification: integers have a width the interface offers and fit it. -/
def Fits : Item → Prop
  | .le n v | .be n v | .host n v => IsWidth n ∧ v < 256 ^ n
  | .raw _ => True

/-- Specification: `bs` are the bytes of the field as a host of byte order `big` writes it. Only `host` fields depend on it. -/
def Bytes (big : Bool) : Item → List Byte → Prop
  | .le n v, bs => IsLittleEndian n v bs
  | .be n v, bs => IsBigEndian n v bs
  | .host n v, bs => if big then IsBigEndian n v bs else IsLittleEndian n v bs
  | .raw b, bs => bs = b

/-- Specification: the fields of the record, one after the other. -/
def Text (big : Bool) : List Item → List Byte → Prop
  | [], bs => bs = []
  | i :: is, bs => ∃ a b, Bytes big i a ∧ Text big is b ∧ bs = a ++ b

/-- Specification: a variable that can receive the field: same kind, same number of bytes. -/
def Same : Item → Item → Prop
  | .le n _, .le m _ => n = m
  | .be n _, .be m _ => n = m
  | .host n _, .host m _ => n = m
  | .raw a, .raw b => a.length = b.length
  | _, _ => False

/-- Specification: what a field written on one host is on another: `host` fields arrive with their bytes in the other order,
all else arrives as it was. -/
def Arrives (bigW bigR : Bool) : Item → Item → Prop
  | .host n v, j => ∃ w, j = .host n w ∧ w < 256 ^ n ∧ ∀ bs, Bytes bigW (.host n v) bs → Bytes bigR (.host n w) bs
  | i, j => j = i

inductive All2 {α β : Type} (R : α → β → Prop) : List α → List β → Prop
  | nil : All2 R [] []
  | cons {a b as bs} : R a b → All2 R as bs → All2 R (a :: as) (b :: bs)

/-! ### Lemmas -/

/-- The bytes of a field. -/
def enc (big : Bool) : Item → List Byte
  | .le n v => leRepr n v
  | .be n v => (leRepr n v).reverse
  | .host n v => hostRepr big n v
  | .raw b => b

theorem enc_length (big : Bool) (i : Item) : (enc big i).length = size i := by
  cases i <;> simp [enc, size, leRepr_length, hostRepr_length]

theorem enc_bytes (big : Bool) (i : Item) : Bytes big i (enc big i) := by
  cases i with
  | le n v => exact leRepr_spec n v
  | be n v => exact leRepr_reverse_spec n v
  | host n v =>
    cases big
    · exact leRepr_spec n v
    · exact leRepr_reverse_spec n v
  | raw b => exact rfl

theorem le_unique {n v : Nat} {a b : List Byte} (ha : IsLittleEndian n v a) (hb : IsLittleEndian n v b) : a = b := by
  apply List.ext_getElem (by rw [ha.1, hb.1])
  intro i h1 h2
  apply BitVec.eq_of_toNat_eq
  rw [ha.2 i h1, hb.2 i h2]

theorem be_unique {n v : Nat} {a b : List Byte} (ha : IsBigEndian n v a) (hb : IsBigEndian n v b) : a = b := by
  apply List.ext_getElem (by rw [ha.1, hb.1])
  intro i h1 h2
  apply BitVec.eq_of_toNat_eq
  rw [ha.2 i h1, hb.2 i h2]

theorem bytes_unique {big : Bool} {i : Item} {a : List Byte} (h : Bytes big i a) : a = enc big i := by
  have h2 := enc_bytes big i
  cases i with
  | le n v => exact le_unique h h2
  | be n v => exact be_unique h h2
  | host n v =>
    cases big
    · exact le_unique h h2
    · exact be_unique h h2
  | raw b => exact h

def encs (big : Bool) (is : List Item) : List (List Byte) := is.map (enc big)

theorem encs_length (big : Bool) (is : List Item) : (encs big is).flatten.length = total is := by
  induction is with
  | nil => rfl
  | cons i is ih =>
    simp only [encs, total, List.map_cons, List.flatten_cons, List.length_append, List.sum_cons] at ih ⊢
    rw [ih, enc_length]

theorem text_encs (big : Bool) (is : List Item) : Text big is (encs big is).flatten := by
  induction is with
  | nil => rfl
  | cons i is ih => exact ⟨enc big i, (encs big is).flatten, enc_bytes big i, ih, rfl⟩

theorem text_unique {big : Bool} {is : List Item} {bs : List Byte} (h : Text big is bs) : bs = (encs big is).flatten := by
  induction is generalizing bs with
  | nil => exact h
  | cons i is ih =>
    obtain ⟨a, b, h1, h2, rfl⟩ := h
    rw [bytes_unique h1, ih h2]
    rfl

theorem put_eq (big : Bool) (s : ByteWriter) (i : Item) : s.put big i = s.write (enc big i) := by
  cases i with
  | le n v => exact writeLEInt_eq big n s v
  | be n v => exact writeBEInt_eq big n s v
  | host n v => rfl
  | raw b => rfl

theorem putAll_eq (big : Bool) (s : ByteWriter) (is : List Item) : s.putAll big is = s.writeChunks (encs big is) := by
  induction is generalizing s with
  | nil => rfl
  | cons i is ih =>
    rw [putAll, put_eq, encs, List.map_cons, writeChunks]
    rcases s.write (enc big i) with ⟨s', _ | _⟩
    · rfl
    · exact ih s'

theorem leRepr_leValue (bs : List Byte) : leRepr bs.length (leValue bs) = bs := by
  induction bs with
  | nil => rfl
  | cons b bs ih =>
    have h1 : (b.toNat + 256 * leValue bs) / 256 = leValue bs := by have := b.isLt; omega
    have h2 : BitVec.ofNat 8 (b.toNat + 256 * leValue bs) = b := by
      apply BitVec.eq_of_toNat_eq
      rw [BitVec.toNat_ofNat]
      have := b.isLt; omega
    simp [leRepr, leValue, h1, h2, ih]

theorem leValue_lt (bs : List Byte) : leValue bs < 256 ^ bs.length := by
  induction bs with
  | nil => simp [leValue]
  | cons b bs ih =>
    rw [leValue, List.length_cons, Nat.pow_succ]
    have := b.isLt; omega

theorem hostRepr_hostValue (big : Bool) (bs : List Byte) : hostRepr big bs.length (hostValue big bs) = bs := by
  cases big
  · simp [hostRepr, hostValue, leRepr_leValue]
  · have := leRepr_leValue bs.reverse
    rw [List.length_reverse] at this
    simp [hostRepr, hostValue, this]

theorem hostValue_lt (big : Bool) (bs : List Byte) : hostValue big bs < 256 ^ bs.length := by
  cases big
  · exact leValue_lt bs
  · have := leValue_lt bs.reverse
    rw [List.length_reverse] at this
    exact this

/-- The field as the reading host sees it. -/
def seen (bigW bigR : Bool) : Item → Item
  | .host n v => .host n (hostValue bigR (hostRepr bigW n v))
  | i => i

theorem seen_arrives (bigW bigR : Bool) (i : Item) : Arrives bigW bigR i (seen bigW bigR i) := by
  cases i with
  | le n v => exact rfl
  | be n v => exact rfl
  | raw b => exact rfl
  | host n v =>
    have hl := hostRepr_length bigW n v
    refine ⟨_, rfl, ?_, ?_⟩
    · have := hostValue_lt bigR (hostRepr bigW n v)
      rwa [hl] at this
    · intro bs h
      have e := bytes_unique h
      have e2 := hostRepr_hostValue bigR (hostRepr bigW n v)
      rw [hl] at e2
      have := enc_bytes bigR (.host n (hostValue bigR (hostRepr bigW n v)))
      rw [enc, e2] at this
      rw [e]
      exact this

theorem seen_same (big : Bool) (i : Item) (h : Fits i) : seen big big i = i := by
  cases i with
  | host n v => rw [seen, hostValue_hostRepr big n v h.2]
  | _ => rfl

theorem pull_ok (bigW bigR : Bool) (i j : Item) (hi : Fits i) (hs : Same i j) (r : ByteReader) (hw : r.WF)
    (hroom : r.position + size i ≤ r.limit) (hd : (r.data.drop r.position).take (size i) = enc bigW i) :
    r.pull bigR j = ({ r with position := r.position + size i }, .ok none, seen bigW bigR i) := by
  cases i with
  | le n v =>
    cases j with
    | le m w =>
      obtain rfl : n = m := hs
      simp only [size, enc] at hroom hd
      rw [pull, readLEInt_stored bigR n r hw w hroom, hd, leValue_leRepr n v hi.2]
      rfl
    | _ => exact hs.elim
  | be n v =>
    cases j with
    | be m w =>
      obtain rfl : n = m := hs
      simp only [size, enc] at hroom hd
      rw [pull, readBEInt_stored bigR n r hw w hroom, hd, List.reverse_reverse, leValue_leRepr n v hi.2]
      rfl
    | _ => exact hs.elim
  | host n v =>
    cases j with
    | host m w =>
      obtain rfl : n = m := hs
      simp only [size, enc] at hroom hd
      have hl := hostRepr_length bigR n w
      rw [pull, read_stored r hw _ (by rw [hl]; exact hroom), hl, hd]
      rfl
    | _ => exact hs.elim
  | raw b =>
    cases j with
    | raw c =>
      have hl : b.length = c.length := hs
      simp only [size, enc] at hroom hd
      rw [pull, read_stored r hw _ (by rw [← hl]; exact hroom), ← hl, hd]
      rfl
    | _ => exact hs.elim

theorem read_short (r : ByteReader) (hw : r.WF) (d : List Byte) (h : r.limit < r.position + d.length) :
    r.read d = ⟨r, .error .overflow, d⟩ := by
  have hrem := remaining_of_wf hw
  rw [ByteReader.read]
  rw [if_pos (by rw [hrem]; have := hw.1; omega)]

theorem same_size {i j : Item} (h : Same i j) : size j = size i := by
  cases i <;> cases j <;> simp_all [Same, size]

theorem pull_short (bigR : Bool) (j : Item) (r : ByteReader) (hw : r.WF) (h : r.limit < r.position + size j) :
    ∃ v, r.pull bigR j = (r, .error .overflow, v) := by
  cases j with
  | le n v =>
    have hl := hostRepr_length bigR n v
    have := read_short r hw (hostRepr bigR n v) (by rw [hl]; exact h)
    refine ⟨.le n (hostValue bigR (hostRepr bigR n v)), ?_⟩
    rw [pull, readLEInt]
    by_cases hn : n = 1
    · subst hn; rw [if_pos rfl, this]; rfl
    · rw [if_neg hn, readLE, this]; rfl
  | be n v =>
    have hl := hostRepr_length bigR n v
    have := read_short r hw (hostRepr bigR n v) (by rw [hl]; exact h)
    refine ⟨.be n (hostValue bigR (hostRepr bigR n v)), ?_⟩
    rw [pull, readBEInt]
    by_cases hn : n = 1
    · subst hn; rw [if_pos rfl, this]; rfl
    · rw [if_neg hn, readBE, this]; rfl
  | host n v =>
    have hl := hostRepr_length bigR n v
    have := read_short r hw (hostRepr bigR n v) (by rw [hl]; exact h)
    exact ⟨_, by rw [pull, this]; rfl⟩
  | raw b =>
    have := read_short r hw b h
    exact ⟨_, by rw [pull, this]⟩

theorem pullAll_ok (bigW bigR : Bool) (is js : List Item) (hi : ∀ i ∈ is, Fits i) (hs : All2 Same is js) (r : ByteReader)
    (hw : r.WF) (hroom : r.position + total is ≤ r.limit)
    (hd : (r.data.drop r.position).take (total is) = (encs bigW is).flatten) :
    r.pullAll bigR js = ({ r with position := r.position + total is }, is.map (seen bigW bigR), .ok ()) := by
  induction hs generalizing r with
  | nil => rfl
  | @cons i j is js h hs ih =>
    have ht : total (i :: is) = size i + total is := rfl
    have he : (encs bigW (i :: is)).flatten = enc bigW i ++ (encs bigW is).flatten := rfl
    rw [ht] at hroom hd ⊢
    rw [he] at hd
    have hl := enc_length bigW i
    have h1 : (r.data.drop r.position).take (size i) = enc bigW i := by
      have := congrArg (List.take (size i)) hd
      rwa [List.take_take, Nat.min_eq_left (by omega), List.take_append_of_le_length (by omega),
        List.take_of_length_le (l := enc bigW i) (by omega)] at this
    have h2 : ((r.data.drop r.position).drop (size i)).take (total is) = (encs bigW is).flatten := by
      have := congrArg (List.drop (size i)) hd
      rwa [List.drop_take, show size i + total is - size i = total is by omega, ← hl, List.drop_left, hl] at this
    rw [pullAll, pull_ok bigW bigR i j (hi i (List.mem_cons_self ..)) h r hw (by omega) h1]
    simp only
    rw [ih (fun k hk => hi k (List.mem_cons_of_mem _ hk)) { r with position := r.position + size i }
      ⟨by show r.position + size i ≤ r.limit; omega, hw.2.1, hw.2.2⟩ (by show r.position + size i + total is ≤ r.limit; omega)
      (by show (r.data.drop (r.position + size i)).take _ = _; rw [← List.drop_drop]; exact h2)]
    simp [Nat.add_assoc]

theorem pullAll_short (bigW bigR : Bool) (is js : List Item) (hi : ∀ i ∈ is, Fits i) (hs : All2 Same is js) (r : ByteReader)
    (hw : r.WF) (hroom : r.limit < r.position + total is)
    (hd : (r.data.drop r.position).take (r.limit - r.position) = (encs bigW is).flatten.take (r.limit - r.position)) :
    ∃ k, k < is.length ∧ r.position + total (is.take k) ≤ r.limit ∧ r.limit < r.position + total (is.take (k + 1)) ∧
      r.pullAll bigR js =
        ({ r with position := r.position + total (is.take k) }, (is.take k).map (seen bigW bigR), .error .overflow) := by
  induction hs generalizing r with
  | nil => have := hw.1; simp [total] at hroom; omega
  | @cons i j is js h hs ih =>
    have ht : total (i :: is) = size i + total is := rfl
    have he : (encs bigW (i :: is)).flatten = enc bigW i ++ (encs bigW is).flatten := rfl
    have hl := enc_length bigW i
    have hle := hw.1
    rw [ht] at hroom
    rw [he] at hd
    by_cases hf : r.position + size i ≤ r.limit
    · have h1 : (r.data.drop r.position).take (size i) = enc bigW i := by
        have := congrArg (List.take (size i)) hd
        rwa [List.take_take, List.take_take, Nat.min_eq_left (by omega), List.take_append_of_le_length (by omega),
          List.take_of_length_le (l := enc bigW i) (by omega)] at this
      have h2 : ((r.data.drop r.position).drop (size i)).take (r.limit - (r.position + size i)) =
          (encs bigW is).flatten.take (r.limit - (r.position + size i)) := by
        have := congrArg (List.drop (size i)) hd
        rw [List.drop_take, List.drop_take, show r.limit - r.position - size i = r.limit - (r.position + size i) by omega,
          ← hl, List.drop_left, hl] at this
        exact this
      obtain ⟨k, k1, k2, k3, k4⟩ := ih (fun k hk => hi k (List.mem_cons_of_mem _ hk)) { r with position := r.position + size i }
        ⟨hf, hw.2.1, hw.2.2⟩ (by show r.limit < r.position + size i + total is; omega)
        (by show (r.data.drop (r.position + size i)).take _ = _; rw [← List.drop_drop]; exact h2)
      have t1 : total ((i :: is).take (k + 1)) = size i + total (is.take k) := rfl
      have t2 : total ((i :: is).take (k + 1 + 1)) = size i + total (is.take (k + 1)) := rfl
      refine ⟨k + 1, by simp; omega, ?_, ?_, ?_⟩
      · rw [t1]; simp only at k2; omega
      · rw [t2]; simp only at k3; omega
      · rw [pullAll, pull_ok bigW bigR i j (hi i (List.mem_cons_self ..)) h r hw hf h1]
        simp only
        rw [k4, t1]
        simp [Nat.add_assoc]
    · obtain ⟨v, hv⟩ := pull_short bigR j r hw (by rw [same_size h]; omega)
      have t1 : total ((i :: is).take 1) = size i := by simp [total]
      refine ⟨0, by simp, by simp [total]; exact hle, by rw [t1]; omega, ?_⟩
      rw [pullAll, hv]
      simp [total]

theorem viewWritten_wrote (s : ByteWriter) (bs : List Byte) (h : s.Ready) (hf : s.position + bs.length ≤ s.limit) :
    (s.wrote bs).viewWritten = s.viewWritten ++ bs := by
  have hc : s.position + bs.length ≤ s.data.length := by have := h.2.1; omega
  rw [viewWritten, viewWritten, slice_eq, slice_eq, wrote]
  simp only [List.drop_zero, Nat.sub_zero]
  exact overwrite_take s.data s.position bs hc

theorem viewWritten_ofBuffer (buf : List Byte) : (ofBuffer buf).viewWritten = [] := by
  simp [ofBuffer, viewWritten, slice_eq]

theorem putAll_short (big : Bool) (is : List Item) (s : ByteWriter) (h : s.Ready) (hf : s.limit < s.position + total is) :
    ∃ k s', k < is.length ∧ s.position + total (is.take k) ≤ s.limit ∧ s.limit < s.position + total (is.take (k + 1)) ∧
      s.putAll big is = (s', .error .overflow) ∧ s'.viewWritten = s.viewWritten ++ (encs big (is.take k)).flatten ∧
      s'.limit = s.limit ∧ s'.data.length = s.data.length := by
  induction is generalizing s with
  | nil => have := h.1; simp [total] at hf; omega
  | cons i is ih =>
    have ht : total (i :: is) = size i + total is := rfl
    have hl := enc_length big i
    rw [ht] at hf
    by_cases hi : s.position + size i ≤ s.limit
    · obtain ⟨hr, e1, e2⟩ := wrote_ready s (enc big i) h (by omega)
      obtain ⟨k, s', k1, k2, k3, k4, k5, k6, k7⟩ := ih (s.wrote (enc big i)) hr (by rw [e1, e2]; omega)
      have t1 : total ((i :: is).take (k + 1)) = size i + total (is.take k) := rfl
      have t2 : total ((i :: is).take (k + 1 + 1)) = size i + total (is.take (k + 1)) := rfl
      refine ⟨k + 1, s', by simp; omega, by rw [t1]; omega, by rw [t2]; omega, ?_, ?_, by rw [k6, e1], ?_⟩
      · rw [putAll, put_eq, write_ready s _ h (by omega)]; exact k4
      · rw [k5, viewWritten_wrote s _ h (by omega), List.append_assoc]; rfl
      · rw [k7]; exact overwrite_length _ _ _ (by have := h.2.1; omega)
    · obtain ⟨s', w1, w2, w3, w4, w5⟩ := write_short s (enc big i) h (by omega)
      have t1 : total ((i :: is).take 1) = size i := by simp [total]
      refine ⟨0, s', by simp, by have := h.1; simp [total]; exact this, by rw [t1]; omega, ?_, ?_, w3, w4⟩
      · rw [putAll, put_eq, w1]
      · simp only [List.take_zero, encs, List.map_nil, List.flatten_nil, List.append_nil]
        rw [viewWritten, viewWritten, slice_eq, slice_eq, w2]
        simp only [List.drop_zero, Nat.sub_zero]
        apply List.ext_getElem?
        intro n
        by_cases hn : n < s.position
        · rw [List.getElem?_take_of_lt hn, List.getElem?_take_of_lt hn, w5 n hn]
        · rw [List.getElem?_take_eq_none (by omega), List.getElem?_take_eq_none (by omega)]

/-! ### Properties -/

/-- **C107, the record is written.** With room for all fields every write succeeds; what has been written grows by the fields'
bytes in order, and these do not depend on the host unless there is a `host` field. -/
theorem C107_written (big : Bool) (is : List Item) (s : ByteWriter) (h : s.Ready) (hroom : s.position + total is ≤ s.limit) :
    ∃ s' bs, s.putAll big is = (s', .ok ()) ∧ Text big is bs ∧ (∀ bs', Text big is bs' → bs' = bs) ∧
      s'.viewWritten = s.viewWritten ++ bs ∧ s'.position = s.position + total is ∧ s'.Ready ∧
      ((∀ n v, Item.host n v ∉ is) → ∀ other, s.putAll other is = s.putAll big is) := by
  have hl := encs_length big is
  obtain ⟨hr, e1, e2⟩ := wrote_ready s (encs big is).flatten h (by omega)
  refine ⟨s.wrote (encs big is).flatten, (encs big is).flatten, ?_, text_encs big is, fun _ => text_unique, ?_, by omega, hr, ?_⟩
  · rw [putAll_eq, writeChunks_fits _ s h (by omega)]
  · exact viewWritten_wrote s _ h (by omega)
  · intro hn other
    rw [putAll_eq, putAll_eq]
    congr 1
    apply List.map_congr_left
    intro i hi
    cases i with
    | host n v => exact absurd hi (hn n v)
    | _ => rfl

/-- **C107, no room.** Otherwise writing stops with an overflow error at the first field that does not fit; what has been
written is exactly the fields before it. -/
theorem C107_no_room (big : Bool) (is : List Item) (s : ByteWriter) (h : s.Ready) (hroom : s.limit < s.position + total is) :
    ∃ k s' bs, k < is.length ∧ s.position + total (is.take k) ≤ s.limit ∧ s.limit < s.position + total (is.take (k + 1)) ∧
      s.putAll big is = (s', .error .overflow) ∧ Text big (is.take k) bs ∧ s'.viewWritten = s.viewWritten ++ bs := by
  obtain ⟨k, s', k1, k2, k3, k4, k5, _, _⟩ := putAll_short big is s h hroom
  exact ⟨k, s', _, k1, k2, k3, k4, text_encs big _, k5⟩

/-- **C107, the record arrives.** The bytes of a record, read on any host into variables of the right kinds whatever they held:
every read succeeds, nothing remains, and each field is what was written, `host` fields as the reading host understands their
bytes. -/
theorem C107_read (bigW bigR : Bool) (is js : List Item) (hi : ∀ i ∈ is, Fits i) (hs : All2 Same is js) (bs : List Byte)
    (ht : Text bigW is bs) (hb : bs.length < 2 ^ 64) :
    ∃ r vs, (ByteReader.ofView bs).pullAll bigR js = (r, vs, .ok ()) ∧ All2 (Arrives bigW bigR) is vs ∧ r.remaining = 0 ∧
      (bigW = bigR ∨ (∀ n v, Item.host n v ∉ is) → vs = is) := by
  have e := text_unique ht
  have hl : bs.length = total is := by rw [e, encs_length]
  have hw : (ByteReader.ofView bs).WF := ⟨Nat.zero_le _, Nat.le_refl _, hb⟩
  have h := pullAll_ok bigW bigR is js hi hs (ByteReader.ofView bs) hw (by show 0 + _ ≤ bs.length; omega)
    (by show (bs.drop 0).take _ = _; rw [List.drop_zero, ← hl, List.take_length, e])
  refine ⟨_, _, h, ?_, ?_, ?_⟩
  · clear h hl hw e hs ht hi hb
    induction is with
    | nil => exact .nil
    | cons i is ih => exact .cons (seen_arrives bigW bigR i) ih
  · have h2 : ({ ByteReader.ofView bs with position := (ByteReader.ofView bs).position + total is } : ByteReader).WF :=
      ⟨by show 0 + total is ≤ bs.length; omega, Nat.le_refl _, hb⟩
    rw [remaining_of_wf h2]
    show bs.length - (0 + total is) = 0
    omega
  · intro hc
    rw [List.map_congr_left (g := id) _, List.map_id]
    intro i hm
    rcases hc with rfl | hc
    · exact seen_same _ i (hi i hm)
    · cases i with
      | host n v => exact absurd hm (hc n v)
      | _ => rfl

/-- **C107, truncated records.** From fewer bytes than the record has, the fields that are complete arrive, and the first that is
not is reported as an overflow. -/
theorem C107_truncated (bigW bigR : Bool) (is js : List Item) (hi : ∀ i ∈ is, Fits i) (hs : All2 Same is js) (bs : List Byte)
    (ht : Text bigW is bs) (m : Nat) (hm : m < bs.length) (hb : bs.length < 2 ^ 64) :
    ∃ k r vs, k < is.length ∧ total (is.take k) ≤ m ∧ m < total (is.take (k + 1)) ∧
      (ByteReader.ofView (bs.take m)).pullAll bigR js = (r, vs, .error .overflow) ∧ r.position = total (is.take k) ∧
      All2 (Arrives bigW bigR) (is.take k) vs := by
  have e := text_unique ht
  have hl : bs.length = total is := by rw [e, encs_length]
  have hlen : (bs.take m).length = m := by rw [List.length_take]; omega
  have hw : (ByteReader.ofView (bs.take m)).WF := ⟨Nat.zero_le _, Nat.le_refl _, by show (bs.take m).length < _; omega⟩
  obtain ⟨k, k1, k2, k3, k4⟩ := pullAll_short bigW bigR is js hi hs (ByteReader.ofView (bs.take m)) hw
    (by show (bs.take m).length < 0 + total is; omega)
    (by
      show ((bs.take m).drop 0).take ((bs.take m).length - 0) = _
      have h0 : (ByteReader.ofView (bs.take m)).limit - (ByteReader.ofView (bs.take m)).position = m := by
        show (bs.take m).length - 0 = m
        omega
      rw [h0, hlen, List.drop_zero, Nat.sub_zero, List.take_take, Nat.min_self, ← e])
  have k2' : 0 + total (is.take k) ≤ (bs.take m).length := k2
  have k3' : (bs.take m).length < 0 + total (is.take (k + 1)) := k3
  refine ⟨k, _, _, k1, by omega, by omega, k4, Nat.zero_add _, ?_⟩
  generalize is.take k = xs
  induction xs with
  | nil => exact .nil
  | cons i xs ih => exact .cons (seen_arrives bigW bigR i) ih

/-- **C107, writer to reader.** A record written to the start of a buffer large enough and read back from `viewWritten()`. -/
theorem C107_round_trip (bigW bigR : Bool) (is js : List Item) (buf : List Byte) (hi : ∀ i ∈ is, Fits i) (hs : All2 Same is js)
    (hroom : total is ≤ buf.length) (hb : buf.length < 2 ^ 64) (hh : bigW = bigR ∨ ∀ n v, Item.host n v ∉ is) :
    ∃ w r, (ByteWriter.ofBuffer buf).putAll bigW is = (w, .ok ()) ∧
      (ByteReader.ofView w.viewWritten).pullAll bigR js = (r, is, .ok ()) ∧ r.remaining = 0 := by
  have hr : (ByteWriter.ofBuffer buf).Ready := ⟨Nat.zero_le _, Nat.le_refl _, hb⟩
  obtain ⟨w, bs, h1, h2, h3, h4, h5, h6, _⟩ := C107_written bigW is (ByteWriter.ofBuffer buf) hr
    (by show 0 + _ ≤ buf.length; omega)
  rw [viewWritten_ofBuffer, List.nil_append] at h4
  have hl : bs.length = total is := by rw [text_unique h2, encs_length]
  obtain ⟨r, vs, r1, r2, r3, r4⟩ := C107_read bigW bigR is js hi hs bs h2 (by omega)
  have := r4 hh
  subst this
  exact ⟨w, r, h1, by rw [h4]; exact r1, r3⟩

/-- **C107, no two records share their bytes.** On one host, records of the same shape with the same bytes are the same. -/
theorem C107_injective (big : Bool) (is js : List Item) (bs : List Byte) (hi : ∀ i ∈ is, Fits i) (hj : ∀ j ∈ js, Fits j)
    (hs : All2 Same is js) (h1 : Text big is bs) (h2 : Text big js bs) : is = js := by
  induction hs generalizing bs with
  | nil => rfl
  | @cons i j is js h hs ih =>
    obtain ⟨a, b, ha, hb, rfl⟩ := h1
    obtain ⟨c, d, hc, hd, e⟩ := h2
    have hla : a.length = size i := by rw [bytes_unique ha, enc_length]
    have hlc : c.length = size j := by rw [bytes_unique hc, enc_length]
    obtain ⟨rfl, rfl⟩ := List.append_inj e (by rw [hla, hlc, same_size h])
    have hfi := hi i (List.mem_cons_self ..)
    have hfj := hj j (List.mem_cons_self ..)
    rw [ih b (fun k hk => hi k (List.mem_cons_of_mem _ hk)) (fun k hk => hj k (List.mem_cons_of_mem _ hk)) hb hd]
    have he : enc big i = enc big j := by rw [← bytes_unique ha, bytes_unique hc]
    congr 1
    cases i with
    | le n v => cases j with
      | le m w =>
        obtain rfl : n = m := h
        have := congrArg leValue he
        rw [enc, enc, leValue_leRepr n v hfi.2, leValue_leRepr n w hfj.2] at this
        rw [this]
      | _ => exact h.elim
    | be n v => cases j with
      | be m w =>
        obtain rfl : n = m := h
        have := congrArg (fun l => leValue l.reverse) he
        simp only [enc, List.reverse_reverse] at this
        rw [leValue_leRepr n v hfi.2, leValue_leRepr n w hfj.2] at this
        rw [this]
      | _ => exact h.elim
    | host n v => cases j with
      | host m w =>
        obtain rfl : n = m := h
        have := congrArg (hostValue big) he
        rw [enc, enc, hostValue_hostRepr big n v hfi.2, hostValue_hostRepr big n w hfj.2] at this
        rw [this]
      | _ => exact h.elim
    | raw b => cases j with
      | raw c => exact congrArg Item.raw he
      | _ => exact h.elim

/-! ### Examples -/

/-- A header, written on a little-endian host, read on a big-endian one. -/
def sample : List Item := [.be 2 0xCAFE, .le 4 0x01020304, .raw [7#8, 8#8], .host 2 1]

example : ((ByteWriter.ofBuffer (List.replicate 12 0#8)).putAll false sample).1.viewWritten =
    [0xCA#8, 0xFE#8, 4#8, 3#8, 2#8, 1#8, 7#8, 8#8, 1#8, 0#8] := by decide +kernel

example : ((ByteReader.ofView [0xCA#8, 0xFE#8, 4#8, 3#8, 2#8, 1#8, 7#8, 8#8, 1#8, 0#8]).pullAll true
    [.be 2 9, .le 4 9, .raw [0#8, 0#8], .host 2 9]).2 =
    ([.be 2 0xCAFE, .le 4 0x01020304, .raw [7#8, 8#8], .host 2 256], .ok ()) := by decide +kernel

example : (∀ i ∈ sample, Fits i) ∧ total sample = 10 ∧
    All2 Same sample [.be 2 9, .le 4 9, .raw [0#8, 0#8], .host 2 9] := by
  refine ⟨?_, rfl, .cons rfl (.cons rfl (.cons rfl (.cons rfl .nil)))⟩
  intro i hi
  simp [sample] at hi
  rcases hi with rfl | rfl | rfl | rfl <;> simp [Fits, IsWidth]

example : ((ByteWriter.ofBuffer (List.replicate 9 0#8)).putAll false sample).2 = .error .overflow := by decide +kernel

example : ((ByteReader.ofView [0xCA#8, 0xFE#8, 4#8, 3#8, 2#8]).pullAll true [.be 2 9, .le 4 9, .raw [0#8, 0#8], .host 2 9]).2 =
    ([.be 2 0xCAFE], .error .overflow) := by decide +kernel

end Solace.Record
