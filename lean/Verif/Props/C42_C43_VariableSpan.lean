import Verif.Model.VariableSpan
import Verif.Lemmas.ByteReader
import Verif.Lemmas.MemoryView
import Verif.Props.C06_Endian
/-
C42, C43: variable spans.
-/
namespace Solace.VariableSpan

attribute [local irreducible] ByteReader.read

/-- A length as it is stored in front of a chunk: in the byte order of the host, least or most significant byte first. -/
def sizeText (host : Bool) (n v : Nat) : Enc → List Byte
  | .natural => hostRepr host n v
  | .little => leRepr n v
  | .big => (leRepr n v).reverse

theorem sizeText_length (host : Bool) (n v : Nat) (enc : Enc) : (sizeText host n v enc).length = n := by
  cases enc <;> simp [sizeText, hostRepr_length, leRepr_length]

theorem ofView_wf (src : List Byte) (h : src.length < 2 ^ 64) : (ByteReader.ofView src).WF :=
  ⟨Nat.zero_le _, Nat.le_refl _, h⟩

/-- Reading a size that is there. -/
theorem readChunk_full (host : Bool) (n : Nat) (enc : Enc) (src : List Byte) (h : src.length < 2 ^ 64) (hn : n ≤ src.length) :
    (readChunk host n enc src).2 = src.drop n ∧
    ∀ v, src.take n = sizeText host n v enc → v < 256 ^ n → (readChunk host n enc src).1 = v := by
  have hwf := ofView_wf src h
  have hd : (ByteReader.ofView src).data = src := rfl
  have hp : (ByteReader.ofView src).position = 0 := rfl
  have hl : (ByteReader.ofView src).limit = src.length := rfl
  have key : ∃ x, readSize host n (.ofView src) enc = ({ ByteReader.ofView src with position := n }, .ok none, x) ∧
      ∀ v, src.take n = sizeText host n v enc → v < 256 ^ n → x = v := by
    cases enc with
    | natural =>
      rw [readSize, read_stored _ hwf _ (by rw [hp, hl, hostRepr_length]; omega), hostRepr_length, ReadCall.asInt]
      rw [hp, hd, List.drop_zero, Nat.zero_add]
      refine ⟨_, rfl, fun v hv hlt => ?_⟩
      rw [hv, sizeText, hostValue_hostRepr host n v hlt]
    | little =>
      rw [readSize, readLEInt_stored host n _ hwf 0 (by rw [hp, hl]; omega), hp, hd, List.drop_zero, Nat.zero_add]
      refine ⟨_, rfl, fun v hv hlt => ?_⟩
      rw [hv, sizeText, leValue_leRepr n v hlt]
    | big =>
      rw [readSize, readBEInt_stored host n _ hwf 0 (by rw [hp, hl]; omega), hp, hd, List.drop_zero, Nat.zero_add]
      refine ⟨_, rfl, fun v hv hlt => ?_⟩
      rw [hv, sizeText, List.reverse_reverse, leValue_leRepr n v hlt]
  obtain ⟨x, h1, h2⟩ := key
  have hr : readChunk host n enc src = (x, ({ ByteReader.ofView src with position := n } : ByteReader).viewRemaining) := by
    rw [readChunk, h1]
  rw [hr]
  refine ⟨?_, h2⟩
  rw [ByteReader.viewRemaining, slice_eq, hd, hl, List.take_of_length_le (by simp)]

/-- Whatever is read, the rest is a suffix of the data. -/
theorem readChunk_suffix (host : Bool) (n : Nat) (enc : Enc) (src : List Byte) (h : src.length < 2 ^ 64) :
    (readChunk host n enc src).2 <:+ src := by
  by_cases hn : n ≤ src.length
  · rw [(readChunk_full host n enc src h hn).1]
    exact List.drop_suffix _ _
  · have key : (readSize host n (.ofView src) enc).1 = .ofView src := by
      have hrem : (ByteReader.ofView src).remaining < (hostRepr host n 0).length := by
        rw [ByteReader.remaining_of_wf (ofView_wf src h), hostRepr_length]
        simp only [ByteReader.ofView]
        omega
      have hread : (ByteReader.ofView src).read (hostRepr host n 0) = ⟨.ofView src, .error .overflow, hostRepr host n 0⟩ := by
        rw [ByteReader.read]
        simp only [hrem, if_true]
      have hread1 : n = 1 → (ByteReader.ofView src).read (hostRepr host 1 0) = ⟨.ofView src, .error .overflow, hostRepr host 1 0⟩ := by
        rintro rfl; exact hread
      cases enc with
      | natural => rw [readSize, hread]; rfl
      | little =>
        rw [readSize, ByteReader.readLEInt]
        split
        · rename_i h1; rw [hread1 h1]; rfl
        · rw [ByteReader.readLE, hread]; rfl
      | big =>
        rw [readSize, ByteReader.readBEInt]
        split
        · rename_i h1; rw [hread1 h1]; rfl
        · rw [ByteReader.readBE, hread]; rfl
    have : (readChunk host n enc src).2 = (readSize host n (.ofView src) enc).1.viewRemaining := rfl
    rw [this, key, ByteReader.viewRemaining, slice_eq]
    simp [ByteReader.ofView]

/-- The data for a list of chunks. -/
def encode (host : Bool) (n : Nat) (enc : Enc) (chunks : List (List Byte)) : List Byte :=
  (chunks.map fun c => sizeText host n c.length enc ++ c).flatten

theorem collect_encode (host : Bool) (n : Nat) (enc : Enc) (after : List Byte) (chunks : List (List Byte)) :
    ∀ (acc : List (List Byte)) (fuel : Nat), chunks.length < 2 ^ 16 → chunks.length < fuel →
    (∀ c ∈ chunks, c.length < 256 ^ n) → (encode host n enc chunks ++ after).length < 2 ^ 64 →
    Iter.collect host n enc fuel ⟨chunks.length, encode host n enc chunks ++ after⟩ acc = some (.ok (acc ++ chunks)) := by
  induction chunks with
  | nil =>
    intro acc fuel _ hf _ _
    match fuel, hf with
    | f + 1, _ => rw [Iter.collect, if_pos (by simp), List.append_nil]
  | cons c cs ih =>
    intro acc fuel hlen hf hc hdata
    match fuel, hf with
    | f + 1, hf =>
      rw [List.length_cons] at hlen hf
      have hsz := sizeText_length host n c.length enc
      have he : encode host n enc (c :: cs) ++ after =
          sizeText host n c.length enc ++ (c ++ (encode host n enc cs ++ after)) := by
        simp [encode]
      have hnl : n ≤ (encode host n enc (c :: cs) ++ after).length := by
        rw [he, List.length_append, hsz]; omega
      obtain ⟨h1, h2⟩ := readChunk_full host n enc _ hdata hnl
      have hv : (readChunk host n enc (encode host n enc (c :: cs) ++ after)).1 = c.length := by
        refine h2 c.length ?_ (hc c (by simp))
        rw [he]
        conv => lhs; rw [← hsz]
        rw [hsz, List.take_append_of_le_length (by omega), List.take_of_length_le (by omega)]
      have htail : (readChunk host n enc (encode host n enc (c :: cs) ++ after)).2 = c ++ (encode host n enc cs ++ after) := by
        rw [h1, he, List.drop_append_of_le_length (by omega), List.drop_of_length_le (by omega), List.nil_append]
      have hderef : Iter.deref host n enc ⟨(c :: cs).length, encode host n enc (c :: cs) ++ after⟩ = .ok c := by
        rw [Iter.deref, if_neg (by simp)]
        simp only [hv, htail]
        rw [slice_eq, List.drop_zero, Nat.sub_zero, List.take_left]
      have hnext : Iter.next host n enc ⟨(c :: cs).length, encode host n enc (c :: cs) ++ after⟩ =
          ⟨cs.length, encode host n enc cs ++ after⟩ := by
        rw [Iter.next, if_neg (by simp)]
        simp only [hv, htail]
        rw [slice_eq, List.drop_left, List.take_of_length_le (by simp), List.length_cons,
          sub16_of_le (by omega) (by omega), Nat.add_sub_cancel]
      rw [Iter.collect, if_neg (by simp), hderef]
      simp only
      rw [hnext, ih _ f (by omega) (by omega) (fun c h => hc c (by simp [h]))]
      · simp
      · rw [he] at hdata; simp only [List.length_append] at hdata ⊢; omega

/-- **C42** (full): iterating over the chunks stored one after the other, each behind its length, gives the chunks; what
follows them does not matter. For every prefix width, byte order of the prefix and of the host. -/
theorem C42_iteration (host : Bool) (n : Nat) (enc : Enc) (chunks : List (List Byte)) (after : List Byte)
    (hcount : chunks.length < 2 ^ 16) (hc : ∀ c ∈ chunks, c.length < 256 ^ n)
    (hdata : (encode host n enc chunks ++ after).length < 2 ^ 64) (fuel : Nat) (hf : chunks.length < fuel) :
    Iter.collect host n enc fuel ⟨chunks.length, encode host n enc chunks ++ after⟩ [] = some (.ok chunks) := by
  rw [collect_encode host n enc after chunks [] fuel hcount hf hc hdata, List.nil_append]

/-- **C43** (full): for any data and count the loop ends after exactly that many rounds without an exception, and each
piece is a contiguous part of the data. -/
theorem C43_in_bounds (host : Bool) (n : Nat) (enc : Enc) (data : List Byte) (hdata : data.length < 2 ^ 64) (count : Nat)
    (hcount : count < 2 ^ 16) :
    ∃ pieces : List (List Byte),
      (∀ fuel, count < fuel → Iter.collect host n enc fuel ⟨count, data⟩ [] = some (.ok pieces)) ∧
      (∀ fuel, fuel ≤ count → Iter.collect host n enc fuel ⟨count, data⟩ [] = none) ∧
      pieces.length = count ∧ ∀ p ∈ pieces, p <:+: data := by
  have key : ∀ (count : Nat) (d : List Byte) (acc : List (List Byte)), count < 2 ^ 16 → d <:+ data →
      ∃ pieces : List (List Byte),
        (∀ fuel, count < fuel → Iter.collect host n enc fuel ⟨count, d⟩ acc = some (.ok (acc ++ pieces))) ∧
        (∀ fuel, fuel ≤ count → Iter.collect host n enc fuel ⟨count, d⟩ acc = none) ∧
        pieces.length = count ∧ ∀ p ∈ pieces, p <:+: data := by
    intro count
    induction count with
    | zero =>
      intro d acc _ _
      refine ⟨[], ?_, ?_, rfl, by simp⟩
      · intro fuel hf
        match fuel, hf with
        | f + 1, _ => rw [Iter.collect, if_pos rfl, List.append_nil]
      · intro fuel hf
        have : fuel = 0 := by omega
        subst this
        rfl
    | succ k ih =>
      intro d acc hk hd
      have hdl : d.length < 2 ^ 64 := Nat.lt_of_le_of_lt hd.length_le hdata
      have hsuf := readChunk_suffix host n enc d hdl
      have hderef : Iter.deref host n enc ⟨k + 1, d⟩ =
          .ok (MemoryView.slice (readChunk host n enc d).2 0 (readChunk host n enc d).1) := by
        rw [Iter.deref, if_neg (by simp)]
      have hnext : Iter.next host n enc ⟨k + 1, d⟩ =
          ⟨k, MemoryView.slice (readChunk host n enc d).2 (readChunk host n enc d).1 (readChunk host n enc d).2.length⟩ := by
        rw [Iter.next, if_neg (by simp), sub16_of_le (by simp) (by simpa using hk), Nat.add_sub_cancel]
      generalize (readChunk host n enc d).2 = tail at *
      generalize (readChunk host n enc d).1 = size at *
      have hn : MemoryView.slice tail size tail.length <:+ data := by
        rw [slice_eq, List.take_of_length_le (by simp)]
        exact (List.drop_suffix _ _).trans (hsuf.trans hd)
      obtain ⟨ps, h1, h2, h3, h4⟩ := ih _ (acc ++ [MemoryView.slice tail 0 size]) (by omega) hn
      refine ⟨MemoryView.slice tail 0 size :: ps, ?_, ?_, by simp [h3], ?_⟩
      · intro fuel hf
        match fuel, hf with
        | f + 1, hf =>
          rw [Iter.collect, if_neg (by simp), hderef]
          simp only
          rw [hnext, h1 f (by omega)]
          simp
      · intro fuel hf
        match fuel with
        | 0 => rfl
        | f + 1 =>
          rw [Iter.collect, if_neg (by simp), hderef]
          simp only
          rw [hnext, h2 f (by omega)]
      · intro p hp
        rw [List.mem_cons] at hp
        rcases hp with rfl | hp
        · rw [slice_eq, List.drop_zero]
          exact (List.take_prefix _ _).isInfix.trans (hsuf.trans hd).isInfix
        · exact h4 p hp
  obtain ⟨ps, h⟩ := key count data [] hcount List.suffix_rfl
  simp only [List.nil_append] at h
  exact ⟨ps, h⟩

example : encode false 2 .big [[0x61#8, 0x62#8], [], [0x63#8]] = [0#8, 2#8, 0x61#8, 0x62#8, 0#8, 0#8, 0#8, 1#8, 0x63#8] ∧
    Iter.collect false 2 .big 10 ⟨3, [0#8, 2#8, 0x61#8, 0x62#8, 0#8, 0#8, 0#8, 1#8, 0x63#8]⟩ [] =
      some (.ok [[0x61#8, 0x62#8], [], [0x63#8]]) := by decide +kernel
/-- A truncated chunk is cut short; a missing prefix gives an empty piece. -/
example : Iter.collect false 1 .natural 10 ⟨3, [5#8, 0x61#8]⟩ [] = some (.ok [[0x61#8], [], []]) := by decide +kernel

end Solace.VariableSpan
