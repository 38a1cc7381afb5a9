import Verif.Lemmas.Machine
import Verif.Lemmas.Endian
import Verif.Props.C61_C62_Hashing
import Verif.Props.C85_Exact
import Verif.Props.C103_Sha256Smaller
import Verif.Props.C107_Records
import Verif.Props.C33_Exact
/-! C141, the byte order of the machine: digests, records, searching a builder, UUIDs made from words, Murmur3. -/
namespace Solace.Machine

/-! ### Digests -/

/-- **C141**: the digests of MD5, SHA-1, both variants of SHA-256 and the stub Sha3 do not depend on the machine, for all messages however
they are cut. -/
theorem C141_digests (h h' : Hash.Host) (pieces : List (List Byte)) :
    Hash.Md5.hash h pieces = Hash.Md5.hash h' pieces ∧ Hash.Sha1.hash h pieces = Hash.Sha1.hash h' pieces ∧
    Hash.Sha2.hash h pieces = Hash.Sha2.hash h' pieces ∧ Hash.Sha2.Smaller.hash h pieces = Hash.Sha2.Smaller.hash h' pieces ∧
    Hash.Sha3.hash h pieces = Hash.Sha3.hash h' pieces := by
  refine ⟨?_, ?_, ?_, ?_, ?_⟩
  · rw [Hash.Md5.hash_eq, Hash.Md5.hash_eq]
  · rw [Hash.Sha1.hash_eq, Hash.Sha1.hash_eq]
  · rw [Hash.Sha2.hash_eq, Hash.Sha2.hash_eq]
  · rw [Hash.Sha2.Smaller.C103_same_digest h h, Hash.Sha2.Smaller.C103_same_digest h' h]
  · have : pieces.foldl Hash.Sha3.update Hash.Sha3.init = Hash.Sha3.init := by
      induction pieces with
      | nil => rfl
      | cons p ps ih => rw [List.foldl_cons]; exact ih
    rw [Hash.Sha3.hash, Hash.Sha3.hash, this, Hash.Sha3.digest, Hash.Sha3.digest,
      Hash.output_eq h false 32 _ (by simp [Hash.Sha3.init]) (by decide), Hash.output_eq h' false 32 _ (by simp [Hash.Sha3.init]) (by decide)]

/-! ### Records -/

/-- **C141**: fields written with `writeLE` and `writeBE`, and raw bytes, are stored alike by all machines, whatever state the writer is
in; the result and the error are the same too. -/
theorem C141_write (big big' : Bool) (s : ByteWriter) (is : List Item) (h : ∀ n v, Item.host n v ∉ is) :
    s.putAll big is = s.putAll big' is := by
  induction is generalizing s with
  | nil => rfl
  | cons i is ih =>
    have e : s.put big i = s.put big' i := by
      cases i with
      | le n v => rw [ByteWriter.put, ByteWriter.put, writeLEInt_eq, writeLEInt_eq]
      | be n v => rw [ByteWriter.put, ByteWriter.put, writeBEInt_eq, writeBEInt_eq]
      | host n v => exact absurd (by simp) (h n v)
      | raw bs => rfl
    rw [ByteWriter.putAll, ByteWriter.putAll, e]
    have ih' := fun s => ih s fun n v hm => h n v (List.mem_cons_of_mem _ hm)
    rcases s.put big' i with ⟨s', r⟩
    cases r with
    | error e => rfl
    | ok _ => exact ih' s'

theorem read_same (s : ByteReader) (d d' : List Byte) (h : d.length = d'.length) :
    (∃ e, s.read d = ⟨s, .error e, d⟩ ∧ s.read d' = ⟨s, .error e, d'⟩) ∨
    ∃ s' v bs, bs.length = d.length ∧ s.read d = ⟨s', .ok v, bs⟩ ∧ s.read d' = ⟨s', .ok v, bs⟩ := by
  rw [ByteReader.read, ByteReader.read, ← h]
  dsimp only
  split
  · exact .inl ⟨_, rfl, rfl⟩
  · split
    · exact .inl ⟨_, rfl, rfl⟩
    · exact .inr ⟨_, _, _, by rw [List.length_take]; omega, rfl, rfl⟩

attribute [local irreducible] ByteReader.read ByteWriter.write

theorem hostValue_one (big : Bool) (bs : List Byte) (h : bs.length = 1) : hostValue big bs = leValue bs := by
  match bs, h with
  | [b], _ => cases big <;> rfl

theorem le_ok (big : Bool) (s : ByteReader) (w : Option Byte) (bs : List Byte) :
    (ByteReader.thenSwap big ⟨s, .ok w, bs⟩).asInt big = (s, .ok w, leValue bs) := by
  cases big <;> simp [ByteReader.thenSwap, ReadCall.asInt, hostValue, swapBytes_eq_reverse]

theorem be_ok (big : Bool) (s : ByteReader) (w : Option Byte) (bs : List Byte) :
    (ByteReader.thenSwap (!big) ⟨s, .ok w, bs⟩).asInt big = (s, .ok w, leValue bs.reverse) := by
  cases big <;> simp [ByteReader.thenSwap, ReadCall.asInt, hostValue, swapBytes_eq_reverse]

/-- What reading into an integer variable gives, without reference to the byte order. -/
theorem readInt_forms (n old : Nat) (ho : old < 256 ^ n) (s : ByteReader) :
    ∃ a b, ∀ big, s.readLEInt big n old = a ∧ s.readBEInt big n old = b := by
  have hl : ∀ big, (hostRepr false n old).length = (hostRepr big n old).length := fun big => by rw [hostRepr_length, hostRepr_length]
  have v := fun big => hostValue_hostRepr big n old ho
  have len := hostRepr_length false n old
  -- the result of `read` for all variables of this size
  have hread : (∃ e, ∀ big, s.read (hostRepr big n old) = ⟨s, .error e, hostRepr big n old⟩) ∨
      ∃ s' w bs, bs.length = n ∧ ∀ big, s.read (hostRepr big n old) = ⟨s', .ok w, bs⟩ := by
    rcases read_same s _ _ (hl true) with ⟨e, r, r'⟩ | ⟨s', w, bs, hb, r, r'⟩
    · exact .inl ⟨e, fun big => by cases big <;> assumption⟩
    · exact .inr ⟨s', w, bs, by rw [hb, len], fun big => by cases big <;> assumption⟩
  rcases hread with ⟨e, r⟩ | ⟨s', w, bs, hb, r⟩
  · refine ⟨(s, .error e, old), (s, .error e, old), fun big => ?_⟩
    rw [ByteReader.readLEInt, ByteReader.readBEInt, ByteReader.readLE, ByteReader.readBE]
    have a : ∀ x, (ByteReader.thenSwap x ⟨s, .error e, hostRepr big n old⟩).asInt big = (s, .error e, old) := by
      intro x
      show (s, (Except.error e : Except Err (Option Byte)), hostValue big (hostRepr big n old)) = _
      rw [v big]
    split
    · rename_i h1
      have r1 := r big
      rw [h1] at r1
      rw [r1]
      have v1 := v big
      rw [h1] at v1
      rw [ReadCall.asInt, v1]
      exact ⟨rfl, rfl⟩
    · rw [r big]
      exact ⟨a _, a _⟩
  · by_cases h1 : n = 1
    · refine ⟨(s', .ok w, leValue bs), (s', .ok w, leValue bs), fun big => ?_⟩
      rw [ByteReader.readLEInt, ByteReader.readBEInt, if_pos h1, if_pos h1]
      have r1 := r big
      rw [h1] at r1 hb
      rw [r1, ReadCall.asInt, hostValue_one big bs hb]
      exact ⟨rfl, rfl⟩
    · refine ⟨(s', .ok w, leValue bs), (s', .ok w, leValue bs.reverse), fun big => ?_⟩
      rw [ByteReader.readLEInt, ByteReader.readBEInt, if_neg h1, if_neg h1, ByteReader.readLE, ByteReader.readBE, r big]
      exact ⟨le_ok big s' w bs, be_ok big s' w bs⟩

/-- **C141**: integers read with `readLE` and `readBE` are the same on all machines, whatever is in the buffer and whatever state the
reader is in; when there is not enough, all of them keep the old value of the variable. -/
theorem C141_read (big big' : Bool) (n old : Nat) (ho : old < 256 ^ n) (s : ByteReader) :
    s.readLEInt big n old = s.readLEInt big' n old ∧ s.readBEInt big n old = s.readBEInt big' n old := by
  obtain ⟨a, b, h⟩ := readInt_forms n old ho s
  exact ⟨(h big).1.trans (h big').1.symm, (h big).2.trans (h big').2.symm⟩

example : (∀ n v, Item.host n v ∉ [Item.le 4 7, Item.be 2 9, Item.raw [1#8]]) ∧ 0x1234 < 256 ^ 2 := by
  refine ⟨fun n v h => ?_, by decide⟩
  simp at h

theorem hostRepr_flip (n v : Nat) : hostRepr true n v = (hostRepr false n v).reverse := rfl

/-- **C141, negation**: an integer written with `write` is stored alike by two machines of opposite byte orders exactly when its bytes
read the same in both directions. -/
theorem C141_write_native (n v : Nat) (buf : List Byte) (hb : n ≤ buf.length) (hm : buf.length < 2 ^ 64) :
    ((ByteWriter.ofBuffer buf).put true (.host n v)).1.viewWritten = ((ByteWriter.ofBuffer buf).put false (.host n v)).1.viewWritten ↔
      (leRepr n v).reverse = leRepr n v := by
  have w : ∀ bs : List Byte, bs.length = n → ((ByteWriter.ofBuffer buf).write bs).1.viewWritten = bs := by
    intro bs hl
    have hr : (ByteWriter.ofBuffer buf).Ready := ⟨Nat.zero_le _, Nat.le_refl _, hm⟩
    obtain ⟨s', bs', k1, k2, k3, k4, _⟩ := Record.C107_written true [.raw bs] (ByteWriter.ofBuffer buf) hr
      (by show 0 + (bs.length + 0) ≤ buf.length; omega)
    rw [Record.viewWritten_ofBuffer, List.nil_append] at k4
    have e : bs' = bs := (k3 bs ⟨bs, [], rfl, rfl, by simp⟩).symm
    rw [e] at k4
    rw [ByteWriter.putAll, ByteWriter.put] at k1
    rcases hw : (ByteWriter.ofBuffer buf).write bs with ⟨s2, r⟩
    rw [hw] at k1
    cases r with
    | error e => cases k1
    | ok _ => cases k1; exact k4
  rw [ByteWriter.put, ByteWriter.put, w _ (hostRepr_length true n v), w _ (hostRepr_length false n v)]
  rfl

example : 4 ≤ (List.replicate 16 0#8).length ∧ (List.replicate 16 0#8).length < 2 ^ 64 := by decide
example : (leRepr 4 0x01020201).reverse = leRepr 4 0x01020201 ∧ (leRepr 4 0x01020304).reverse ≠ leRepr 4 0x01020304 := by decide

/-! ### UUIDs from words -/

theorem uuid_bytes (m : Machine) (a0 a1 a2 a3 : Nat) :
    uuidOfWords m a0 a1 a2 a3 = hostRepr m.big 4 a0 ++ hostRepr m.big 4 a1 ++ hostRepr m.big 4 a2 ++ hostRepr m.big 4 a3 := by
  rw [uuidOfWords]
  exact (Uuid.C39_make [] _ _ _ _ (hostRepr_length _ _ _) (hostRepr_length _ _ _) (hostRepr_length _ _ _) (hostRepr_length _ _ _)).2.2

/-- **C141, negation**: two machines of opposite byte orders make the same UUID of four words exactly when the bytes of each word read
the same in both directions; so the UUID of the same numbers is another one elsewhere. -/
theorem C141_uuid_words (sg sg' : Bool) (a0 a1 a2 a3 : Nat) :
    uuidOfWords ⟨sg, true⟩ a0 a1 a2 a3 = uuidOfWords ⟨sg', false⟩ a0 a1 a2 a3 ↔
      ∀ a ∈ [a0, a1, a2, a3], (leRepr 4 a).reverse = leRepr 4 a := by
  rw [uuid_bytes, uuid_bytes]
  have l := hostRepr_length
  have e : ∀ {a b c d : List Byte}, a.length = c.length → a ++ b = c ++ d → a = c ∧ b = d := fun h h' => List.append_inj h' h
  constructor
  · intro h
    simp only [List.append_assoc] at h
    obtain ⟨h0, h⟩ := e (by rw [l, l]) h
    obtain ⟨h1, h⟩ := e (by rw [l, l]) h
    obtain ⟨h2, h3⟩ := e (by rw [l, l]) h
    intro a ha
    simp only [List.mem_cons, List.not_mem_nil, or_false] at ha
    rcases ha with rfl | rfl | rfl | rfl
    · exact h0
    · exact h1
    · exact h2
    · exact h3
  · intro h
    have k : ∀ a ∈ [a0, a1, a2, a3], hostRepr true 4 a = hostRepr false 4 a := h
    dsimp only
    rw [k a0 (by simp), k a1 (by simp), k a2 (by simp), k a3 (by simp)]

example : uuidOfWords ⟨true, false⟩ 1 2 3 4 ≠ uuidOfWords ⟨true, true⟩ 1 2 3 4 := by decide +kernel

/-! ### Searching a builder -/

theorem equals_same (a b : Chr) (ha : a.bytes.length = b.bytes.length) : a.equals true b = a.equals false b := by
  have k : ∀ big, a.equals big b = true ↔ a.bytes = b.bytes := by
    intro big
    rw [Chr.equals, beq_iff_eq, Chr.value, Chr.value]
    exact ⟨fun h => hostValue_inj ha h, fun h => by rw [h]⟩
  rw [Bool.eq_iff_iff, k, k]

theorem window_length (data : List Byte) (i n : Nat) (hn : n ≤ 4) : (StringBuilder.window data i n).length = 4 := by
  rw [StringBuilder.window, List.length_append, List.length_replicate, ByteReader.readAt]
  dsimp only
  split
  · simp; omega
  · split
    · simp; omega
    · simp at *; omega

theorem count_le (c : Chr) (h : c.bytes.length = 4) : c.getBytesCount ≤ 4 := by
  have : ∀ l : List Byte, Chr.countFrom l ≤ l.length := by
    intro l
    induction l with
    | nil => exact Nat.le_refl _
    | cons b l ih => rw [Chr.countFrom]; split <;> simp <;> omega
  have := this c.bytes
  rw [Chr.getBytesCount]
  omega

/-- **C141**: searching a builder for a character gives the same on all machines, whatever the builder holds, and also whether the search
ends. -/
theorem C141_builder_search (w : ByteWriter) (c : Chr) (hc : c.bytes.length = 4) (from_ fuel : Nat) :
    StringBuilder.indexOf true w c from_ fuel = StringBuilder.indexOf false w c from_ fuel := by
  rw [StringBuilder.indexOf, StringBuilder.indexOf]
  generalize w.viewWritten = data
  induction fuel generalizing from_ with
  | zero => rfl
  | succ fuel ih =>
    rw [StringBuilder.indexOfLoop, StringBuilder.indexOfLoop,
      equals_same c ⟨StringBuilder.window data from_ c.getBytesCount⟩ (by rw [hc, window_length _ _ _ (count_le c hc)]), ih]

example : (Chr.ofByte 0x61#8).bytes.length = 4 := rfl

/-! ### Murmur3 -/

open Hash Hash.Murmur in
/-- **C141**: with inputs of less than a block (4 bytes) the 32-bit Murmur3 digest is the same on all machines, at all addresses. -/
theorem C141_murmur_short (h h' : Host) (seed : Word) (addr addr' : Nat) (data : List Byte) (hd : data.length < 4) :
    ∃ c c', (M32.new seed).update h addr data = .ok c ∧ (M32.new seed).update h' addr' data = .ok c' ∧ (c.digest h).1 = (c'.digest h').1 := by
  have e : data.length % 2 ^ 34 = data.length := Nat.mod_eq_of_lt (by omega)
  have ht : data.take data.length = data := List.take_length
  have z : data.length / 4 = 0 := by omega
  have seen : ∀ b, asSeen b 4 0 data = data := by
    intro b
    cases b
    · rfl
    · show wordsReversed 4 0 data = data
      apply List.ext_getElem?
      intro i
      by_cases hi : i < data.length
      · rw [wordsReversed_get 4 0 data i hi, if_neg (by omega), List.getD_eq_getElem?_getD, List.getElem?_eq_getElem hi]
        rfl
      · rw [List.getElem?_eq_none (by rw [wordsReversed_length]; omega), List.getElem?_eq_none (by omega)]
  obtain ⟨c, h1, _, h2⟩ := (C63_murmur32_exact h (M32.new seed) addr data _ rfl).2 (by omega) (.inl (by omega))
  obtain ⟨c', h1', _, h2'⟩ := (C63_murmur32_exact h' (M32.new seed) addr' data _ rfl).2 (by omega) (.inl (by omega))
  refine ⟨c, c', h1, h1', ?_⟩
  rw [h2, h2', e, ht, z, seen, seen]

open Hash Hash.Murmur in
/-- **C141, negation**: with one whole block (4 to 7 bytes) the digests of two machines of opposite byte orders are the same exactly when
the block reads the same in both directions. -/
theorem C141_murmur_block (h h' : Host) (hb : h.big = true) (hb' : h'.big = false) (seed : Word) (addr addr' : Nat) (ha : addr % 4 = 0)
    (ha' : addr' % 4 = 0) (data : List Byte) (h4 : 4 ≤ data.length) (h8 : data.length < 8) :
    ∃ c c', (M32.new seed).update h addr data = .ok c ∧ (M32.new seed).update h' addr' data = .ok c' ∧
      ((c.digest h).1 = (c'.digest h').1 ↔ (data.take 4).reverse = data.take 4) := by
  have e : data.length % 2 ^ 34 = data.length := Nat.mod_eq_of_lt (by omega)
  have ht : data.take data.length = data := List.take_length
  have z : data.length / 4 = 1 := by omega
  -- the input as the big endian machine sees it
  have flip : asSeen true 4 1 data = (data.take 4).reverse ++ data.drop 4 := by
    show wordsReversed 4 1 data = _
    apply List.ext_getElem?
    intro i
    by_cases hi : i < data.length
    · rw [wordsReversed_get 4 1 data i hi]
      by_cases h4i : i < 4
      · rw [if_pos (by omega), List.getElem?_append_left (by simp; omega), List.getElem?_reverse (by simp; omega), List.length_take,
          show min 4 data.length - 1 - i = 3 - i by omega, List.getElem?_take_of_lt (by omega),
          show 4 * (i / 4) + (4 - 1 - i % 4) = 3 - i by omega, List.getD_eq_getElem?_getD, List.getElem?_eq_getElem (by omega)]
        rfl
      · rw [if_neg (by omega), List.getElem?_append_right (by simp; omega), List.getElem?_drop, List.length_reverse, List.length_take,
          show 4 + (i - min 4 data.length) = i by omega, List.getD_eq_getElem?_getD, List.getElem?_eq_getElem hi]
        rfl
    · rw [List.getElem?_eq_none (by rw [wordsReversed_length]; omega), List.getElem?_eq_none (by simp; omega)]
  have hlen : ((data.take 4).reverse ++ data.drop 4).length = data.length := by simp; omega
  obtain ⟨c, h1, _, h2⟩ := (C63_murmur32_exact h (M32.new seed) addr data _ rfl).2 (by omega) (.inr ha)
  obtain ⟨c', h1', _, h2'⟩ := (C63_murmur32_exact h' (M32.new seed) addr' data _ rfl).2 (by omega) (.inr ha')
  obtain ⟨d, g1, _, g2⟩ := (C63_murmur32_exact h' (M32.new seed) addr' ((data.take 4).reverse ++ data.drop 4) _ rfl).2
    (by rw [hlen]; omega) (.inr ha')
  refine ⟨c, c', h1, h1', ?_⟩
  have same : (c.digest h).1 = (d.digest h').1 := by
    rw [h2, g2, hlen, e, ht, z, hb, hb', flip]
    rw [← hlen, List.take_length]
    rfl
  rw [same]
  have key := (C85_murmur32_exact h' addr' addr' _ data seed seed d c' g1 h1').1 0 rfl ⟨hlen, fun i hi => by
    rw [List.getElem?_append_right (by simp; omega), List.getElem?_drop]
    congr 1
    simp
    omega⟩
  rw [key, hlen, e, ht, List.take_of_length_le (by omega)]
  constructor
  · intro h
    have h' : (data.take 4).reverse ++ data.drop 4 = data.take 4 ++ data.drop 4 := by rw [h, List.take_append_drop]
    exact (List.append_inj h' (by simp)).1
  · intro h
    rw [h, List.take_append_drop]

example : ([1#8, 2#8, 2#8, 1#8, 9#8].take 4).reverse = [1#8, 2#8, 2#8, 1#8, 9#8].take 4 := by decide

end Solace.Machine
