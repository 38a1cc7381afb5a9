import Verif.Spec.MemoryContracts
import Verif.Props.C37_C39_Uuid
/-
C117: the library keeps to the contracts of `memcpy`, `memmove`, `memset`, `memcmp` and `strncmp`: no null pointer, even for zero
bytes, and no overlapping regions for `memcpy`. False for views of the null pointer; for each function exactly when.
-/
namespace Solace.MemCalls
open ViewObj (View Mem)

theorem meets_nil : Meets [] := fun _ h => absurd h List.not_mem_nil

theorem meets_one (c : Call) : Meets [c] ↔ c.Valid :=
  ⟨fun h => h c List.mem_cons_self, fun h x hx => by rw [List.mem_singleton.mp hx]; exact h⟩

theorem meets_append (a b : List Call) : Meets (a ++ b) ↔ Meets a ∧ Meets b := by
  simp only [Meets, List.mem_append]
  exact ⟨fun h => ⟨fun c hc => h c (.inl hc), fun c hc => h c (.inr hc)⟩, fun ⟨h1, h2⟩ c hc => hc.elim (h1 c) (h2 c)⟩

theorem valid_other {fn : Fn} (h : fn ≠ .memcpy) (a b n : Nat) : (⟨fn, a, b, n⟩ : Call).Valid ↔ a ≠ 0 ∧ b ≠ 0 :=
  ⟨fun v => ⟨v.1, v.2.1⟩, fun v => ⟨v.1, v.2, fun e => absurd e h⟩⟩

theorem valid_memcpy (a b n : Nat) : (⟨.memcpy, a, b, n⟩ : Call).Valid ↔ a ≠ 0 ∧ b ≠ 0 ∧ (a + n ≤ b ∨ b + n ≤ a) :=
  ⟨fun v => ⟨v.1, v.2.1, v.2.2 rfl⟩, fun v => ⟨v.1, v.2.1, fun _ => v.2.2⟩⟩

/-- **C117**, comparing views: the contract is broken exactly for two empty views of which one is null and the other is not. -/
theorem C117_equals (v u : View) (hv : Proper v) (hu : Proper u) :
    ¬ Meets (equals v u) ↔ v.size = 0 ∧ u.size = 0 ∧ v.addr ≠ u.addr ∧ (v.addr = 0 ∨ u.addr = 0) := by
  rw [equals]
  unfold Proper at hv hu
  split
  · exact ⟨fun h => absurd meets_nil h, fun h => by omega⟩
  · split
    · exact ⟨fun h => absurd meets_nil h, fun h => by omega⟩
    · rw [meets_one, valid_other (by decide)]
      omega

example : ¬ Meets (equals ⟨0, 0⟩ ⟨4096, 0⟩) := (C117_equals _ _ (by decide) (by decide)).mpr (by decide)

/-- **C117**, `MutableMemoryView::write` never breaks it. -/
theorem C117_write (v src : View) (hs : Proper src) : Meets (write v src) := by
  unfold Proper at hs
  rw [write]
  split
  · exact meets_nil
  · split
    · exact meets_nil
    · split
      · rw [meets_one, valid_other (by decide)]
        omega
      · exact meets_nil

example : write ⟨64, 4⟩ ⟨128, 2⟩ = [⟨.memmove, 64, 128, 2⟩] := rfl

/-- **C117**, `MutableMemoryView::read` and `fill`: exactly for views of the null pointer. -/
theorem C117_read_fill (v dest : View) (hd : Proper dest) (hv : Proper v) :
    (¬ Meets (read v dest) ↔ dest.size = 0 ∧ (dest.addr = 0 ∨ v.addr = 0)) ∧ (¬ Meets (fill v) ↔ v.addr = 0) := by
  unfold Proper at hd hv
  constructor
  · rw [read]
    split
    · exact ⟨fun h => absurd meets_nil h, fun h => by omega⟩
    · rw [meets_one, valid_other (by decide)]
      omega
  · rw [fill, meets_one, valid_other (by decide)]
    omega

example : ¬ Meets (read ⟨64, 4⟩ ⟨0, 0⟩) ∧ ¬ Meets (fill ⟨0, 0⟩) :=
  ⟨(C117_read_fill ⟨64, 4⟩ ⟨0, 0⟩ (by decide) (by decide)).1.mpr (by decide),
   (C117_read_fill ⟨0, 0⟩ ⟨0, 0⟩ (by decide) (by decide)).2.mpr rfl⟩

theorem sliceMut_size (v : View) (f t : Nat) : (sliceMut v f t).size ≤ v.size := by
  rw [sliceMut]
  split
  · exact Nat.zero_le _
  · simp only
    omega

theorem sliceMut_addr (v : View) (f t : Nat) (h : v.addr ≠ 0) : (sliceMut v f t).addr ≠ 0 := by
  rw [sliceMut]
  split
  · exact h
  · simp only
    omega

theorem sliceMut_null (v : View) (f t : Nat) (hp : Proper v) (h : v.addr = 0) : sliceMut v f t = ⟨0, 0⟩ := by
  have h0 := hp h
  obtain ⟨a, n⟩ := v
  simp only at h h0
  subst h h0
  rw [sliceMut]
  split
  · rfl
  · simp

theorem sliceConst_null (v : View) (f t : Nat) (hp : Proper v) (h : v.addr = 0) : sliceConst v f t = ⟨0, 0⟩ := by
  have h0 := hp h
  obtain ⟨a, n⟩ := v
  simp only at h h0
  subst h h0
  simp [sliceConst]

theorem sliceConst_addr (v : View) (f t : Nat) (h : v.addr ≠ 0) : (sliceConst v f t).addr ≠ 0 := by
  simp only [sliceConst]
  omega

/-- **C117**, readers: exactly for successful reads of no bytes into a null view or from a reader over a null view. -/
theorem C117_reader (s : Stream) (offset : Nat) (dest : View) (hs : Proper s.storage) (hd : Proper dest) :
    (¬ Meets (readerRead s dest).1 ↔ dest.size = 0 ∧ (dest.addr = 0 ∨ s.storage.addr = 0)) ∧
    (¬ Meets (readerReadAt s offset dest).1 ↔
      dest.size = 0 ∧ wrap64 offset ≤ s.limit ∧ (dest.addr = 0 ∨ s.storage.addr = 0)) := by
  unfold Proper at hd
  constructor
  · rw [readerRead]
    split
    · exact ⟨fun h => absurd meets_nil h, fun h => by omega⟩
    · simp only
      by_cases hn : s.storage.addr = 0
      · rw [sliceMut_null _ _ _ hs hn]
        simp only
        split
        · exact ⟨fun h => absurd meets_nil h, fun h => by omega⟩
        · rw [meets_one, valid_other (by decide)]
          omega
      · have ha := sliceMut_addr s.storage s.position (wrap64 (s.position + dest.size)) hn
        split
        · exact ⟨fun h => absurd meets_nil h, fun h => by omega⟩
        · rw [meets_one, valid_other (by decide)]
          omega
  · rw [readerReadAt]
    split
    · rename_i hlt
      refine ⟨fun h => absurd meets_nil h, fun ⟨h0, h1, _⟩ => ?_⟩
      rw [h0, Nat.add_zero] at hlt
      omega
    · rename_i hlt
      simp only
      have hl : dest.size = 0 → wrap64 offset ≤ s.limit := fun h0 => by rw [h0, Nat.add_zero] at hlt; omega
      by_cases hn : s.storage.addr = 0
      · rw [sliceConst_null _ _ _ hs hn]
        simp only
        split
        · exact ⟨fun h => absurd meets_nil h, fun h => by omega⟩
        · rw [meets_one, valid_other (by decide)]
          omega
      · have ha := sliceConst_addr s.storage offset (wrap64 (offset + dest.size)) hn
        split
        · exact ⟨fun h => absurd meets_nil h, fun h => by omega⟩
        · rw [meets_one, valid_other (by decide)]
          omega

example : ¬ Meets (readerRead ⟨⟨4096, 8⟩, 2, 8⟩ ⟨0, 0⟩).1 :=
  (C117_reader ⟨⟨4096, 8⟩, 2, 8⟩ 0 ⟨0, 0⟩ (by decide) (by decide)).1.mpr (by decide)

/-- **C117**, writers never break it: a write of no bytes makes no call. -/
theorem C117_writer (s : Stream) (src : View) (hs : Proper s.storage) (hsrc : Proper src) : Meets (writerWrite s src).1 := by
  unfold Proper at hsrc
  rw [writerWrite]
  split
  · exact meets_nil
  · simp only
    by_cases hn : s.storage.addr = 0
    · rw [sliceMut_null _ _ _ hs hn]
      rw [if_pos (by simp only; omega)]
      exact meets_nil
    · have ha := sliceMut_addr s.storage s.position (wrap64 (s.position + src.size)) hn
      split
      · exact meets_nil
      · rw [meets_one, valid_other (by decide)]
        omega

/-- **C117**, comparing strings: exactly for two empty strings of which at least one is a view of the null pointer, for example
two default strings. -/
theorem C117_compare (s x : View) (hs : Proper s) (hx : Proper x) :
    ¬ Meets (compareTo s x) ↔ s.size = 0 ∧ x.size = 0 ∧ (s.addr = 0 ∨ x.addr = 0) := by
  unfold Proper at hs hx
  rw [compareTo]
  split
  · rw [meets_one, valid_other (by decide)]
    omega
  · exact ⟨fun h => absurd meets_nil h, fun h => by omega⟩

example : ¬ Meets (compareTo ⟨0, 0⟩ ⟨0, 0⟩) := (C117_compare _ _ (by decide) (by decide)).mpr (by decide)

/-- **C117**, texts of errors: exactly without memory, or for a view of the null pointer. The block from `calloc` overlaps nothing. -/
theorem C117_errors (message offset room : Nat) (view : View)
    (hf : message + offset + view.size ≤ view.addr ∨ view.addr + view.size ≤ message ∨ message = 0) :
    (offset = 0 → (¬ Meets (errorString message view) ↔ message = 0 ∨ view.addr = 0)) ∧
    (¬ Meets (writerAppend message offset room view) ↔ message = 0 ∨ view.addr = 0) := by
  constructor
  · intro h0
    rw [errorString, meets_one, valid_memcpy]
    omega
  · rw [writerAppend, meets_one, valid_memcpy]
    split <;> omega

example : ¬ Meets (writerAppend 4096 0 16 ⟨0, 0⟩) := (C117_errors 4096 0 16 ⟨0, 0⟩ (by decide)).2.mpr (.inr rfl)

/-- **C117**, UUIDs: copies between different objects and comparisons never break it. -/
theorem C117_uuid (a b : Nat) (ha : a ≠ 0) (hb : b ≠ 0) :
    (a + 16 ≤ b ∨ b + 16 ≤ a → Meets (uuidCopy a b)) ∧ Meets (uuidCompare a b) := by
  refine ⟨fun h => ?_, ?_⟩
  · rw [uuidCopy, meets_one, valid_memcpy]
    exact ⟨ha, hb, h⟩
  · rw [uuidCompare, meets_one, valid_other (by decide)]
    exact ⟨ha, hb⟩

/-- **C117**, in full for views and streams that are not null. Missing are views of the null pointer, for which the theorems above
give the counterexamples. -/
theorem C117_not_null_partial (v u : View) (s : Stream) (offset : Nat) (hv : v.addr ≠ 0) (hu : u.addr ≠ 0)
    (hs : s.storage.addr ≠ 0) :
    Meets (equals v u) ∧ Meets (write v u) ∧ Meets (read v u) ∧ Meets (fill v) ∧ Meets (readerRead s v).1 ∧
    Meets (readerReadAt s offset v).1 ∧ Meets (writerWrite s v).1 ∧ Meets (compareTo v u) := by
  have pv : Proper v := fun h => absurd h hv
  have pu : Proper u := fun h => absurd h hu
  have ps : Proper s.storage := fun h => absurd h hs
  have dn : ∀ {p : Prop} {q : Prop}, (¬ p ↔ q) → ¬ q → p := fun h hq =>
    Classical.byContradiction fun hp => hq (h.mp hp)
  exact ⟨dn (C117_equals v u pv pu) (by omega), C117_write v u pu, dn (C117_read_fill v u pu pv).1 (by omega),
    dn (C117_read_fill v u pu pv).2 hv, dn (C117_reader s offset v ps pv).1 (by omega),
    dn (C117_reader s offset v ps pv).2 (by omega), C117_writer s v ps pv, dn (C117_compare v u pv pu) (by omega)⟩

example : (equals ⟨64, 2⟩ ⟨128, 2⟩).length = 1 ∧ Meets (equals ⟨64, 2⟩ ⟨128, 2⟩) :=
  ⟨rfl, (C117_not_null_partial ⟨64, 2⟩ ⟨128, 2⟩ ⟨⟨64, 2⟩, 0, 2⟩ 0 (by decide) (by decide) (by decide)).1⟩

theorem skipBlocks_spec (n : Nat) : ∀ (i len : Nat), len ≤ n →
    (skipBlocks i len).1 + (skipBlocks i len).2 = i + len ∧ (skipBlocks i len).2 = len % 64 := by
  induction n with
  | zero =>
    intro i len h
    rw [skipBlocks, if_neg (by omega)]
    exact ⟨rfl, by simp only; omega⟩
  | succ n ih =>
    intro i len h
    rw [skipBlocks]
    split
    · obtain ⟨h1, h2⟩ := ih (i + 64) (len - 64) (by omega)
      exact ⟨by omega, by omega⟩
    · exact ⟨rfl, by simp only; omega⟩

/-- **C117**, hashing: for an input that does not overlap the buffer of the object, every call meets its contract, writes inside
the buffer and reads inside the input; and the last call ends where the count of buffered bytes says. -/
theorem C117_hash (buffer left : Nat) (input : View) (hb : buffer ≠ 0) (hl : left < 64) (hi : Proper input)
    (hd : buffer + 64 ≤ input.addr ∨ input.addr + input.size ≤ buffer) :
    Meets (hashUpdate buffer left input) ∧
    (∀ c ∈ hashUpdate buffer left input, c.fn = .memcpy ∧ buffer ≤ c.a ∧ c.a + c.n ≤ buffer + 64 ∧
      input.addr ≤ c.b ∧ c.b + c.n ≤ input.addr + input.size) ∧
    ((left + input.size) % 64 ≠ 0 → input.size ≠ 0 →
      ∃ c, (hashUpdate buffer left input).getLast? = some c ∧ c.a + c.n = buffer + (left + input.size) % 64 ∧
        c.b + c.n = input.addr + input.size) := by
  unfold Proper at hi
  rw [hashUpdate]
  split
  · exact ⟨meets_nil, fun c hc => absurd hc List.not_mem_nil, fun _ h => absurd (by assumption) h⟩
  · rename_i hne
    simp only
    by_cases hf : left ≠ 0 ∧ input.size ≥ 64 - left
    · rw [if_pos hf, if_pos hf, if_pos hf]
      obtain ⟨h1, h2⟩ := skipBlocks_spec _ (input.addr + (64 - left)) (input.size - (64 - left)) (Nat.le_refl _)
      generalize skipBlocks (input.addr + (64 - left)) (input.size - (64 - left)) = r at h1 h2
      have hm : (left + input.size) % 64 = r.2 := by omega
      refine ⟨?_, ?_, ?_⟩
      · rw [meets_append, meets_one, valid_memcpy]
        refine ⟨by omega, ?_⟩
        split
        · rw [meets_one, valid_memcpy]
          omega
        · exact meets_nil
      · intro c hc
        rw [List.mem_append, List.mem_singleton] at hc
        rcases hc with rfl | hc
        · refine ⟨rfl, ?_⟩
          simp only
          omega
        · split at hc
          · rw [List.mem_singleton] at hc
            subst hc
            refine ⟨rfl, ?_⟩
            simp only
            omega
          · exact absurd hc List.not_mem_nil
      · intro h _
        rw [if_pos (by omega)]
        refine ⟨_, List.getLast?_concat, ?_, ?_⟩
        · simp only
          omega
        · simp only
          omega
    · rw [if_neg hf, if_neg hf, if_neg hf]
      obtain ⟨h1, h2⟩ := skipBlocks_spec _ input.addr input.size (Nat.le_refl _)
      generalize skipBlocks input.addr input.size = r at h1 h2
      have hm : (left + input.size) % 64 = left + r.2 := by omega
      refine ⟨?_, ?_, ?_⟩
      · rw [List.nil_append]
        split
        · rw [meets_one, valid_memcpy]
          omega
        · exact meets_nil
      · intro c hc
        rw [List.nil_append] at hc
        split at hc
        · rw [List.mem_singleton] at hc
          subst hc
          refine ⟨rfl, ?_⟩
          simp only
          omega
        · exact absurd hc List.not_mem_nil
      · intro h _
        by_cases hr : r.2 > 0
        · rw [if_pos hr]
          exact ⟨⟨.memcpy, buffer + left, r.1, r.2⟩, rfl, by simp only; omega, by simp only; omega⟩
        · omega

example : hashUpdate 4096 60 ⟨8192, 75⟩ = [⟨.memcpy, 4156, 8192, 4⟩, ⟨.memcpy, 4096, 8260, 7⟩] := by
  simp [hashUpdate, skipBlocks]

/-- **C117**, the calls recorded are the ones the functions make: what the models of C101 do to memory is the effect of the calls. -/
theorem C117_effects (m : Mem) (v u : View) (value : Byte) :
    ViewObj.write m v u = (effects value (write v u) m >>= fun m' =>
      .ok (m', if v.addr = 0 ∨ u.size > v.size then .error .dom else .ok ())) ∧
    ViewObj.read m v u = (effects value (read v u) m >>= fun m' =>
      .ok (m', if v.size < u.size then .error .overflow else .ok ())) ∧
    ViewObj.fill m v value = effects value (fill v) m := by
  have ob : ∀ {α : Type} (o : Outcome α), (o >>= fun a => Outcome.ok a) = o := fun o => by cases o <;> rfl
  refine ⟨?_, ?_, ?_⟩
  · rw [ViewObj.write, write]
    split
    · rename_i h
      rw [effects, Outcome.bind_ok, if_pos (.inl h)]
    · rename_i h
      split
      · rename_i h'
        rw [effects, Outcome.bind_ok, if_pos (.inr h')]
      · rename_i h'
        have hc : ¬ (v.addr = 0 ∨ u.size > v.size) := by omega
        split
        · show _ = ((ViewObj.memmove m v.addr u.addr u.size >>= fun m' => Outcome.ok m') >>= _)
          rw [ob]
          rfl
        · rfl
  · rw [ViewObj.read, read]
    split
    · rfl
    · show _ = ((ViewObj.memmove m u.addr v.addr u.size >>= fun m' => Outcome.ok m') >>= _)
      rw [ob]
      rfl
  · rw [ViewObj.fill, fill]
    show _ = (ViewObj.memset m v.addr value v.size >>= fun m' => Outcome.ok m')
    rw [ob]

theorem slice_size (l f t : Nat) : ∀ v : View, v.size = l → (sliceMut v f t).size = (MutableMemoryView.slice l f t).2 ∧
    (sliceMut v f t).addr = v.addr + (MutableMemoryView.slice l f t).1 := by
  intro v h
  rw [sliceMut, MutableMemoryView.slice, h]
  split
  · exact ⟨rfl, rfl⟩
  · exact ⟨rfl, rfl⟩

/-- **C117**, and the streams of C01 and C03 succeed, and write, exactly where their calls say. -/
theorem C117_streams (data src dest : List Byte) (pos lim offset : Nat) (st d : View) (hst : st.size = data.length)
    (hd : d.size = dest.length) (hsz : d.size = src.length) :
    (((ByteReader.mk data pos lim).read dest).ret = .ok none ↔ (readerRead ⟨st, pos, lim⟩ d).2 = true) ∧
    (((ByteReader.mk data pos lim).readAt offset dest).ret = .ok none ↔ (readerReadAt ⟨st, pos, lim⟩ offset d).2 = true) ∧
    (∀ c ∈ (writerWrite ⟨st, pos, lim⟩ d).1,
      ((ByteWriter.mk data pos lim).write src).1.data = ByteWriter.overwrite data (c.a - st.addr) src) ∧
    ((writerWrite ⟨st, pos, lim⟩ d).1 = [] → ((ByteWriter.mk data pos lim).write src).1.data = data) := by
  have hlen : ∀ (l : List Byte) (f t : Nat), (MemoryView.slice l f t).length = min l.length (max t (min f l.length)) - min f l.length := by
    intro l f t
    simp only [MemoryView.slice, List.length_take, List.length_drop]
    omega
  have hms : ∀ (f t : Nat), (sliceMut st f t).size = (MemoryView.slice data f t).length := by
    intro f t
    rw [hlen, sliceMut, hst]
    split
    · simp only
      omega
    · simp only
      omega
  have hcs : ∀ (f t : Nat), (sliceConst st f t).size = (MemoryView.slice data f t).length := by
    intro f t
    rw [hlen, sliceConst, hst]
  refine ⟨?_, ?_, ?_, ?_⟩
  · rw [ByteReader.read, readerRead, ByteReader.remaining]
    simp only [hd]
    split
    · exact ⟨fun h => (by cases h), fun h => by cases h⟩
    · rw [hms]
      split
      · exact ⟨fun h => (by cases h), fun h => by cases h⟩
      · exact ⟨fun _ => rfl, fun _ => rfl⟩
  · rw [ByteReader.readAt, readerReadAt]
    simp only [hd]
    split
    · exact ⟨fun h => (by cases h), fun h => by cases h⟩
    · rw [hcs]
      split
      · exact ⟨fun h => (by cases h), fun h => by cases h⟩
      · exact ⟨fun _ => rfl, fun _ => rfl⟩
  · intro c hc
    rw [ByteWriter.write]
    rw [writerWrite] at hc
    simp only [hsz] at hc
    obtain ⟨h1, h2⟩ := slice_size data.length pos (wrap64 (pos + src.length)) st hst
    simp only [h1] at hc
    split at hc
    · exact absurd hc List.not_mem_nil
    · rename_i hne
      rw [if_neg hne]
      split at hc
      · exact absurd hc List.not_mem_nil
      · rename_i hns
        rw [List.mem_singleton] at hc
        subst hc
        simp only [h2, Nat.add_sub_cancel_left]
        rw [if_neg hns, ByteWriter.advance]
        split <;> rfl
  · intro hc
    rw [ByteWriter.write]
    rw [writerWrite] at hc
    simp only [hsz] at hc
    obtain ⟨h1, h2⟩ := slice_size data.length pos (wrap64 (pos + src.length)) st hst
    simp only [h1] at hc
    split at hc
    · rename_i h0
      rw [if_pos h0]
    · rename_i hne
      rw [if_neg hne]
      split at hc
      · rename_i hs
        simp only
        rw [if_pos hs]
      · cases hc

/-- `append` of the error text writes behind what is there and stays in the room left, from the beginning of the text and not
beyond its end; and it leaves nothing out when there is room for all. -/
theorem C117_append (buffer offset room : Nat) (data : View) (hb : buffer ≠ 0) :
    ∃ c, writerAppend buffer offset room data = [c] ∧ c.fn = .memcpy ∧ c.a = buffer + offset ∧ c.b = data.addr ∧ c.n ≤ room ∧
      c.n ≤ data.size ∧ (c.n = data.size ∨ c.n = room) := by
  rw [writerAppend, if_neg hb]
  refine ⟨_, rfl, rfl, rfl, rfl, Nat.min_le_right .., Nat.min_le_left .., ?_⟩
  show min data.size room = _ ∨ min data.size room = _
  omega

example : ∃ c, writerAppend 4096 3 5 ⟨100, 9⟩ = [c] ∧ c.a = 4099 ∧ c.n = 5 := by
  obtain ⟨c, h1, -, h3, -, -, -, h7⟩ := C117_append 4096 3 5 ⟨100, 9⟩ (by decide)
  refine ⟨c, h1, h3, ?_⟩
  rw [writerAppend] at h1
  cases h1; rfl

/-- The copies and comparisons of UUIDs take all 16 bytes of both objects and no other. -/
theorem C117_uuid_all (a b : Nat) :
    (∀ c ∈ uuidCopy a b ++ uuidCompare a b, c.a = a ∧ c.b = b ∧ c.n = 16) ∧
    (uuidCopy a b).length = 1 ∧ (uuidCompare a b).length = 1 ∧
    ∀ (m : List Byte), a + 16 ≤ m.length → b + 16 ≤ m.length → ∀ c ∈ uuidCompare a b,
      (Uuid.equals ((m.drop a).take 16) ((m.drop b).take 16) = true ↔ (m.drop c.a).take c.n = (m.drop c.b).take c.n) := by
  refine ⟨fun c hc => ?_, rfl, rfl, fun m ha hb c hc => ?_⟩
  · rw [uuidCopy, uuidCompare] at hc
    rcases List.mem_append.mp hc with hc | hc <;> · rw [List.mem_singleton.mp hc]; exact ⟨rfl, rfl, rfl⟩
  · rw [uuidCompare] at hc
    rw [List.mem_singleton.mp hc]
    exact Uuid.equals_iff' _ _ (by rw [List.length_take, List.length_take, List.length_drop, List.length_drop]; omega)

example : ∀ c ∈ uuidCompare 4 24, c.n = 16 := fun c hc => ((C117_uuid_all 4 24).1 c (List.mem_append_right _ hc)).2.2

end Solace.MemCalls
