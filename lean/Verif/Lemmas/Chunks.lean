import Verif.Lemmas.ByteWriter
/-
Writing a sequence of pieces one after the other, stopping at the first error: the shape of every encoder and decoder.
-/
namespace Solace.ByteWriter

/-- A usable writer: position, limit and capacity are ordered and fit the machine. -/
def Ready (s : ByteWriter) : Prop := s.position ≤ s.limit ∧ s.limit ≤ s.data.length ∧ s.data.length < 2 ^ 64

/-- The writer after `bytes` have been written at its position. -/
def wrote (s : ByteWriter) (bytes : List Byte) : ByteWriter :=
  { s with data := overwrite s.data s.position bytes, position := s.position + bytes.length }

/-- Write the pieces in order until one fails. -/
def writeChunks (s : ByteWriter) : List (List Byte) → Call
  | [] => (s, .ok ())
  | d :: ds =>
    match s.write d with
    | (s', .ok _) => writeChunks s' ds
    | (s', .error e) => (s', .error e)

theorem overwrite_nil (data : List Byte) (off : Nat) : overwrite data off [] = data := by
  simp [overwrite]

theorem wrote_nil (s : ByteWriter) : s.wrote [] = s := by
  simp [wrote, overwrite_nil]

theorem overwrite_overwrite (data : List Byte) (off : Nat) (a b : List Byte)
    (h : off + a.length ≤ data.length) :
    overwrite (overwrite data off a) (off + a.length) b = overwrite data off (a ++ b) := by
  have h1 := overwrite_take data off a h
  have h2 := overwrite_drop data off a h
  rw [overwrite, h1, ← List.drop_drop, h2, overwrite]
  simp [List.drop_drop, Nat.add_assoc]

theorem wrote_wrote (s : ByteWriter) (a b : List Byte) (h : s.position + a.length ≤ s.data.length) :
    (s.wrote a).wrote b = s.wrote (a ++ b) := by
  simp only [wrote, overwrite_overwrite _ _ _ _ h, List.length_append, Nat.add_assoc]

theorem wrote_ready (s : ByteWriter) (a : List Byte) (h : s.Ready) (hf : s.position + a.length ≤ s.limit) :
    (s.wrote a).Ready ∧ (s.wrote a).limit = s.limit ∧ (s.wrote a).position = s.position + a.length := by
  obtain ⟨h1, h2, h3⟩ := h
  have := overwrite_length s.data s.position a (by omega)
  refine ⟨⟨?_, ?_, ?_⟩, rfl, rfl⟩ <;> simp only [wrote] <;> omega

theorem remaining_of_ready (s : ByteWriter) (h : s.Ready) : s.remaining = s.limit - s.position := by
  rw [remaining, sub64_of_le h.1 (by have := h.2; omega)]

/-- A write that fits below the limit. -/
theorem write_ready (s : ByteWriter) (src : List Byte) (h : s.Ready) (hf : s.position + src.length ≤ s.limit) :
    s.write src = (s.wrote src, .ok ()) := by
  have hr := remaining_of_ready s h
  obtain ⟨h1, h2, h3⟩ := h
  rcases write_cases s src ⟨h3, by omega⟩ with ⟨h, hw⟩ | ⟨_, hc, hw⟩ | ⟨_, hc, hr', hw⟩ | ⟨_, hc, hr', hw⟩
  · rw [hw, h, wrote_nil]
  · omega
  · omega
  · rw [hw]; rfl

/-- A write that does not fit below the limit: an error; position and limit stay; bytes before the position stay; the
buffer keeps its size. -/
theorem write_short (s : ByteWriter) (src : List Byte) (h : s.Ready) (hf : s.limit < s.position + src.length) :
    ∃ s', s.write src = (s', .error .overflow) ∧ s'.position = s.position ∧ s'.limit = s.limit ∧
      s'.data.length = s.data.length ∧ ∀ i < s.position, s'.data[i]? = s.data[i]? := by
  have hr := remaining_of_ready s h
  obtain ⟨h1, h2, h3⟩ := h
  rcases write_cases s src ⟨h3, by omega⟩ with ⟨h, hw⟩ | ⟨_, hc, hw⟩ | ⟨_, hc, hr', hw⟩ | ⟨_, hc, hr', hw⟩
  · rw [h] at hf; simp at hf; omega
  · exact ⟨s, hw, rfl, rfl, rfl, fun _ _ => rfl⟩
  · exact ⟨_, hw, rfl, rfl, overwrite_length _ _ _ hc, fun i hi => overwrite_getElem? _ _ _ hc i (.inl hi)⟩
  · omega

attribute [local irreducible] write

theorem writeChunks_fits (ds : List (List Byte)) (s : ByteWriter) (h : s.Ready)
    (hf : s.position + ds.flatten.length ≤ s.limit) : s.writeChunks ds = (s.wrote ds.flatten, .ok ()) := by
  induction ds generalizing s with
  | nil => simp [writeChunks, wrote_nil]
  | cons d ds ih =>
    rw [List.flatten_cons, List.length_append] at hf
    have hd : s.position + d.length ≤ s.limit := by omega
    obtain ⟨hr, hl, hp⟩ := wrote_ready s d h hd
    rw [writeChunks, write_ready s d h hd]
    simp only
    rw [ih (s.wrote d) hr (by rw [hl, hp]; omega), wrote_wrote s d _ (by have := h.2.1; omega), List.flatten_cons]

theorem writeChunks_short (ds : List (List Byte)) (s : ByteWriter) (h : s.Ready)
    (hf : s.limit < s.position + ds.flatten.length) :
    ∃ s', s.writeChunks ds = (s', .error .overflow) ∧ s.position ≤ s'.position ∧ s'.position ≤ s.limit ∧
      s'.limit = s.limit ∧ s'.data.length = s.data.length ∧ ∀ i < s.position, s'.data[i]? = s.data[i]? := by
  induction ds generalizing s with
  | nil => simp at hf; have := h.1; omega
  | cons d ds ih =>
    rw [List.flatten_cons, List.length_append] at hf
    by_cases hd : s.position + d.length ≤ s.limit
    · obtain ⟨hr, hl, hp⟩ := wrote_ready s d h hd
      rw [writeChunks, write_ready s d h hd]
      obtain ⟨s', h1, h2, h3, h4, h5, h6⟩ := ih (s.wrote d) hr (by rw [hl, hp]; omega)
      have hlen : s.position + d.length ≤ s.data.length := by have := h.2.1; omega
      refine ⟨s', h1, by omega, by omega, by omega, ?_, ?_⟩
      · rw [h5]; exact overwrite_length _ _ _ hlen
      · intro i hi
        rw [h6 i (by omega)]
        exact overwrite_getElem? _ _ _ hlen i (.inl hi)
    · obtain ⟨s', h1, h2, h3, h4, h5⟩ := write_short s d h (by omega)
      exact ⟨s', by rw [writeChunks, h1], by omega, by have := h.1; omega, h3, h4, h5⟩

end Solace.ByteWriter
