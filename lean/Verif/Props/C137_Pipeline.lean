import Verif.Lemmas.Pipeline
/-
C137: chains of encoders undone in reverse order.
-/
namespace Solace.Pipeline

/-- **C137** (full): every chain of encoders succeeds in the buffers of the announced sizes and gives the published texts. -/
theorem C137_encode (cs : List Codec) (b : List Byte) (h : ∀ n ∈ sizes cs b.length, n < 2 ^ 62) :
    encodeAll cs b = .ok (textAll cs b) ∧ (textAll cs b).length = (sizes cs b.length).getLastD 0 := by
  refine ⟨encodeAll_eq cs b h, ?_⟩
  induction cs generalizing b with
  | nil => rfl
  | cons c cs ih =>
    have h0 : b.length < 2 ^ 62 := h _ (List.mem_cons_self ..)
    have hl := textOf_length c b h0
    have := ih (textOf c b) (fun n hn => h n (List.mem_cons_of_mem _ (by rw [hl] at hn; exact hn)))
    rw [hl] at this
    show (textAll cs (textOf c b)).length = _
    rw [this, sizes]
    cases cs <;> rfl

/-- **C137** (partial: there are bytes, and each text is followed by a zero byte, as in a C string): every chain is undone by the
decoders in reverse order. -/
theorem C137_terminated_partial (cs : List Codec) (b r : List Byte) (h : ∀ n ∈ sizes cs b.length, n < 2 ^ 62) (hb : b ≠ []) :
    thereAndBack (0#8 :: r) cs b = .ok (.ok b) := by
  induction cs generalizing b with
  | nil => rfl
  | cons c cs ih =>
    have h0 : b.length < 2 ^ 62 := h _ (List.mem_cons_self ..)
    have hl := textOf_length c b h0
    have hp := size_pos c b.length (List.length_pos_iff.mpr hb)
    have hpos := List.length_pos_iff.mpr hb
    have hne : textOf c b ≠ [] := List.ne_nil_of_length_pos (by omega)
    rw [thereAndBack_cons _ c cs b h, ih (textOf c b) (fun n hn => h n (List.mem_cons_of_mem _ (by rw [hl] at hn; exact hn))) hne]
    show decodeOne _ c (textOf c b) = _
    by_cases hc : c = .base16
    · subst hc; exact decode_hex _ b h0
    · exact (decode_64 _ c hc b h0).1 hb (fun _ => stops_at_zero _ r)

/-- **C137, exactly**, when nothing follows the texts in memory: the chain is undone if no stage has a Base64 text without padding;
otherwise a decoder reads beyond its text. -/
theorem C137_exact (cs : List Codec) (b : List Byte) (h : ∀ n ∈ sizes cs b.length, n < 2 ^ 62) (hb : b ≠ []) :
    thereAndBack [] cs b = if Unpadded cs b.length then .ub else .ok (.ok b) := by
  induction cs generalizing b with
  | nil => rfl
  | cons c cs ih =>
    have h0 : b.length < 2 ^ 62 := h _ (List.mem_cons_self ..)
    have hl := textOf_length c b h0
    have hp := size_pos c b.length (List.length_pos_iff.mpr hb)
    have hpos := List.length_pos_iff.mpr hb
    have hne : textOf c b ≠ [] := List.ne_nil_of_length_pos (by omega)
    rw [thereAndBack_cons _ c cs b h, ih (textOf c b) (fun n hn => h n (List.mem_cons_of_mem _ (by rw [hl] at hn; exact hn))) hne, hl]
    by_cases hu : Unpadded cs (sizeOf' c b.length)
    · rw [if_pos hu, if_pos (show Unpadded (c :: cs) b.length from .inr hu)]
      rfl
    · rw [if_neg hu]
      show decodeOne _ c (textOf c b) = _
      by_cases hc : c = .base16
      · subst hc
        rw [decode_hex _ b h0, if_neg (fun hx : Unpadded (.base16 :: cs) b.length => hx.elim (fun hx => hx.1 rfl) hu)]
      · by_cases h3 : b.length % 3 = 0
        · rw [(decode_64 _ c hc b h0).2.1 hb h3 rfl, if_pos (show Unpadded (c :: cs) b.length from .inl ⟨hc, h3⟩)]
        · rw [(decode_64 _ c hc b h0).1 hb (fun hx => absurd hx h3),
            if_neg (fun hx : Unpadded (c :: cs) b.length => hx.elim (fun hx => h3 hx.2) hu)]

/-- **C137, exactly**, for no bytes: a chain with a Base64 stage ends in an error, whatever follows the texts. -/
theorem C137_empty (tail : List Byte) (cs : List Codec) :
    thereAndBack tail cs [] = if ∀ c ∈ cs, c = .base16 then .ok (.ok []) else .ok (.error .nodata) := by
  have hz : ∀ cs n, n ∈ sizes cs 0 → n < 2 ^ 62 := by
    intro cs
    induction cs with
    | nil => intro n hn; simp [sizes] at hn; omega
    | cons c cs ih =>
      intro n hn
      have hc : sizeOf' c 0 = 0 := by cases c <;> rfl
      rw [sizes, hc] at hn
      rcases List.mem_cons.mp hn with rfl | hn
      · omega
      · exact ih n hn
  induction cs with
  | nil => rfl
  | cons c cs ih =>
    have ht : textOf c [] = [] := by cases c <;> decide +kernel
    rw [thereAndBack_cons tail c cs [] (hz (c :: cs)), ht, ih]
    by_cases ha : ∀ c ∈ cs, c = .base16
    · rw [if_pos ha]
      show decodeOne tail c [] = _
      by_cases hc : c = .base16
      · subst hc
        rw [if_pos (by simpa using ha)]
        exact decode_hex tail [] (by simp)
      · rw [if_neg (fun hx => hc (hx c (List.mem_cons_self ..)))]
        have := (decode_64 tail c hc [] (by simp)).2.2 rfl
        rwa [ht] at this
    · rw [if_neg ha, if_neg (fun hx => ha fun d hd => hx d (List.mem_cons_of_mem _ hd))]
      rfl

/-- **C137**, chains of Base16 only (full): undone whatever the bytes and whatever follows. -/
theorem C137_hex (tail : List Byte) (k : Nat) (b : List Byte) (h : 2 ^ k * b.length < 2 ^ 62) :
    thereAndBack tail (List.replicate k .base16) b = .ok (.ok b) := by
  have hs : ∀ k n, 2 ^ k * n < 2 ^ 62 → ∀ m ∈ sizes (List.replicate k .base16) n, m < 2 ^ 62 := by
    intro k
    induction k with
    | zero => intro n hn m hm; simp [sizes] at hm; omega
    | succ k ih =>
      intro n hn m hm
      rw [List.replicate_succ, sizes] at hm
      rw [Nat.pow_succ, Nat.mul_assoc] at hn
      rcases List.mem_cons.mp hm with rfl | hm
      · have : 1 * (2 * m) ≤ 2 ^ k * (2 * m) := Nat.mul_le_mul_right _ (Nat.one_le_two_pow)
        omega
      · exact ih _ hn m hm
  induction k generalizing b with
  | zero => rfl
  | succ k ih =>
    have hl := textOf_length .base16 b
    have h1 : 2 ^ k * (2 * b.length) < 2 ^ 62 := by rwa [Nat.pow_succ, Nat.mul_assoc] at h
    have h0 : b.length < 2 ^ 62 := by
      have : 1 * (2 * b.length) ≤ 2 ^ k * (2 * b.length) := Nat.mul_le_mul_right _ (Nat.one_le_two_pow)
      omega
    have hl : (textOf .base16 b).length = 2 * b.length := hl h0
    rw [List.replicate_succ, thereAndBack_cons _ _ _ b (by rw [← List.replicate_succ]; exact hs (k + 1) _ h),
      ih (textOf .base16 b) (by rw [hl]; exact h1)]
    exact decode_hex tail b h0

/-- A chain that is undone, one that is not, and sizes that meet the hypotheses. -/
example : ¬Unpadded [.base64, .base16, .base64url] 2 ∧ Unpadded [.base16, .base64] 3 ∧ Unpadded [.base64, .base64] 3 := by decide
example : ∀ n ∈ sizes [.base64, .base16, .base64url] 2, n < 2 ^ 62 := by decide
example : thereAndBack [] [.base64, .base16, .base64url] [0x66#8, 0xFF#8] = .ok (.ok [0x66#8, 0xFF#8]) := by decide +kernel
example : thereAndBack [] [.base16, .base64] [1#8, 2#8, 3#8] = .ub ∧
    thereAndBack [0#8] [.base16, .base64] [1#8, 2#8, 3#8] = .ok (.ok [1#8, 2#8, 3#8]) := by decide +kernel
example : textAll [.base16, .base64] [0xAB#8] = [0x59#8, 0x57#8, 0x49#8, 0x3D#8] := by decide +kernel
example : 2 ^ 3 * [1#8, 2#8].length < 2 ^ 62 := by decide

end Solace.Pipeline
