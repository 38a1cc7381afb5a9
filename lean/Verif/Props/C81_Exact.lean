import Verif.Props.C81_ArrayFactory
import Verif.Props.C83_Exact
/-! C81: what is made for all numbers of elements and all views. -/
namespace Solace.Vec
variable {α : Type}

theorem slice_all (b : Nat) : (MutableMemoryView.slice b 0 b).2 = b := by
  rw [MutableMemoryView.slice]
  by_cases h : 0 = b
  · rw [if_pos h]; exact h
  · rw [if_neg h]; simp

/-- **C81, exactly, `makeArray(n)`**: for every `n`. The array has `size()` `n`, and as many elements as fit into
`n * sizeof(T)` bytes modulo 2^64. -/
theorem C81_makeArray_exact (heap : Nat → Bool) (sz n : Nat) (x : α) :
    (heap (n * sz % 2 ^ 64) = true → ∃ a, makeArray heap sz n x = .ok a ∧ a.next = n ∧
      shown sz a = List.replicate (n * sz % 2 ^ 64 / sz) (some x) ∧
      (∀ i, index sz a i = if i < n * sz % 2 ^ 64 / sz then .ok x else .throws) ∧
      (arrayEmpty a = true ↔ n * sz % 2 ^ 64 = 0)) ∧
    (heap (n * sz % 2 ^ 64) = false → makeArray heap sz n x = .error .nomem) := by
  refine ⟨fun hh => ?_, fun hh => ?_⟩
  · have hv : viewSize sz (⟨n * sz % 2 ^ 64, List.replicate (n * sz % 2 ^ 64 / sz) (some x), n⟩ : Vec α) = n * sz % 2 ^ 64 / sz := by
      rw [viewSize]
      simp only
      rw [Nat.mul_comm sz n, wrap64_def, slice_all]
    refine ⟨⟨n * sz % 2 ^ 64, List.replicate (n * sz % 2 ^ 64 / sz) (some x), n⟩, ?_, rfl, ?_, fun i => ?_, ?_⟩
    · rw [makeArray, wrap64_def, allocate, if_pos hh]
      simp only [ofBytes, List.map_replicate]
    · rw [shown, hv]
      simp
    · rw [index, hv]
      by_cases hi : i < n * sz % 2 ^ 64 / sz
      · rw [if_pos hi, if_pos hi, List.getElem?_replicate_of_lt hi]
      · rw [if_neg hi, if_neg hi]
    · rw [arrayEmpty, beq_iff_eq]
  · rw [makeArray, wrap64_def, allocate_error heap sz _ hh]

/-- **C81, exactly when**: an array made for `n` elements shows `n` if and only if their size fits 64 bits. -/
theorem C81_makeArray_iff (heap : Nat → Bool) (sz n : Nat) (hsz : 0 < sz) (x : α) (a : Vec α) (h : makeArray heap sz n x = .ok a) :
    Shows sz a (List.replicate n x) ↔ n * sz < 2 ^ 64 := by
  obtain ⟨h1, h2⟩ := C81_makeArray_exact heap sz n x
  cases hh : heap (n * sz % 2 ^ 64) with
  | false => rw [h2 hh] at h; cases h
  | true =>
    obtain ⟨b, hb, hn, hs, hi, _⟩ := h1 hh
    rw [h] at hb
    cases hb
    rw [← Dict.le_mod_div n sz hsz]
    constructor
    · rintro ⟨_, _, _, h4⟩
      rw [hs, List.map_replicate] at h4
      have := congrArg List.length h4
      rw [List.length_replicate, List.length_replicate] at this
      omega
    · intro hle
      have hlt := (Dict.le_mod_div n sz hsz).1 hle
      have he : n * sz % 2 ^ 64 / sz = n := by rw [Nat.mod_eq_of_lt hlt, Nat.mul_div_cancel _ hsz]
      rw [he] at hs hi
      refine ⟨by rw [hn, List.length_replicate], fun i y hy => ?_, fun i hl => ?_, by rw [hs, List.map_replicate]⟩
      · obtain ⟨hlt, he⟩ := List.getElem?_eq_some_iff.1 hy
        rw [List.length_replicate] at hlt
        rw [hi, if_pos hlt, ← he, List.getElem_replicate]
      · rw [List.length_replicate] at hl
        rw [hi, if_neg (by omega)]

/-- **C81, exactly, `makeVector(view)`**: for a view of `bytes` bytes over the elements `mem`. The vector has as many elements as
the view shows whole ones; they are the elements of the view, except for trivially copyable ones of a view with left-over bytes:
those were never written, and reading any is undefined. -/
theorem C81_makeVectorFrom_exact (heap : Nat → Bool) (memcpy : Bool) (sz bytes : Nat) (hsz : 0 < sz) (hb : bytes < 2 ^ 64)
    (mem : List α) (hm : bytes / sz ≤ mem.length) (hh : heap (bytes / sz * sz) = true) :
    ∃ a, makeVectorFrom heap memcpy sz bytes mem = .ok (.ok a) ∧ a.next = bytes / sz ∧
      ((memcpy = false ∨ bytes % sz = 0) → Shows sz a (mem.take (bytes / sz))) ∧
      (memcpy = true → bytes % sz ≠ 0 → shown sz a = List.replicate (bytes / sz) none ∧
        ∀ i, index sz a i = if i < bytes / sz then .ub else .throws) := by
  have hle : bytes / sz * sz ≤ bytes := Nat.div_mul_le_self _ _
  have hmod : bytes / sz * sz + bytes % sz = bytes := by
    rw [Nat.mul_comm]; exact Nat.div_add_mod _ _
  have hw : wrap64 (bytes / sz * sz) = bytes / sz * sz := wrap64_of_lt (by omega)
  have hd : bytes / sz * sz / sz = bytes / sz := Nat.mul_div_cancel _ hsz
  obtain ⟨a, h1, h2, h3, h4⟩ := (C81_makeVectorFrom_partial heap memcpy sz (bytes / sz) hsz (by omega) mem hm).1 hh
  by_cases hcase : memcpy = false ∨ bytes % sz = 0
  · refine ⟨a, ?_, by rw [h2.1, List.length_take]; omega, fun _ => h2, fun hm h => ?_⟩
    · rw [← h1]
      rcases hcase with h | h
      · subst h
        simp only [makeVectorFrom, copyConstruct, hd]
        rfl
      · rw [show bytes / sz * sz = bytes by omega]
    · rcases hcase with h' | h'
      · rw [h'] at hm; cases hm
      · exact absurd h' h
  · have hmc : memcpy = true := by
      cases memcpy with
      | true => rfl
      | false => exact absurd (.inl rfl) hcase
    have hr : bytes % sz ≠ 0 := fun h => hcase (.inr h)
    subst hmc
    have hv : viewSize sz (⟨bytes / sz * sz, List.replicate (bytes / sz) none, bytes / sz⟩ : Vec α) = bytes / sz := by
      rw [viewSize]
      simp only
      rw [Nat.mul_comm sz, hw, slice_all, hd]
    refine ⟨⟨bytes / sz * sz, List.replicate (bytes / sz) none, bytes / sz⟩, ?_, rfl, fun h => absurd h hcase, fun _ _ => ⟨?_, fun i => ?_⟩⟩
    · rw [makeVectorFrom, hw, allocate, if_pos hh]
      simp only [copyConstruct, copyBytes, ofBytes, if_true, hd]
      by_cases h0 : bytes / sz = 0
      · rw [if_pos h0]
        rfl
      · rw [if_neg h0, if_pos (by omega)]
        rfl
    · rw [shown, hv]
      simp
    · rw [index, hv]
      by_cases hi : i < bytes / sz
      · rw [if_pos hi, if_pos hi, List.getElem?_replicate_of_lt hi]
      · rw [if_neg hi, if_neg hi]

example : makeVectorFrom (fun _ => true) false 8 20 [1, 2] = .ok (.ok ⟨16, [some 1, some 2], 2⟩) ∧
    makeVectorFrom (fun _ => true) true 8 20 [1, 2] = .ok (.ok ⟨16, [none, none], 2⟩) := by decide +kernel

theorem viewSize_over (sz bytes n : Nat) (cells : List (Option α)) :
    viewSize sz ⟨bytes, cells, n⟩ = min (n * sz % 2 ^ 64) bytes / sz := by
  rw [viewSize, Nat.mul_comm sz, wrap64_def, MutableMemoryView.slice]
  simp only
  by_cases h : 0 = n * sz % 2 ^ 64
  · rw [if_pos h, ← h, Nat.zero_min]
  · rw [if_neg h]
    simp

/-- **C81, exactly, over given memory**: `makeArray(memory, n)` always succeeds and says it has `n` elements. It shows those that
are whole within both the memory and `n * sizeof(T)` bytes modulo 2^64; these are `n` if and only if the memory has room for `n`. -/
theorem C81_given_memory (sz bytes n : Nat) (hsz : 0 < sz) (hb : bytes < 2 ^ 64) (cells : List (Option α))
    (hc : cells.length = bytes / sz) :
    ∃ a, overMemory bytes cells n = .ok a ∧ a.next = n ∧ (shown sz a).length = min (n * sz % 2 ^ 64) bytes / sz ∧
      ((shown sz a).length = n ↔ n * sz ≤ bytes) ∧
      (n * sz ≤ bytes → shown sz a = cells.take n) ∧
      ∀ i, (shown sz a).length ≤ i → index sz a i = .throws := by
  have hle : min (n * sz % 2 ^ 64) bytes / sz ≤ bytes / sz := Nat.div_le_div_right (Nat.min_le_right _ _)
  have hl : (shown sz (⟨bytes, cells, n⟩ : Vec α)).length = min (n * sz % 2 ^ 64) bytes / sz := by
    rw [shown, viewSize_over, List.length_take]
    simp only
    omega
  have hfit : n * sz ≤ bytes → min (n * sz % 2 ^ 64) bytes / sz = n := by
    intro h
    rw [Nat.mod_eq_of_lt (by omega), Nat.min_eq_left h, Nat.mul_div_cancel _ hsz]
  refine ⟨_, rfl, rfl, hl, ?_, fun h => ?_, fun i hi => ?_⟩
  · rw [hl]
    refine ⟨fun h => ?_, hfit⟩
    have h1 : min (n * sz % 2 ^ 64) bytes / sz * sz ≤ min (n * sz % 2 ^ 64) bytes := Nat.div_mul_le_self _ _
    rw [h] at h1
    exact Nat.le_trans h1 (Nat.min_le_right _ _)
  · rw [shown, viewSize_over, hfit h]
  · rw [index, viewSize_over, if_neg (by omega)]

example : overMemory 8 [some 7] 3 = .ok (⟨8, [some 7], 3⟩ : Vec Nat) ∧ shown 8 (⟨8, [some 7], 3⟩ : Vec Nat) = [some 7] :=
  ⟨rfl, by rw [shown, viewSize_over]; decide⟩

end Solace.Vec
