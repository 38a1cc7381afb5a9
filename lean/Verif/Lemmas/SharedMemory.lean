import Verif.Model.SharedMemory
import Verif.Lemmas.ByteWriter
namespace Solace.Shared
open ByteWriter

theorem bytes_length (w : Window) (m : List Byte) (h : w.In m) : (w.bytes m).length = w.size := by
  unfold Window.In at h; simp [Window.bytes]; omega

/-- Changing a part of a view changes that part of what the view shows, and nothing else of the block. -/
theorem overwrite_inside (w : Window) (m : List Byte) (h : w.In m) (k : Nat) (src : List Byte) (hk : k + src.length ≤ w.size) :
    overwrite m (w.off + k) src = overwrite m w.off (overwrite (w.bytes m) k src) := by
  have hl := bytes_length w m h
  have hol := overwrite_length (w.bytes m) k src (by omega)
  unfold Window.In at h
  have e1 : m.take (w.off + k) = m.take w.off ++ (w.bytes m).take k := by
    rw [List.take_add, Window.bytes, List.take_take, Nat.min_eq_left (by omega)]
  have e2 : m.drop (w.off + k + src.length) = (w.bytes m).drop (k + src.length) ++ m.drop (w.off + w.size) := by
    rw [Window.bytes]
    have : m.drop (w.off + w.size) = (m.drop w.off).drop w.size := by rw [List.drop_drop]
    rw [this, Nat.add_assoc, ← List.drop_drop (l := m)]
    conv => lhs; rw [← List.take_append_drop w.size (m.drop w.off)]
    rw [List.drop_append_of_le_length (by simp; omega)]
  rw [overwrite, overwrite, e1, e2, hol, hl]
  simp [overwrite, List.append_assoc]

/-- What a view shows after its content was replaced. -/
theorem bytes_overwrite (w : Window) (m bs : List Byte) (h : w.In m) (hb : bs.length = w.size) :
    w.bytes (overwrite m w.off bs) = bs := by
  unfold Window.In at h
  have hl : (m.take w.off).length = w.off := by simp; omega
  unfold Window.bytes overwrite
  rw [List.append_assoc, List.drop_append_of_le_length (by omega), List.drop_of_length_le (by omega), List.nil_append, ← hb,
    List.take_left]

/-- Views that do not touch. -/
def Apart (a b : Window) : Prop := a.off + a.size ≤ b.off ∨ b.off + b.size ≤ a.off

/-- Another view does not see the change. -/
theorem bytes_apart (w u : Window) (m bs : List Byte) (hw : w.In m) (hb : bs.length = w.size) (ha : Apart w u) :
    u.bytes (overwrite m w.off bs) = u.bytes m := by
  unfold Window.In at hw
  apply List.ext_getElem?
  intro i
  unfold Window.bytes
  by_cases hi : i < u.size
  · rw [List.getElem?_take_of_lt hi, List.getElem?_take_of_lt hi, List.getElem?_drop, List.getElem?_drop]
    apply overwrite_getElem? _ _ _ (by omega)
    unfold Apart at ha; omega
  · rw [List.getElem?_eq_none (by simp; omega), List.getElem?_eq_none (by simp; omega)]

theorem slice_inside (w : Window) (f t : Nat) :
    ∃ k n, w.slice f t = ⟨w.off + k, n⟩ ∧ (⟨0, w.size⟩ : Window).slice f t = ⟨k, n⟩ ∧ k + n ≤ w.size := by
  unfold Window.slice MutableMemoryView.slice
  by_cases h : f = t
  · exact ⟨0, 0, by simp [h], by simp [h], by omega⟩
  · refine ⟨min f w.size, min (max t (min f w.size)) w.size - min f w.size, ?_, ?_, ?_⟩
    · simp [h]
    · simp [h]
    · omega

theorem bytes_inside (w : Window) (m : List Byte) (k n : Nat) (hn : k + n ≤ w.size) :
    (⟨w.off + k, n⟩ : Window).bytes m = (⟨k, n⟩ : Window).bytes (w.bytes m) := by
  simp only [Window.bytes]
  rw [List.drop_take, List.take_take, List.drop_drop, Nat.min_eq_left (by omega)]

/-- The effect of an action on the block is its effect on what the view shows. -/
theorem step_local (w : Window) (m : List Byte) (h : w.In m) (hm : m.length < 2 ^ 63) (a : Act)
    (hlook : ∀ size offset, a = .look size offset → offset < 2 ^ 64 ∧ size ≤ 2 ^ 63) :
    step w m a = (overwrite m w.off (step ⟨0, w.size⟩ (w.bytes m) a).1, (step ⟨0, w.size⟩ (w.bytes m) a).2) ∧
    (step ⟨0, w.size⟩ (w.bytes m) a).1.length = w.size := by
  have hl := bytes_length w m h
  have hself : overwrite m w.off (w.bytes m) = m := by
    have := overwrite_inside w m h 0 [] (by simp)
    rw [Nat.add_zero] at this
    have e : ∀ (l : List Byte) k, overwrite l k [] = l := by intro l k; simp [overwrite]
    rw [e, e] at this; exact this.symm
  cases a with
  | fill value f t =>
    obtain ⟨k, n, e1, e2, hn⟩ := slice_inside w f t
    simp only [step, Window.fillRange, e1, e2, Window.fill]
    exact ⟨by rw [overwrite_inside w m h _ _ (by simp; omega)], by rw [overwrite_length _ _ _ (by simp; omega), hl]⟩
  | put f t source =>
    obtain ⟨k, n, e1, e2, hn⟩ := slice_inside w f t
    simp only [step, put, e1, e2]
    by_cases hs : source.length > n
    · simp only [if_pos hs]; exact ⟨by rw [hself], hl⟩
    · simp only [if_neg hs]
      exact ⟨by rw [overwrite_inside w m h _ _ (by omega)], by rw [overwrite_length _ _ _ (by omega), hl]⟩
  | copy f t f' t' =>
    obtain ⟨k, n, e1, e2, hn⟩ := slice_inside w f t
    obtain ⟨k', n', e1', e2', hn'⟩ := slice_inside w f' t'
    have hbl : ((⟨k', n'⟩ : Window).bytes (w.bytes m)).length = n' := bytes_length _ _ (by unfold Window.In; simp only; omega)
    simp only [step, Window.write, e1, e2, e1', e2', bytes_inside w m k' n' hn']
    by_cases hs : n' > n
    · simp only [if_pos hs]; exact ⟨by rw [hself], hl⟩
    · simp only [if_neg hs]
      exact ⟨by rw [overwrite_inside w m h _ _ (by omega)], by rw [overwrite_length _ _ _ (by omega), hl]⟩
  | construct f t object =>
    obtain ⟨k, n, e1, e2, hn⟩ := slice_inside w f t
    simp only [step, Window.construct, e1, e2]
    by_cases hs : object.length ≤ n
    · simp only [if_pos hs, List.take_length]
      exact ⟨by rw [overwrite_inside w m h _ _ (by omega)], by rw [overwrite_length _ _ _ (by omega), hl]⟩
    · simp only [if_neg hs]; exact ⟨by rw [hself], hl⟩
  | look size offset =>
    obtain ⟨ho, hs⟩ := hlook size offset rfl
    unfold Window.In at h
    refine ⟨?_, hl⟩
    simp only [step, hself, Window.dataAsAt, Nat.zero_add]
    congr 2
    by_cases hc : wrap64 (offset + size) ≤ w.size
    · simp only [if_pos hc, Window.load, hl]
      by_cases hw : offset + size < 2 ^ 64
      · rw [wrap64_of_lt hw] at hc
        rw [if_pos (by omega), if_pos hc, Window.bytes, List.drop_take, List.take_take, List.drop_drop, Nat.min_eq_left (by omega)]
      · rw [if_neg (by omega), if_neg (by omega)]
    · simp only [if_neg hc]

end Solace.Shared
