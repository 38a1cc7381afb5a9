import Verif.Model.String
import Verif.Lemmas.StringView
import Verif.Lemmas.Chunks
/- Helper lemmas for the string-making functions. -/
namespace Solace.Str
open ByteWriter

/-- What is assumed of the memory manager: memory of the requested size, never a null pointer with a size. -/
def AllocOk (alloc : Nat → Except Err MutView) : Prop := ∀ n v, alloc n = .ok v → v.bytes.length = n ∧ v.Valid

theorem ofBuffer_ready (g : List Byte) (h : g.length < 2 ^ 64) : (ofBuffer g).Ready :=
  ⟨Nat.zero_le _, Nat.le_refl _, h⟩

theorem wrote_all (g x : List Byte) (h : x.length = g.length) : ((ofBuffer g).wrote x).data = x := by
  simp [wrote, ofBuffer, overwrite, h]

theorem view_whole (b : List Byte) : view ⟨b, b.length⟩ = b := by
  rw [view, slice_eq]; simp

theorem view_length_le (s : Str) : s.view.length ≤ s.size := by
  rw [view, slice_length]; omega

attribute [local irreducible] ByteWriter.write

theorem writeArgs_eq (w : ByteWriter) (as : List (List Byte)) : writeArgs w as = (w.writeChunks as).1 := by
  induction as generalizing w with
  | nil => rfl
  | cons a as ih =>
    rw [writeArgs, writeChunks]
    rcases w.write a with ⟨w', _ | _⟩
    · rfl
    · exact ih w'

theorem writeJoin_eq (w : ByteWriter) (by' : List Byte) (l : List (List Byte)) :
    writeJoin w by' l = w.writeChunks (l.intersperse by') := by
  induction l generalizing w with
  | nil => rfl
  | cons a l ih =>
    match l with
    | [] =>
      rw [writeJoin, List.intersperse_singleton, writeChunks]
      rcases w.write a with ⟨w', _ | _⟩ <;> rfl
    | b :: l =>
      rw [writeJoin, List.intersperse_cons_cons, writeChunks]
      rcases w.write a with ⟨w', _ | _⟩
      · rfl
      · simp only
        rw [writeChunks]
        rcases w'.write by' with ⟨w'', _ | _⟩
        · rfl
        · exact ih w''

theorem intercalate_length (by' : List Byte) (l : List (List Byte)) :
    (by'.intercalate l).length = by'.length * (l.length - 1) + (l.map List.length).sum := by
  rw [List.intercalate]
  induction l with
  | nil => simp
  | cons a l ih =>
    match l with
    | [] => simp
    | b :: l =>
      rw [List.intersperse_cons_cons, List.flatten_cons, List.flatten_cons, List.length_append, List.length_append, ih]
      simp only [List.length_cons, List.map_cons, List.sum_cons, Nat.add_sub_cancel, Nat.mul_add, Nat.mul_one]
      omega

theorem joinLength_eq (by' : List Byte) (l : List (List Byte)) (hl : l ≠ []) (hn : l.length < 2 ^ 64) :
    joinLength by' l = wrap16 (by'.intercalate l).length := by
  have := List.length_pos_iff.mpr hl
  rw [joinLength, intercalate_length, sub64_of_le (by omega) hn]
  simp only [wrap16_def, wrap64_def]
  omega

theorem flatten_length (l : List (List Byte)) : l.flatten.length = (l.map List.length).sum := List.length_flatten

/-- All pieces but the last, each followed by the replacement. -/
def initText (by' : List Byte) (ps : List (List Byte)) : List Byte := (ps.dropLast.map (· ++ by')).flatten

theorem initText_cons (by' p : List Byte) (ps : List (List Byte)) (h : ps ≠ []) :
    initText by' (p :: ps) = p ++ by' ++ initText by' ps := by
  rw [initText, List.dropLast_cons_of_ne_nil h, List.map_cons, List.flatten_cons, initText]

theorem intercalate_eq_initText (by' : List Byte) (ps : List (List Byte)) (h : ps ≠ []) :
    by'.intercalate ps = initText by' ps ++ ps.getLast h := by
  induction ps with
  | nil => exact absurd rfl h
  | cons p ps ih =>
    match ps with
    | [] => simp [List.intercalate, initText]
    | q :: ps =>
      rw [initText_cons by' p _ (by simp), List.getLast_cons (by simp), List.append_assoc, ← ih (by simp)]
      simp [List.intercalate, List.intersperse_cons_cons]

theorem write_empty_buffer (x : List Byte) : ((ofBuffer []).write x).1 = ofBuffer [] := by
  cases x with
  | nil =>
    rw [write_ready (ofBuffer []) [] (ofBuffer_ready [] (by simp)) (by simp [ofBuffer]), wrote_nil]
  | cons a x =>
    obtain ⟨s', h1, h2, h3, h4, _⟩ := write_short (ofBuffer []) (a :: x) (ofBuffer_ready [] (by simp)) (by simp [ofBuffer])
    rw [h1]
    obtain ⟨d, p, l⟩ := s'
    simp only [ofBuffer, List.length_nil] at h2 h3 h4 ⊢
    rw [List.length_eq_zero_iff] at h4
    subst h2 h3 h4
    rfl

open StringView in
theorem replaceLoop_spec (s what by' : List Byte) (hw : what ≠ []) (hs : s.length < 2 ^ 16) (fuel t f : Nat)
    (w : ByteWriter) (hft : f ≤ t) (ht : t ≤ s.length) (hfuel : s.length - t < fuel) :
    ∃ w' from', replaceLoop s what by' fuel t f w = some (w', from') ∧ from' ≤ s.length ∧
      (scan what ((s.drop f).take (t - f)) (s.drop t)).getLast? = some (s.drop from') ∧
      (w = ofBuffer [] → w' = ofBuffer []) ∧
      (w.Ready → w.position + (initText by' (scan what ((s.drop f).take (t - f)) (s.drop t))).length ≤ w.limit →
        w' = w.wrote (initText by' (scan what ((s.drop f).take (t - f)) (s.drop t)))) := by
  have hpos := List.length_pos_iff.mpr hw
  induction fuel generalizing t f w with
  | zero => omega
  | succ fuel ih =>
    rw [replaceLoop]
    by_cases hlt : t + what.length ≤ s.length
    · rw [if_pos ⟨by omega, hlt⟩]
      by_cases hm : what <+: s.drop t
      · have hne := scan_ne_nil what [] (s.drop (t + what.length)) hw
        rw [if_pos ((split_test s what t hlt hs).mpr hm), scan_match hw hm,
          sub16_of_le (by omega) (by omega), Nat.sub_add_cancel (by omega), wrap16_of_lt (n := t + what.length) (by omega),
          sub16_of_le hft (by omega), Nat.add_sub_cancel' hft, wrap16_of_lt (n := t) (by omega), substring_eq s hft ht,
          List.drop_drop]
        obtain ⟨w', from', h1, h2, h3, h4, h5⟩ := ih (t + what.length) (t + what.length)
          ((w.write ((s.drop f).take (t - f))).1.write by').1 (Nat.le_refl _) hlt (by omega)
        rw [Nat.sub_self, List.take_zero] at h3 h5
        refine ⟨w', from', h1, h2, ?_, ?_, ?_⟩
        · rw [List.getLast?_cons, h3]; rfl
        · intro he
          apply h4
          rw [he, write_empty_buffer, write_empty_buffer]
        · intro hr hfit
          rw [initText_cons by' _ _ hne, List.length_append, List.length_append] at hfit
          have hA : w.position + ((s.drop f).take (t - f)).length ≤ w.limit := by omega
          obtain ⟨hr1, hl1, hp1⟩ := wrote_ready w _ hr hA
          have hB : (w.wrote ((s.drop f).take (t - f))).position + by'.length ≤ (w.wrote ((s.drop f).take (t - f))).limit := by
            rw [hp1, hl1]; omega
          obtain ⟨hr2, hl2, hp2⟩ := wrote_ready _ by' hr1 hB
          rw [write_ready w _ hr hA] at h5
          simp only at h5
          rw [write_ready _ _ hr1 hB] at h5
          simp only at h5
          have hlim := hr.2.1
          rw [h5 hr2 (by rw [hp2, hl2, hp1, hl1]; omega), wrote_wrote _ _ _ (by have := hr1.2.1; omega),
            wrote_wrote _ _ _ (by omega), initText_cons by' _ _ hne, List.append_assoc]
      · rw [if_neg (fun h => hm ((split_test s what t hlt hs).mp h)), wrap16_of_lt (n := t + 1) (by omega)]
        have ht' : t < s.length := by omega
        obtain ⟨w', from', h⟩ := ih (t + 1) f w (by omega) (by omega) (by omega)
        have he : scan what ((s.drop f).take (t - f)) (s.drop t) = scan what ((s.drop f).take (t + 1 - f)) (s.drop (t + 1)) := by
          rw [List.drop_eq_getElem_cons ht', scan_cons, cur_step s hft ht']
          rwa [← List.drop_eq_getElem_cons ht']
        rw [he]
        exact ⟨w', from', h⟩
    · rw [if_neg (fun h => hlt h.2), scan_short hw (by rw [List.length_drop]; omega), cur_end s hft]
      refine ⟨w, f, rfl, by omega, by simp, fun h => h, fun _ _ => ?_⟩
      simp [initText, wrote_nil]

end Solace.Str
