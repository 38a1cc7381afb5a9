import Verif.Props.C96_DecodeAny
/-
C12, exactly: for which bytes, and which memory behind the text, decoding gives back what was encoded.
-/
namespace Solace.Base64
open ByteWriter

/-- The memory begins with at most one character of the alphabet, then there is a byte outside it. -/
def StopsSoon (url : Bool) (after : List Byte) : Prop :=
  ∃ (ns : List Nat) (stop : Byte) (rest : List Byte), ns.length ≤ 1 ∧ (∀ n ∈ ns, n < 64) ∧
    (¬ ∃ n < 64, stop = Rfc4648.char url n) ∧ after = ns.map (Rfc4648.char url) ++ stop :: rest

theorem octets_append (bs cs : List Bool) (h : bs.length % 8 = 0) (hc : cs.length < 8) :
    Rfc4648.octets (bs ++ cs) = Rfc4648.octets bs := by
  induction bs using Rfc4648.octets.induct with
  | case1 a b c d e f g h rest ih =>
    simp only [List.cons_append, Rfc4648.octets]
    rw [ih (by simp only [List.length_cons] at h; omega)]
  | case2 bs hb =>
    match bs with
    | [] =>
      have : (Rfc4648.octets cs).length = 0 := by rw [octets_length]; omega
      rw [List.nil_append, List.length_eq_zero_iff.mp this]; rfl
    | [_] | [_, _] | [_, _, _] | [_, _, _, _] | [_, _, _, _, _] | [_, _, _, _, _, _] | [_, _, _, _, _, _, _] => simp at h
    | a :: b :: c :: d :: e :: f :: g :: i :: rest => exact absurd rfl (hb a b c d e f g i rest)

/-- An unpadded text is made of alphabet characters only. -/
theorem unpadded_chars (url : Bool) (bytes : List Byte) (h : bytes.length % 3 = 0) :
    ∃ ms : List Nat, (∀ m ∈ ms, m < 64) ∧ (pieces url bytes).flatten = ms.map (Rfc4648.char url) := by
  rcases (C96_base64_rest url ⟨[], 0, 0⟩ ((pieces url bytes).flatten) []).2.2 with hall | ⟨ns, stop, rest, _, h2, h3⟩
  · rw [List.append_nil] at hall
    generalize (pieces url bytes).flatten = t at hall
    induction t with
    | nil => exact ⟨[], by simp, rfl⟩
    | cons c t ih =>
      obtain ⟨n, hn, rfl⟩ := hall c (by simp)
      obtain ⟨ms, h1, h2⟩ := ih (fun d hd => hall d (by simp [hd]))
      exact ⟨n :: ms, by simpa using ⟨hn, h1⟩, by rw [h2]; rfl⟩
  · have := countDecodable_unpadded url bytes [] h
    rw [List.append_nil] at h3 this
    rw [h3, countDecodable_any url ns (by assumption) stop rest h2] at this
    simp [countDecodable] at this

theorem decode_terminated (url : Bool) (bytes after : List Byte) (hne : bytes ≠ [])
    (hafter : bytes.length % 3 = 0 → ∃ c rest, after = c :: rest ∧ ¬ look (tableOf url) c ≤ 63)
    (dest : ByteWriter) (h : dest.Ready) (hr : dest.position + bytes.length ≤ dest.limit) :
    decode (tableOf url) dest (pieces url bytes).flatten after = .ok (dest.wrote bytes, .ok ()) := by
  have hc : countDecodable (tableOf url) ((pieces url bytes).flatten ++ after) = some (cnt bytes) := by
    by_cases h3 : bytes.length % 3 = 0
    · obtain ⟨c, rest, rfl, hc⟩ := hafter h3
      rw [countDecodable_unpadded url bytes _ h3, countDecodable, if_neg hc]
      simp
    · exact countDecodable_padded url bytes after h3
  rw [decode, if_neg (pieces_ne_nil url bytes hne), hc]
  simp only
  rw [decodeLoop_pieces, writeChunks_fits _ _ h (by rw [decPieces_flatten]; exact hr), decPieces_flatten]

/-- **C12, exactly** (full): with room for the bytes, decoding the text of some bytes succeeds and writes those bytes exactly
when there is at least one byte and, if the text has no padding, the memory behind the text begins with at most one alphabet
character before a byte outside the alphabet. -/
theorem C12_round_trip_iff (url : Bool) (bytes after : List Byte) (dest : ByteWriter) (h : dest.Ready)
    (hr : dest.position + bytes.length ≤ dest.limit) :
    decode (tableOf url) dest (Rfc4648.text url bytes) after = .ok (dest.wrote bytes, .ok ()) ↔
      bytes ≠ [] ∧ (bytes.length % 3 = 0 → StopsSoon url after) := by
  by_cases hne : bytes = []
  · subst hne
    have : Rfc4648.text url [] = [] := by rw [← pieces_text]; rfl
    rw [this]
    simp [decode]
  simp only [ne_eq, hne, not_false_eq_true, true_and]
  have hrem := remaining_of_ready dest h
  by_cases h3 : bytes.length % 3 = 0
  · simp only [h3, forall_const]
    obtain ⟨ms, hms, htext⟩ := unpadded_chars url bytes h3
    have hlen : 3 * ms.length = 4 * bytes.length := by
      have := pieces_length url bytes
      rw [htext, List.length_map] at this
      omega
    have hbits : (ms.flatMap Rfc4648.six).length % 8 = 0 := by rw [bits_length]; omega
    have hmne : ms.map (Rfc4648.char url) ≠ [] := htext ▸ pieces_ne_nil url bytes hne
    rw [← pieces_text, htext]
    rcases (C96_base64_rest url dest [] after).2.2 with hall | ⟨ns, stop, rest, hns, hstop, hsplit⟩
    · rw [List.nil_append] at hall
      have hub : decode (tableOf url) dest (ms.map (Rfc4648.char url)) after = .ub := by
        refine (C96_base64_rest url dest _ after).1 hmne ?_
        intro c hc
        rcases List.mem_append.mp hc with hc | hc
        · obtain ⟨m, hm, rfl⟩ := List.mem_map.mp hc
          exact ⟨m, hms m hm, rfl⟩
        · exact hall c hc
      rw [hub]
      refine ⟨fun hc => (by cases hc), fun ⟨ns, stop, rest, _, _, hs, ha⟩ => ?_⟩
      exact absurd (hall stop (by rw [ha]; simp)) hs
    · rw [List.nil_append] at hsplit
      have hany := C96_base64_any url (ms ++ ns)
        (fun n hn => (List.mem_append.mp hn).elim (hms n) (hns n)) stop hstop (ms.map (Rfc4648.char url)) after rest hmne
        (by rw [hsplit, List.map_append, List.append_assoc]) dest h
      rw [List.length_append] at hany
      by_cases hk : ns.length ≤ 1
      · have h1 := (hany.1 (by omega)).2
        have h2 := ((C96_base64_any url ms hms stop hstop (ms.map (Rfc4648.char url)) (stop :: rest) rest hmne rfl dest h).1
          (by omega)).2
        rw [List.flatMap_append, octets_append _ _ hbits (by rw [bits_length]; omega)] at h1
        have h3' := decode_terminated url bytes (stop :: rest) hne
          (fun _ => ⟨stop, rest, rfl, mt (look_alphabet url stop).mp hstop⟩) dest h hr
        rw [htext] at h3'
        rw [h1, ← h2, h3']
        exact ⟨fun _ => ⟨ns, stop, rest, hk, hns, hstop, hsplit⟩, fun _ => rfl⟩
      · constructor
        · intro hd
          by_cases hfit : 6 * (ms.length + ns.length) / 8 ≤ dest.remaining
          · obtain ⟨hl, hd'⟩ := hany.1 hfit
            rw [hd'] at hd
            have hp := congrArg (fun o => match o with | Outcome.ok (w, _) => w.position | _ => 0) hd
            simp only [wrote] at hp
            omega
          · obtain ⟨call, hc, hf⟩ := hany.2 (by omega)
            rw [hc] at hd
            have hf1 := hf.1
            cases hd
            cases hf1
        · rintro ⟨ns', stop', rest', hk', _, hstop', hsplit'⟩
          exfalso
          apply hstop'
          have h1 : after[ns'.length]? = some stop' := by rw [hsplit']; simp
          have hlt : ns'.length < ns.length := by omega
          rw [hsplit, List.getElem?_append_left (by simpa using hlt), List.getElem?_map,
            List.getElem?_eq_getElem hlt] at h1
          simp only [Option.map_some, Option.some.injEq] at h1
          exact ⟨_, hns _ (List.getElem_mem hlt), h1.symm⟩
  · rw [← pieces_text, decode_terminated url bytes after hne (fun h => absurd h h3) dest h hr]
    simp [h3]

example : StopsSoon false [84, 0] ∧ StopsSoon false [0] := by
  refine ⟨⟨[19], 0, [], by simp, by simp, ?_, by decide⟩, ⟨[], 0, [], by simp, by simp, ?_, rfl⟩⟩ <;> decide +kernel
/-- `"TWFu"`, followed in memory by one more letter: still three bytes; by two: four. -/
example : decode pr2six (ofBuffer [0, 0, 0, 0]) [84, 87, 70, 117] [84, 0] = .ok (⟨[0x4D, 0x61, 0x6E, 0], 3, 4⟩, .ok ()) ∧
    decode pr2six (ofBuffer [0, 0, 0, 0]) [84, 87, 70, 117] [84, 87, 0] = .ok (⟨[0x4D, 0x61, 0x6E, 0x4D], 4, 4⟩, .ok ()) := by
  decide +kernel

end Solace.Base64
