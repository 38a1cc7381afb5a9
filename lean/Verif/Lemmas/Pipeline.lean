import Verif.Spec.Pipeline
import Verif.Props.C09_C11_Base16
import Verif.Props.C12_C16_Base64
import Verif.Props.C12_Exact
/-
Lemmas for C137.
-/
namespace Solace.Pipeline
open ByteWriter

theorem fresh_ready (n : Nat) (h : n < 2 ^ 64) : (ofBuffer (List.replicate n (0#8 : Byte))).Ready :=
  ⟨Nat.zero_le _, Nat.le_refl _, by show (List.replicate n (0#8 : Byte)).length < _; rw [List.length_replicate]; exact h⟩

theorem fresh_written (n : Nat) (text : List Byte) (_ : text.length ≤ n) :
    ((ofBuffer (List.replicate n (0#8 : Byte))).wrote text).viewWritten = text := by
  simp only [viewWritten, wrote, ofBuffer, overwrite, slice_eq, List.drop_zero, List.take_zero, List.nil_append, Nat.zero_add,
    Nat.sub_zero]
  rw [List.take_append_of_le_length (Nat.le_refl _), List.take_length]

theorem textOf_length (c : Codec) (b : List Byte) (h : b.length < 2 ^ 62) : (textOf c b).length = sizeOf' c b.length := by
  cases c with
  | base16 => exact Base16.text_length b
  | base64 =>
    exact (Base64.C13_conforms_to_rfc4648 false b h (ofBuffer (List.replicate (4 * ((b.length + 2) / 3)) 0#8))
      (fresh_ready _ (by omega)) (by simp [ofBuffer])).2.1
  | base64url =>
    exact (Base64.C13_conforms_to_rfc4648 true b h (ofBuffer (List.replicate (4 * ((b.length + 2) / 3)) 0#8))
      (fresh_ready _ (by omega)) (by simp [ofBuffer])).2.1

theorem encodeOne_eq (c : Codec) (b : List Byte) (h : b.length < 2 ^ 62) : encodeOne c b = .ok (textOf c b) := by
  have key : ∀ url : Bool,
      Base64.encode (Base64.alphabetOf url) (ofBuffer (List.replicate (Base64.encodedSize b.length) 0#8)) b =
        ((ofBuffer (List.replicate (Base64.encodedSize b.length) 0#8)).wrote (Rfc4648.text url b), .ok ()) ∧
      (Rfc4648.text url b).length ≤ Base64.encodedSize b.length := by
    intro url
    have hs : Base64.encodedSize b.length = 4 * ((b.length + 2) / 3) :=
      (Base64.C13_conforms_to_rfc4648 url b h (ofBuffer (List.replicate (4 * ((b.length + 2) / 3)) 0#8))
        (fresh_ready _ (by omega)) (by simp [ofBuffer])).2.2
    obtain ⟨h1, h2, _⟩ := Base64.C13_conforms_to_rfc4648 url b h (ofBuffer (List.replicate (Base64.encodedSize b.length) 0#8))
      (fresh_ready _ (by omega)) (by simp [ofBuffer, hs])
    exact ⟨h1, by omega⟩
  cases c with
  | base16 =>
    have hs : Base16.encodedSize b.length = 2 * b.length := by rw [Base16.encodedSize, wrap64_of_lt (by omega)]
    rw [encodeOne]
    simp only [Codec.encode, Codec.encodedSize, hs]
    rw [Base16.C09_text b _ (fresh_ready _ (by omega)) (by simp [ofBuffer])]
    dsimp only
    rw [fresh_written _ _ (by rw [Base16.text_length]; exact Nat.le_refl _)]
    rfl
  | base64 =>
    obtain ⟨h1, h2⟩ := key false
    rw [encodeOne]
    simp only [Codec.encode, Codec.encodedSize]
    rw [show kBase64Alphabet = Base64.alphabetOf false from rfl, h1]
    dsimp only
    rw [fresh_written _ _ h2]
    rfl
  | base64url =>
    obtain ⟨h1, h2⟩ := key true
    rw [encodeOne]
    simp only [Codec.encode, Codec.encodedSize]
    rw [show kBase64UrlAlphabet = Base64.alphabetOf true from rfl, h1]
    dsimp only
    rw [fresh_written _ _ h2]
    rfl

/-- All stages fit: the sizes stay below 2^62. -/
theorem encodeAll_eq : ∀ (cs : List Codec) (b : List Byte), (∀ n ∈ sizes cs b.length, n < 2 ^ 62) →
    encodeAll cs b = .ok (textAll cs b)
  | [], b, _ => rfl
  | c :: cs, b, h => by
    have h0 : b.length < 2 ^ 62 := h _ (List.mem_cons_self ..)
    rw [encodeAll, encodeOne_eq c b h0]
    exact encodeAll_eq cs _ (fun n hn => h n (List.mem_cons_of_mem _ (by rw [textOf_length c b h0] at hn; exact hn)))

theorem decodeAll_append (tail : List Byte) (d : Codec) : ∀ (cs : List Codec) (t : List Byte),
    decodeAll tail (cs ++ [d]) t = (do
      match ← decodeAll tail cs t with
      | .ok b => decodeOne tail d b
      | .error e => pure (.error e))
  | [], t => by
    show (do
      match ← decodeOne tail d t with
      | .ok bytes => decodeAll tail [] bytes
      | .error e => pure (.error e)) = decodeOne tail d t
    cases decodeOne tail d t with
    | ok r => cases r <;> rfl
    | throws => rfl
    | terminate => rfl
    | ub => rfl
  | c :: cs, t => by
    rw [List.cons_append, decodeAll, decodeAll]
    cases decodeOne tail c t with
    | ok r =>
      cases r with
      | error e => rfl
      | ok b =>
        show decodeAll tail (cs ++ [d]) b = _
        rw [decodeAll_append tail d cs b]
        rfl
    | throws => rfl
    | terminate => rfl
    | ub => rfl

/-- Going there and back through one more stage at the beginning. -/
theorem thereAndBack_cons (tail : List Byte) (c : Codec) (cs : List Codec) (b : List Byte)
    (h : ∀ n ∈ sizes (c :: cs) b.length, n < 2 ^ 62) :
    thereAndBack tail (c :: cs) b = (do
      match ← thereAndBack tail cs (textOf c b) with
      | .ok t => decodeOne tail c t
      | .error e => pure (.error e)) := by
  have h0 : b.length < 2 ^ 62 := h _ (List.mem_cons_self ..)
  have h1 : ∀ n ∈ sizes cs (textOf c b).length, n < 2 ^ 62 := fun n hn =>
    h n (List.mem_cons_of_mem _ (by rw [textOf_length c b h0] at hn; exact hn))
  rw [thereAndBack, encodeAll_eq _ _ h, thereAndBack, encodeAll_eq _ _ h1]
  dsimp only
  rw [List.reverse_cons, decodeAll_append]
  rfl

theorem size_pos (c : Codec) (n : Nat) (h : 0 < n) : n ≤ sizeOf' c n := by
  cases c <;> simp only [sizeOf'] <;> omega

theorem decode_hex (tail b : List Byte) (h : b.length < 2 ^ 62) : decodeOne tail .base16 (textOf .base16 b) = .ok (.ok b) := by
  have hl : (Hex.text b).length = 2 * b.length := Base16.text_length b
  obtain ⟨t, e, hl', _, _, hd⟩ := Base16.C09_round_trip b (ofBuffer (List.replicate (2 * b.length) 0#8))
    (ofBuffer (List.replicate (Hex.text b).length 0#8)) (fresh_ready _ (by omega)) (fresh_ready _ (by omega))
    (by simp [ofBuffer]) (by simp [ofBuffer, hl]; omega)
  rw [Base16.C09_text b _ (fresh_ready _ (by omega)) (by simp [ofBuffer])] at e
  have ht : Hex.text b = t := by
    have := congrArg (fun r => r.1.viewWritten) e
    simp only at this
    rwa [fresh_written _ _ (by omega), fresh_written _ _ (by omega)] at this
  rw [← ht] at hd
  rw [decodeOne]
  simp only [Codec.decode, textOf]
  rw [hd, Outcome.bind_ok]
  dsimp only
  rw [fresh_written _ _ (by omega)]
  rfl

/-- The alphabet of a Base64 codec. -/
def isUrl : Codec → Bool
  | .base64url => true
  | _ => false

theorem decode_64 (tail : List Byte) (c : Codec) (hc : c ≠ .base16) (b : List Byte) (h : b.length < 2 ^ 62) :
    (b ≠ [] → (b.length % 3 = 0 → Base64.StopsSoon (isUrl c) tail) → decodeOne tail c (textOf c b) = .ok (.ok b)) ∧
    (b ≠ [] → b.length % 3 = 0 → tail = [] → decodeOne tail c (textOf c b) = .ub) ∧
    (b = [] → decodeOne tail c (textOf c b) = .ok (.error .nodata)) := by
  have hl := textOf_length c b h
  have hd : ∀ (w : ByteWriter), c.decode w (textOf c b) tail = Base64.decode (Base64.tableOf (isUrl c)) w (Rfc4648.text (isUrl c) b) tail := by
    cases c with
    | base16 => exact absurd rfl hc
    | base64 => intro w; rfl
    | base64url => intro w; rfl
  have hsz : (textOf c b).length = 4 * ((b.length + 2) / 3) := by
    cases c with
    | base16 => exact absurd rfl hc
    | base64 => exact hl
    | base64url => exact hl
  refine ⟨fun h0 h3 => ?_, fun h0 h3 ht => ?_, fun h0 => ?_⟩
  · have := (Base64.C12_round_trip_iff (isUrl c) b tail (ofBuffer (List.replicate (textOf c b).length 0#8))
      (fresh_ready _ (by omega)) (by simp [ofBuffer]; omega)).mpr ⟨h0, h3⟩
    rw [decodeOne, hd, this, Outcome.bind_ok]
    dsimp only
    rw [fresh_written _ _ (by omega)]
    rfl
  · rw [decodeOne, hd, ht, Base64.C12_unpadded_undefined (isUrl c) b h0 h3]
    rfl
  · subst h0
    rw [decodeOne, hd]
    have ht : Rfc4648.text (isUrl c) [] = [] := by
      cases isUrl c <;> decide +kernel
    rw [ht, (Base64.C12_empty_rejected (isUrl c) (ofBuffer []) _ tail).2, Outcome.bind_ok]
    rfl

theorem stops_at_zero (url : Bool) (r : List Byte) : Base64.StopsSoon url (0#8 :: r) := by
  refine ⟨[], 0#8, r, Nat.zero_le _, fun n h => (by cases h), ?_, rfl⟩
  rintro ⟨n, hn, e⟩
  have : ∀ u : Bool, ∀ n : Fin 64, (0#8 : Byte) ≠ Rfc4648.char u n.val := by decide
  exact this url ⟨n, hn⟩ e

end Solace.Pipeline
