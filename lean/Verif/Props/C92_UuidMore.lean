import Verif.Model.UuidMore
import Verif.Props.C37_C39_Uuid
/-
C92: a random UUID consists of random bytes and is unique; UUIDs are values.
-/
namespace Solace.Uuid

/-! ### Random UUIDs -/

/-- The bytes of the next `n` values of the engine, one after the other. -/
def stream {σ : Type} (draw : σ → σ × List Byte) : σ → Nat → List Byte
  | _, 0 => []
  | s, n + 1 => (draw s).2 ++ stream draw (draw s).1 n

theorem stream_length {σ : Type} (draw : σ → σ × List Byte) (step : Nat) (hd : ∀ s, (draw s).2.length = step) (s : σ) (n : Nat) :
    (stream draw s n).length = n * step := by
  induction n generalizing s with
  | zero => simp [stream]
  | succ n ih => rw [stream, List.length_append, hd, ih, Nat.succ_mul]; omega

theorem copyTo_ok (bytes source : List Byte) (i : Nat) (h : i + source.length ≤ bytes.length) :
    copyTo bytes i source = some (bytes.take i ++ source ++ bytes.drop (i + source.length)) := by
  rw [copyTo, if_pos h]

theorem fill_from {σ : Type} (draw : σ → σ × List Byte) (step : Nat) (hs : 0 < step) (hd : ∀ s, (draw s).2.length = step)
    (n fuel i : Nat) (s : σ) (bytes : List Byte) (hb : bytes.length = 16) (hi : i ≤ 16) (hf : 16 - i < fuel)
    (hn : 16 - i ≤ n * step) :
    (fillLoop draw step fuel i s bytes).map (fun o => o.bind (fillRest draw)) =
      some (.ok (bytes.take i ++ (stream draw s n).take (16 - i))) := by
  induction fuel generalizing i s bytes n with
  | zero => omega
  | succ fuel ih =>
    rw [fillLoop]
    by_cases h : i + step ≤ staticSize
    · have h16 : i + step ≤ 16 := h
      rw [if_pos h]
      have hl : ((draw s).2.take step).length = step := by rw [List.length_take, hd]; omega
      rw [copyTo_ok _ _ _ (by omega)]
      simp only
      cases n with
      | zero => omega
      | succ n =>
        rw [Nat.succ_mul] at hn
        rw [ih n (i + step) _ _ (by simp [hd]; omega) h16 (by omega) (by omega)]
        have e1 : (draw s).2.take step = (draw s).2 := List.take_of_length_le (by rw [hd]; omega)
        rw [e1, hd, stream]
        have e2 : (bytes.take i ++ (draw s).2 ++ bytes.drop (i + step)).take (i + step) = bytes.take i ++ (draw s).2 := by
          rw [List.take_append_of_le_length (by simp [hd]; omega)]
          exact List.take_of_length_le (by simp [hd]; omega)
        have e3 : ((draw s).2 ++ stream draw (draw s).1 n).take (16 - i) =
            (draw s).2 ++ (stream draw (draw s).1 n).take (16 - (i + step)) := by
          rw [List.take_append, hd, List.take_of_length_le (by rw [hd]; omega)]
          congr 2
          omega
        rw [e2, e3, List.append_assoc]
    · have h16 : ¬ i + step ≤ 16 := h
      rw [if_neg h, Option.map_some]
      show some (fillRest draw (i, s, bytes)) = _
      rw [fillRest]
      by_cases h2 : i < staticSize
      · have h3 : i < 16 := h2
        rw [if_pos h2]
        have hl : ((draw s).2.take (staticSize - i)).length = 16 - i := by
          rw [List.length_take, hd, show staticSize = 16 from rfl]; omega
        rw [copyTo_ok _ _ _ (by omega)]
        simp only
        cases n with
        | zero => omega
        | succ n =>
          rw [hl, List.drop_eq_nil_of_le (by omega), List.append_nil, stream,
            List.take_append_of_le_length (by rw [hd]; omega)]
          rfl
      · have h3 : ¬ i < 16 := h2
        rw [if_neg h2, show 16 - i = 0 by omega, List.take_zero, List.append_nil, List.take_of_length_le (by omega)]

/-- **C92**: whatever the engine and the size of its values, the UUID consists of the first 16 bytes of its values in order: no
byte is left over from the stack, none is skipped or used twice. -/
theorem C92_random_bytes {σ : Type} (draw : σ → σ × List Byte) (step : Nat) (hs : 0 < step)
    (hd : ∀ s, (draw s).2.length = step) (fuel : Nat) (hf : 16 < fuel) (s : σ) (stack : List Byte) (hb : stack.length = 16)
    (n : Nat) (hn : 16 ≤ n * step) : fill draw step fuel s stack = some (.ok ((stream draw s n).take 16)) := by
  rw [fill, fill_from draw step hs hd n fuel 0 s stack hb (by omega) (by omega) (by omega)]
  rfl

theorem leBytes_length (w n : Nat) : (leBytes w n).length = w := by
  induction w generalizing n with
  | zero => rfl
  | succ w ih => rw [leBytes, List.length_cons, ih]

theorem wordBytes_length (big : Bool) (w n : Nat) : (wordBytes big w n).length = w := by
  rw [wordBytes]
  split
  · rw [List.length_reverse, leBytes_length]
  · exact leBytes_length w n

/-- **C92** (libstdc++ on 64-bit Linux): the UUID is two values of the generator, 8 bytes each. -/
theorem C92_random_words (big : Bool) (a fuel seed : Nat) (hf : 16 < fuel) (stack : List Byte) (hb : stack.length = 16) :
    makeRandom big a 8 fuel (some seed) stack =
      some (.ok (wordBytes big 8 (lcgNext a (lcgSeed seed)) ++ wordBytes big 8 (lcgNext a (lcgNext a (lcgSeed seed))))) := by
  rw [makeRandom, C92_random_bytes _ 8 (by omega) (fun s => wordBytes_length big 8 _) fuel hf _ stack hb 2 (by omega)]
  rw [stream, stream, stream, List.append_nil, List.take_of_length_le]
  rw [List.length_append, wordBytes_length, wordBytes_length]
  exact Nat.le_refl _

theorem lcgNext_lt (a x : Nat) : lcgNext a x < 2 ^ 31 := by
  rw [lcgNext]
  have : a * x % modulus < modulus := Nat.mod_lt _ (by decide)
  have : modulus < 2 ^ 31 := by decide
  omega

theorem lcgSeed_range (seed : Nat) : 0 < lcgSeed seed ∧ lcgSeed seed < modulus := by
  rw [lcgSeed]
  have h : seed % modulus < modulus := Nat.mod_lt _ (by decide)
  have : 1 < modulus := by decide
  split <;> omega

theorem leBytes_zero (w : Nat) : leBytes w 0 = List.replicate w 0#8 := by
  induction w with
  | zero => rfl
  | succ w ih => rw [leBytes, Nat.zero_div, ih, List.replicate_succ]

theorem leBytes_small (n : Nat) (h : n < 2 ^ 32) : leBytes 8 n = leBytes 4 n ++ [0#8, 0#8, 0#8, 0#8] := by
  have e : n / 256 / 256 / 256 / 256 = 0 := by omega
  simp only [leBytes, e, Nat.zero_div, List.cons_append, List.nil_append]

/-- **C92, negation** (libstdc++ on 64-bit Linux, little endian): eight of the sixteen bytes are always zero. -/
theorem C92_random_zero_bytes (a fuel seed : Nat) (hf : 16 < fuel) (stack : List Byte) (hb : stack.length = 16) :
    ∃ x y, x.length = 4 ∧ y.length = 4 ∧ makeRandom false a 8 fuel (some seed) stack =
      some (.ok (x ++ [0#8, 0#8, 0#8, 0#8] ++ (y ++ [0#8, 0#8, 0#8, 0#8]))) := by
  refine ⟨leBytes 4 (lcgNext a (lcgSeed seed)), leBytes 4 (lcgNext a (lcgNext a (lcgSeed seed))), leBytes_length _ _,
    leBytes_length _ _, ?_⟩
  rw [C92_random_words false a fuel seed hf stack hb]
  have h1 := lcgNext_lt a (lcgSeed seed)
  have h2 := lcgNext_lt a (lcgNext a (lcgSeed seed))
  simp only [wordBytes, Bool.false_eq_true, if_false]
  rw [leBytes_small _ (by omega), leBytes_small _ (by omega)]

/-- A UUID of RFC 4122 that says of itself that it is random: version 4, variant 1. -/
def IsVersion4 (u : List Byte) : Prop :=
  ∃ b6 b8, u[6]? = some b6 ∧ u[8]? = some b8 ∧ b6.toNat / 16 = 4 ∧ b8.toNat / 64 = 2

/-- **C92, negation**: no UUID made is a random UUID of RFC 4122. -/
theorem C92_random_not_version4 (a fuel seed : Nat) (hf : 16 < fuel) (stack : List Byte) (hb : stack.length = 16) :
    ∃ u, makeRandom false a 8 fuel (some seed) stack = some (.ok u) ∧ ¬IsVersion4 u := by
  obtain ⟨x, y, hx, hy, h⟩ := C92_random_zero_bytes a fuel seed hf stack hb
  refine ⟨_, h, ?_⟩
  rintro ⟨b6, b8, h6, _, h4, _⟩
  rw [List.getElem?_append_left (by simp [hx]), List.getElem?_append_right (by omega), hx] at h6
  have : b6 = 0#8 := (Option.some.inj h6).symm
  subst this
  exact absurd h4 (by decide)

/-- **C92, negation**: whatever the multiplier, the size of the values and the byte order, there are at most 2147483646 different
random UUIDs (of 2^122 in RFC 4122). -/
theorem C92_random_count (big : Bool) (a w fuel : Nat) (hw : 0 < w) (hf : 16 < fuel) :
    ∃ f : Fin 2147483646 → List Byte, ∀ seed stack, stack.length = 16 →
      ∃ i, makeRandom big a w fuel (some seed) stack = some (.ok (f i)) := by
  refine ⟨fun i => (stream (fun x => (lcgNext a x, wordBytes big w (lcgNext a x))) (i.1 + 1) 16).take 16,
    fun seed stack hb => ?_⟩
  obtain ⟨h1, h2⟩ := lcgSeed_range seed
  have hm : modulus = 2147483647 := rfl
  refine ⟨⟨lcgSeed seed - 1, by omega⟩, ?_⟩
  rw [makeRandom, C92_random_bytes _ w hw (fun s => wordBytes_length big w _) fuel hf _ stack hb 16
    (Nat.le_mul_of_pos_right 16 hw)]
  simp only
  rw [Nat.sub_add_cancel h1]

/-- **C92, negation**: for every value of the random device there is another 32-bit one that gives the same UUID. -/
theorem C92_random_collision (big : Bool) (a w fuel seed : Nat) (hs : seed < 2 ^ 32) (stack : List Byte) :
    ∃ seed', seed' < 2 ^ 32 ∧ seed' ≠ seed ∧
      makeRandom big a w fuel (some seed') stack = makeRandom big a w fuel (some seed) stack := by
  have hm : modulus = 2147483647 := rfl
  have key : ∀ s s', lcgSeed s' = lcgSeed s →
      makeRandom big a w fuel (some s') stack = makeRandom big a w fuel (some s) stack := by
    intro s s' h
    rw [makeRandom, makeRandom, h]
  by_cases h : seed < 2147483647
  · refine ⟨seed + 2147483647, by omega, by omega, key _ _ ?_⟩
    rw [lcgSeed, lcgSeed, hm, Nat.add_mod_right]
  · refine ⟨seed - 2147483647, by omega, by omega, key _ _ ?_⟩
    rw [lcgSeed, lcgSeed, hm, Nat.mod_eq_sub_mod (a := seed) (by omega)]

theorem leBytes_injective (w m n : Nat) (hm : m < 256 ^ w) (hn : n < 256 ^ w) (h : leBytes w m = leBytes w n) : m = n := by
  induction w generalizing m n with
  | zero => simp at hm hn; omega
  | succ w ih =>
    rw [leBytes, leBytes, List.cons.injEq] at h
    have h1 := congrArg BitVec.toNat h.1
    rw [BitVec.toNat_ofNat, BitVec.toNat_ofNat] at h1
    rw [Nat.pow_succ] at hm hn
    have := ih (m / 256) (n / 256) (by omega) (by omega) h.2
    omega

theorem lcg_inverse (x : Nat) (h : x < modulus) : 1407677000 * lcgNext 16807 x % modulus = x := by
  rw [lcgNext, Nat.mul_mod, Nat.mod_mod, ← Nat.mul_mod, ← Nat.mul_assoc, Nat.mul_mod]
  rw [show 1407677000 * 16807 % modulus = 1 by decide +kernel, Nat.one_mul, Nat.mod_mod, Nat.mod_eq_of_lt h]

/-- **C92, exactly** (libstdc++ on 64-bit Linux): two values of the random device give the same UUID exactly if they give the same
state of the generator, that is (0 and 1 aside) if they are equal modulo 2147483647. -/
theorem C92_random_equal (big : Bool) (fuel s s' : Nat) (hf : 16 < fuel) (stack : List Byte) (hb : stack.length = 16) :
    makeRandom big 16807 8 fuel (some s) stack = makeRandom big 16807 8 fuel (some s') stack ↔
      s % 2147483647 = s' % 2147483647 ∨ (s % 2147483647 ≤ 1 ∧ s' % 2147483647 ≤ 1) := by
  have hm : modulus = 2147483647 := rfl
  have hseed : lcgSeed s = lcgSeed s' ↔
      s % 2147483647 = s' % 2147483647 ∨ (s % 2147483647 ≤ 1 ∧ s' % 2147483647 ≤ 1) := by
    rw [lcgSeed, lcgSeed, hm]
    split <;> split <;> omega
  rw [← hseed]
  constructor
  · intro h
    rw [C92_random_words big 16807 fuel s hf stack hb, C92_random_words big 16807 fuel s' hf stack hb] at h
    have h := (List.append_inj (Outcome.ok.inj (Option.some.inj h))
      (by rw [wordBytes_length, wordBytes_length])).1
    have h' : leBytes 8 (lcgNext 16807 (lcgSeed s)) = leBytes 8 (lcgNext 16807 (lcgSeed s')) := by
      rw [wordBytes, wordBytes] at h
      split at h
      · exact List.reverse_inj.1 h
      · exact h
    have h1 := lcgNext_lt 16807 (lcgSeed s)
    have h2 := lcgNext_lt 16807 (lcgSeed s')
    have e := leBytes_injective 8 _ _ (by omega) (by omega) h'
    rw [← lcg_inverse _ (lcgSeed_range s).2, e, lcg_inverse _ (lcgSeed_range s').2]
  · intro h
    rw [makeRandom, makeRandom, h]

/-- **C92** (libstdc++ on 64-bit Linux): a random UUID is never the nil UUID. -/
theorem C92_random_not_nil (big : Bool) (fuel seed : Nat) (hf : 16 < fuel) (stack : List Byte) (hb : stack.length = 16) :
    ∃ u, makeRandom big 16807 8 fuel (some seed) stack = some (.ok u) ∧ u.length = 16 ∧ u ≠ List.replicate 16 0#8 := by
  refine ⟨_, C92_random_words big 16807 fuel seed hf stack hb, by simp [wordBytes_length], fun h => ?_⟩
  have h := congrArg (List.take 8) h
  rw [List.take_append_of_le_length (by rw [wordBytes_length]; omega),
    List.take_of_length_le (by rw [wordBytes_length]; omega)] at h
  have h0 : leBytes 8 (lcgNext 16807 (lcgSeed seed)) = leBytes 8 0 := by
    rw [leBytes_zero]
    rw [wordBytes] at h
    split at h
    · have := congrArg List.reverse h
      rw [List.reverse_reverse] at this
      rw [this]; rfl
    · rw [h]; rfl
  have h1 := lcgNext_lt 16807 (lcgSeed seed)
  have e := leBytes_injective 8 _ _ (by omega) (by omega) h0
  have := lcg_inverse _ (lcgSeed_range seed).2
  rw [e, Nat.mul_zero, Nat.zero_mod] at this
  have := (lcgSeed_range seed).1
  omega

/-- **C92**: a failing random device ends the program. -/
theorem C92_random_device (big : Bool) (a w fuel : Nat) (stack : List Byte) :
    makeRandom big a w fuel none stack = some .terminate := rfl

example : makeRandom false 16807 8 17 (some 0) (List.replicate 16 0xAA#8) =
    some (.ok [0xA7#8, 0x41#8, 0#8, 0#8, 0#8, 0#8, 0#8, 0#8, 0xF1#8, 0x3A#8, 0xD6#8, 0x10#8, 0#8, 0#8, 0#8, 0#8]) := by
  decide +kernel
example : IsVersion4 [1#8, 2#8, 3#8, 4#8, 5#8, 6#8, 0x47#8, 8#8, 0x89#8] := ⟨0x47#8, 0x89#8, rfl, rfl, rfl, rfl⟩
example : (fill (fun s : Nat => (s + 1, [BitVec.ofNat 8 s, 9#8, 9#8, 9#8, 9#8])) 5 17 1 (List.replicate 16 0#8)) =
    some (.ok [1#8, 9#8, 9#8, 9#8, 9#8, 2#8, 9#8, 9#8, 9#8, 9#8, 3#8, 9#8, 9#8, 9#8, 9#8, 4#8]) := by decide +kernel

/-! ### Values -/

/-- Every variable has its 16 bytes. -/
def Shape (s : Vars) : Prop := ∀ (v : Nat) (u : List Byte), s[v]? = some u → u.length = 16

theorem put_getElem? (s : Vars) (v k : Nat) (b : Byte) (v' : Nat) :
    (put s v k b)[v']? = if v = v' then (s[v']?).map (·.set k b) else s[v']? := by
  rw [put, List.getElem?_modify]
  split <;> simp_all

theorem put_shape (s : Vars) (v k : Nat) (b : Byte) (h : Shape s) : Shape (put s v k b) := by
  intro v' u hu
  rw [put_getElem?] at hu
  split at hu
  · rw [Option.map_eq_some_iff] at hu
    obtain ⟨w, hw, rfl⟩ := hu
    rw [List.length_set]
    exact h v' w hw
  · exact h v' u hu

theorem put_length (s : Vars) (v k : Nat) (b : Byte) : (put s v k b).length = s.length := by
  rw [put, List.length_modify]

theorem cell_some (s : Vars) (h : Shape s) (v k : Nat) (hv : v < s.length) (hk : k < 16) : ∃ x, cell s v k = some x := by
  have hl : s[v].length = 16 := h v s[v] (List.getElem?_eq_getElem hv)
  refine ⟨s[v][k]'(by omega), ?_⟩
  rw [cell, List.getElem?_eq_getElem hv, Option.bind_some, List.getElem?_eq_getElem]

theorem cell_put (s : Vars) (h : Shape s) (v k : Nat) (b : Byte) (hv : v < s.length) (hk : k < 16) (v' k' : Nat) :
    cell (put s v k b) v' k' = if v' = v ∧ k' = k then some b else cell s v' k' := by
  rw [cell, put_getElem?]
  by_cases e : v = v'
  · subst e
    have hl : s[v].length = 16 := h v s[v] (List.getElem?_eq_getElem hv)
    rw [if_pos rfl, cell, List.getElem?_eq_getElem hv, Option.map_some, Option.bind_some, Option.bind_some,
      List.getElem?_set]
    by_cases ek : k = k'
    · subst ek
      rw [if_pos rfl, if_pos (by omega), if_pos ⟨rfl, rfl⟩]
    · rw [if_neg ek, if_neg (fun h => ek h.2.symm)]
  · rw [if_neg e, if_neg (fun h => e h.1.symm), cell]

theorem swapLoop_spec (n k : Nat) (s : Vars) (v v' : Nat) (h : Shape s) (hv : v < s.length) (hv' : v' < s.length)
    (hn : k + n = 16) :
    ∃ t, swapLoop n k s v v' = some t ∧ Shape t ∧ t.length = s.length ∧ ∀ i j, cell t i j =
      if k ≤ j ∧ j < 16 then (if i = v then cell s v' j else if i = v' then cell s v j else cell s i j) else cell s i j := by
  induction n generalizing k s with
  | zero =>
    refine ⟨s, rfl, h, rfl, fun i j => ?_⟩
    rw [if_neg (by omega)]
  | succ n ih =>
    obtain ⟨x, hx⟩ := cell_some s h v k hv (by omega)
    obtain ⟨y, hy⟩ := cell_some s h v' k hv' (by omega)
    have hs1 := put_shape s v k y h
    have hl1 : v' < (put s v k y).length := by rw [put_length]; exact hv'
    obtain ⟨t, ht, hsh, hlen, hc⟩ := ih (k + 1) (put (put s v k y) v' k x) (put_shape _ v' k x hs1)
      (by rw [put_length, put_length]; exact hv) (by rw [put_length, put_length]; exact hv') (by omega)
    refine ⟨t, ?_, hsh, by rw [hlen, put_length, put_length], fun i j => ?_⟩
    · rw [swapLoop, hx, hy]
      exact ht
    · rw [hc i j]
      simp only [cell_put _ hs1 v' k x hl1 (by omega), cell_put s h v k y hv (by omega)]
      by_cases hj : j = k
      · subst hj
        rw [if_neg (show ¬(j + 1 ≤ j ∧ j < 16) by omega), if_pos (show j ≤ j ∧ j < 16 by omega)]
        by_cases e1 : i = v'
        · subst e1
          rw [if_pos ⟨rfl, rfl⟩]
          by_cases e2 : i = v
          · subst e2; rw [if_pos rfl, hx]
          · rw [if_neg e2, if_pos rfl, hx]
        · rw [if_neg (fun h => e1 h.1)]
          by_cases e2 : i = v
          · subst e2; rw [if_pos ⟨rfl, rfl⟩, if_pos rfl, hy]
          · rw [if_neg (fun h => e2 h.1), if_neg e2, if_neg e1]
      · simp only [hj, and_false, if_false]
        have : (k + 1 ≤ j ∧ j < 16) ↔ (k ≤ j ∧ j < 16) := by omega
        simp only [this]

theorem ext_cells (a b : List Byte) (ha : a.length = 16) (hb : b.length = 16) (h : ∀ j : Nat, j < 16 → a[j]? = b[j]?) : a = b := by
  apply List.ext_getElem?
  intro j
  by_cases hj : j < 16
  · exact h j hj
  · rw [List.getElem?_eq_none (by omega), List.getElem?_eq_none (by omega)]

/-- **C92**: swapping exchanges the two variables and leaves all others alone; swapping a variable with itself changes
nothing. -/
theorem C92_swap (s : Vars) (h : Shape s) (v v' : Nat) (hv : v < s.length) (hv' : v' < s.length) :
    ∃ t, swap s v v' = some t ∧ Shape t ∧ t.length = s.length ∧ t[v]? = s[v']? ∧ t[v']? = s[v]? ∧
      ∀ i : Nat, i ≠ v → i ≠ v' → t[i]? = s[i]? := by
  obtain ⟨t, ht, hsh, hlen, hc⟩ := swapLoop_spec 16 0 s v v' h hv hv' rfl
  have row : ∀ i i' : Nat, i < s.length → i' < s.length → (∀ j : Nat, j < 16 → cell t i j = cell s i' j) → t[i]? = s[i']? := by
    intro i i' hi hi' hj
    have hi2 : i < t.length := by omega
    rw [List.getElem?_eq_getElem hi2, List.getElem?_eq_getElem hi']
    congr 1
    refine ext_cells _ _ (hsh _ _ (List.getElem?_eq_getElem hi2)) (h _ _ (List.getElem?_eq_getElem hi')) fun j hj' => ?_
    have := hj j hj'
    rwa [cell, cell, List.getElem?_eq_getElem hi2, List.getElem?_eq_getElem hi', Option.bind_some, Option.bind_some] at this
  refine ⟨t, ht, hsh, hlen, row v v' hv hv' fun j hj => ?_, row v' v hv' hv fun j hj => ?_, fun i h1 h2 => ?_⟩
  · rw [hc, if_pos ⟨Nat.zero_le _, hj⟩, if_pos rfl]
  · rw [hc, if_pos ⟨Nat.zero_le _, hj⟩]
    by_cases e : v' = v
    · rw [if_pos e, e]
    · rw [if_neg e, if_pos rfl]
  · by_cases hi : i < s.length
    · refine row i i hi hi fun j hj => ?_
      rw [hc, if_pos ⟨Nat.zero_le _, hj⟩, if_neg h1, if_neg h2]
    · rw [List.getElem?_eq_none (by omega), List.getElem?_eq_none (by omega)]

/-- **C92**: assigning by moving exchanges the values: the source keeps a UUID, the old one of the target. -/
theorem C92_moveAssign (s : Vars) (h : Shape s) (v v' : Nat) (hv : v < s.length) (hv' : v' < s.length) :
    ∃ t, moveAssign s v v' = some t ∧ t[v]? = s[v']? ∧ t[v']? = s[v]? ∧ ∀ i : Nat, i ≠ v → i ≠ v' → t[i]? = s[i]? := by
  obtain ⟨t, h1, _, _, h2, h3, h4⟩ := C92_swap s h v v' hv hv'
  exact ⟨t, h1, h2, h3, h4⟩

/-- **C92**: assigning by copying sets the target and nothing else; assigning to itself changes nothing. -/
theorem C92_copyAssign (s : Vars) (h : Shape s) (v v' : Nat) (hv : v < s.length) (hv' : v' < s.length) :
    ∃ t, copyAssign s v v' = some t ∧ t.length = s.length ∧ t[v]? = s[v']? ∧ ∀ i : Nat, i ≠ v → t[i]? = s[i]? := by
  have hg : s[v']? = some s[v'] := List.getElem?_eq_getElem hv'
  have hl : s[v'].length = 16 := h _ _ hg
  have hc : construct s v' = some (s ++ [s[v']]) := by
    rw [construct, hg, Option.map_some, List.take_of_length_le (by rw [hl]; exact Nat.le_refl _)]
  have hsh : Shape (s ++ [s[v']]) := by
    intro i u hu
    by_cases hi : i < s.length
    · rw [List.getElem?_append_left hi] at hu
      exact h i u hu
    · rw [List.getElem?_append_right (by omega), List.getElem?_singleton] at hu
      split at hu
      · rw [← Option.some.inj hu]; exact hl
      · cases hu
  obtain ⟨t, ht, _, hlen, _, h2, h3⟩ := C92_swap (s ++ [s[v']]) hsh s.length v (by simp) (by simp; omega)
  rw [List.length_append, List.length_singleton] at hlen
  have hd : ∀ i : Nat, i < s.length → t.dropLast[i]? = t[i]? := by
    intro i hi
    rw [List.getElem?_dropLast, if_pos (by omega)]
  refine ⟨t.dropLast, ?_, by rw [List.length_dropLast, hlen]; rfl, ?_, fun i hi => ?_⟩
  · rw [copyAssign, hc]
    simp only
    rw [ht, Option.map_some]
  · rw [hd v hv, h2, List.getElem?_append_right (Nat.le_refl _), Nat.sub_self, hg]
    rfl
  · by_cases hi' : i < s.length
    · rw [hd i hi', h3 i (by omega) hi, List.getElem?_append_left hi']
    · rw [List.getElem?_eq_none (by rw [List.length_dropLast]; omega), List.getElem?_eq_none (by omega)]

/-- **C92**: a copy has the bytes of the original, which stays as it is. -/
theorem C92_construct (s : Vars) (h : Shape s) (v : Nat) (hv : v < s.length) :
    ∃ t, construct s v = some t ∧ t[s.length]? = s[v]? ∧ ∀ i : Nat, i < s.length → t[i]? = s[i]? := by
  have hg : s[v]? = some s[v] := List.getElem?_eq_getElem hv
  have hl : s[v].length = 16 := h _ _ hg
  refine ⟨s ++ [s[v]], ?_, ?_, fun i hi => List.getElem?_append_left hi⟩
  · rw [construct, hg, Option.map_some, List.take_of_length_le (by rw [hl]; exact Nat.le_refl _)]
  · rw [List.getElem?_append_right (Nat.le_refl _), Nat.sub_self, hg]; rfl

theorem iterate_spec (u : List Byte) (n i : Nat) (h : i + n = u.length) : iterate u n i = .ok (u.drop i) := by
  induction n generalizing i with
  | zero => rw [iterate, List.drop_eq_nil_of_le (by omega)]
  | succ n ih =>
    have hi : i < u.length := by omega
    rw [iterate, List.getElem?_eq_getElem hi]
    simp only
    rw [ih (i + 1) (by omega), List.drop_eq_getElem_cons hi]

/-- **C92**: the bytes by index, by iteration and at the ends; an index of 16 or more throws. -/
theorem C92_bytes (u : List Byte) (hu : u.length = 16) :
    (∀ i (h : i < u.length), index u i = .ok u[i]) ∧ (∀ i, 16 ≤ i → index u i = .throws) ∧
    iterate u staticSize 0 = .ok u ∧ first u = u.head? ∧ last u = u.getLast? := by
  refine ⟨fun i h => ?_, fun i h => ?_, ?_, ?_, ?_⟩
  · have : ¬ staticSize ≤ i := by show ¬ 16 ≤ i; omega
    rw [index, if_neg this, List.getElem?_eq_getElem h]
  · rw [index, if_pos (show staticSize ≤ i from h)]
  · rw [iterate_spec u staticSize 0 (by rw [hu]; rfl), List.drop_zero]
  · rw [first, List.head?_eq_getElem?]
  · rw [last, List.getLast?_eq_getElem?, hu]
    rfl

example : Shape [List.replicate 16 1#8, List.replicate 16 2#8] := by
  intro v u h
  match v with
  | 0 => rw [← Option.some.inj h]; rfl
  | 1 => rw [← Option.some.inj h]; rfl
  | n + 2 => simp at h
example : swap [List.replicate 16 1#8, List.replicate 16 2#8] 0 1 = some [List.replicate 16 2#8, List.replicate 16 1#8] := by
  decide +kernel
example : copyAssign [List.replicate 16 1#8, List.replicate 16 2#8] 0 1 =
    some [List.replicate 16 2#8, List.replicate 16 2#8] := by decide +kernel
example : copyAssign [List.replicate 16 1#8] 0 0 = some [List.replicate 16 1#8] := by decide +kernel

end Solace.Uuid
