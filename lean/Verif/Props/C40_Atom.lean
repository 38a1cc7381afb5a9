import Verif.Model.Atom
import Verif.Spec.Strings
import Verif.Props.C37_C39_Uuid
/-
C40: atoms.
-/
namespace Solace.Atom
open Strings

/-- A byte string as a number, first byte most significant. -/
def value : List Byte → Nat
  | [] => 0
  | b :: bs => b.toNat * 256 ^ bs.length + value bs

theorem value_lt (s : List Byte) : value s < 256 ^ s.length := by
  induction s with
  | nil => simp [value]
  | cons b s ih =>
    rw [value, List.length_cons, Nat.pow_succ, Nat.mul_comm (256 ^ s.length)]
    have := b.isLt
    have h : b.toNat * 256 ^ s.length ≤ 255 * 256 ^ s.length := Nat.mul_le_mul_right _ (by omega)
    omega

theorem value_append (a b : List Byte) : value (a ++ b) = value a * 256 ^ b.length + value b := by
  induction a with
  | nil => simp [value]
  | cons x a ih =>
    rw [List.cons_append, value, ih, value, List.length_append, Nat.pow_add, Nat.add_mul, Nat.mul_assoc, Nat.add_assoc]

theorem value_zeros (n : Nat) : value (List.replicate n 0#8) = 0 := by
  induction n with
  | zero => rfl
  | succ n ih => rw [List.replicate_succ, value, ih]; simp

theorem value_lexLt : ∀ (a b : List Byte), a.length = b.length → (value a < value b ↔ lexLt a b)
  | [], [], _ => by simp [value, lexLt]
  | x :: xs, y :: ys, h => by
    have hl : xs.length = ys.length := by simpa using h
    have ih := value_lexLt xs ys hl
    have h1 := value_lt xs
    have h2 := value_lt ys
    rw [value, value, lexLt, ← ih]
    rw [hl] at h1 ⊢
    generalize 256 ^ ys.length = P at *
    have hxy : x = y ↔ x.toNat = y.toNat := ⟨fun h => by rw [h], BitVec.eq_of_toNat_eq⟩
    rw [hxy]
    constructor
    · intro h
      by_cases hlt : x.toNat < y.toNat
      · exact .inl hlt
      · right
        by_cases hgt : y.toNat < x.toNat
        · have : (y.toNat + 1) * P ≤ x.toNat * P := Nat.mul_le_mul_right _ hgt
          rw [Nat.add_mul] at this
          omega
        · have : x.toNat = y.toNat := by omega
          rw [this] at h
          exact ⟨this, by omega⟩
    · rintro (hlt | ⟨he, hlt⟩)
      · have : (x.toNat + 1) * P ≤ y.toNat * P := Nat.mul_le_mul_right _ hlt
        rw [Nat.add_mul] at this
        omega
      · rw [he]; omega

theorem value_inj (a b : List Byte) (h : a.length = b.length) (hv : value a = value b) : a = b := by
  rcases Uuid.memcmp_spec a b h with ⟨_, h'⟩ | ⟨_, h'⟩ | ⟨_, h'⟩
  · have := (value_lexLt a b h).mpr h'; omega
  · exact h'
  · have := (value_lexLt b a h.symm).mpr h'; omega

/-- Shifting in a character that is below 128. -/
theorem shift_ascii (n : BitVec 64) (c : Byte) (hc : c.toNat < 128) :
    ((n <<< 8) ||| c.signExtend 64).toNat = n.toNat * 256 % 2 ^ 64 + c.toNat := by
  have h1 : (c.signExtend 64).toNat = c.toNat := by
    rw [BitVec.signExtend_eq_setWidth_of_msb_false (by rw [BitVec.msb_eq_false_iff_two_mul_lt]; omega), BitVec.toNat_setWidth]
    omega
  rw [BitVec.toNat_or, h1, BitVec.toNat_shiftLeft, Nat.shiftLeft_eq]
  have h2 : n.toNat * 2 ^ 8 % 2 ^ 64 = (n.toNat % 2 ^ 56) <<< 8 := by
    rw [Nat.shiftLeft_eq]; omega
  rw [h2, ← Nat.shiftLeft_add_eq_or_of_lt (by omega), Nat.shiftLeft_eq]

/-- Shifting in a character above 127: everything before it is lost. -/
theorem shift_high (n : BitVec 64) (c : Byte) (hc : 128 ≤ c.toNat) : (n <<< 8) ||| c.signExtend 64 = c.signExtend 64 := by
  have hmsb : c.msb = true := by rw [BitVec.msb_eq_true_iff_two_mul_ge]; omega
  apply BitVec.eq_of_getLsbD_eq
  intro i hi
  rw [BitVec.getLsbD_or, BitVec.getLsbD_shiftLeft, BitVec.getLsbD_signExtend, hmsb]
  by_cases h8 : i < 8
  · simp [h8]
  · simp [h8, hi]

theorem high_value (c : Byte) (hc : 128 ≤ c.toNat) (j : Nat) (hj : j ≤ 7) :
    (c.signExtend 64).toNat % 256 ^ (j + 1) = value (List.replicate j 0xFF#8 ++ [c]) := by
  have h : (c.signExtend 64).toNat = value (List.replicate 7 0xFF#8 ++ [c]) := by
    revert hc; revert c; decide +kernel
  have e : List.replicate 7 0xFF#8 ++ [c] = List.replicate (7 - j) 0xFF#8 ++ (List.replicate j 0xFF#8 ++ [c]) := by
    rw [← List.append_assoc, List.replicate_append_replicate, show 7 - j + j = 7 by omega]
  have hl : (List.replicate j 0xFF#8 ++ [c]).length = j + 1 := by simp
  have hlt := value_lt (List.replicate j 0xFF#8 ++ [c])
  rw [hl] at hlt
  rw [h, e, value_append, hl, Nat.add_comm, Nat.add_mul_mod_self_right, Nat.mod_eq_of_lt hlt]

theorem shift_mod (n c j : Nat) (hj : j + 1 ≤ 8) (hc : c < 256) :
    (n * 256 % 2 ^ 64 + c) % 256 ^ (j + 1) = (n % 256 ^ j) * 256 + c := by
  have hk : ∃ k, 2 ^ 64 = 256 ^ (j + 1) * k := ⟨256 ^ (7 - j), by rw [← Nat.pow_add, show j + 1 + (7 - j) = 8 by omega]⟩
  obtain ⟨k, hk⟩ := hk
  rw [hk, Nat.add_mod, Nat.mod_mul_right_mod, ← Nat.add_mod, Nat.pow_succ, Nat.mul_comm (256 ^ j) 256, Nat.mod_mul]
  have h1 : (n * 256 + c) % 256 = c := by omega
  have h2 : (n * 256 + c) / 256 = n := by omega
  rw [h1, h2]; omega

/-- What an atom keeps of a string: a character above 127 replaces everything before it by bytes 255. -/
def canonFrom (p : List Byte) : List Byte → List Byte
  | [] => p
  | c :: s => canonFrom (if 128 ≤ c.toNat then List.replicate p.length 0xFF#8 ++ [c] else p ++ [c]) s

def canon (s : List Byte) : List Byte := canonFrom [] s

theorem canonFrom_length (s : List Byte) : ∀ p, (canonFrom p s).length = p.length + s.length := by
  induction s with
  | nil => intro p; rfl
  | cons c s ih =>
    intro p
    rw [canonFrom, ih]
    split <;> simp <;> omega

theorem canon_length (s : List Byte) : (canon s).length = s.length := by rw [canon, canonFrom_length]; simp

theorem canonFrom_ascii (s : List Byte) (h : ∀ c ∈ s, c.toNat < 128) : ∀ p, canonFrom p s = p ++ s := by
  induction s with
  | nil => intro p; simp [canonFrom]
  | cons c s ih =>
    intro p
    rw [canonFrom, if_neg (by have := h c (by simp); omega), ih (fun c hc => h c (by simp [hc]))]
    simp

theorem wrapLoop_spec (rest : List Byte) (hr : rest = [] ∨ ∃ r, rest = 0#8 :: r) (s : List Byte) (h0 : ∀ c ∈ s, c ≠ 0#8) :
    ∀ (k : Nat) (n : BitVec 64) (p : List Byte), p.length + s.length ≤ 8 → s.length ≤ k →
      n.toNat % 256 ^ p.length = value p →
      ∃ m, (wrapLoop k (s ++ rest) n p.length = (m, p.length + s.length)) ∧
        m.toNat % 256 ^ (p.length + s.length) = value (canonFrom p s) := by
  induction s with
  | nil =>
    intro k n p _ _ hv
    refine ⟨n, ?_, by simpa [canonFrom] using hv⟩
    rcases hr with rfl | ⟨r, rfl⟩
    · cases k <;> rfl
    · cases k <;> simp [wrapLoop]
  | cons c s ih =>
    intro k n p hp hk hv
    match k, hk with
    | k + 1, hk =>
      rw [List.length_cons] at hp hk
      rw [List.cons_append, wrapLoop, if_neg (h0 c (by simp)), canonFrom]
      have hstep : ∃ q, (if 128 ≤ c.toNat then List.replicate p.length 0xFF#8 ++ [c] else p ++ [c]) = q ∧
          q.length = p.length + 1 ∧ ((n <<< 8) ||| c.signExtend 64).toNat % 256 ^ q.length = value q := by
        by_cases hc : 128 ≤ c.toNat
        · refine ⟨_, if_pos hc, by simp, ?_⟩
          rw [shift_high n c hc, show (List.replicate p.length 0xFF#8 ++ [c]).length = p.length + 1 by simp,
            high_value c hc _ (by omega)]
        · refine ⟨_, if_neg hc, by simp, ?_⟩
          rw [shift_ascii n c (by omega), List.length_append, List.length_singleton,
            shift_mod _ _ _ (by omega) (by omega), hv, value_append]
          simp [value]
      obtain ⟨q, hq, hql, hqv⟩ := hstep
      obtain ⟨m, h1, h2⟩ := ih (fun c h => h0 c (by simp [h])) k _ q (by omega) (by omega) hqv
      refine ⟨m, ?_, ?_⟩
      · rw [hql] at h1
        rw [h1, List.length_cons]; congr 1; omega
      · rw [hql] at h2
        rw [List.length_cons, show p.length + (s.length + 1) = p.length + 1 + s.length by omega, h2, hq]

/-- The string filled up with NULs. -/
def pad (s : List Byte) : List Byte := s ++ List.replicate (8 - s.length) 0#8

theorem pad_length (s : List Byte) (h : s.length ≤ 8) : (pad s).length = 8 := by simp [pad]; omega

/-- The value of an atom, for every string of up to 8 characters other than NUL. -/
theorem wrap_value (s : List Byte) (hl : s.length ≤ 8) (h0 : ∀ c ∈ s, c ≠ 0#8) (rest : List Byte)
    (hr : rest = [] ∨ ∃ r, rest = 0#8 :: r) : (wrap (s ++ rest)).toNat = value (pad (canon s)) := by
  obtain ⟨m, h1, h2⟩ := wrapLoop_spec rest hr s h0 8 0#64 [] (by simpa using hl) hl (by simp [value])
  rw [List.length_nil, Nat.zero_add] at h1 h2
  rw [wrap, h1]
  simp only
  by_cases hs : s.length = 0
  · rw [if_pos hs, List.length_eq_zero_iff.mp hs, canon, canonFrom, pad, List.nil_append, value_zeros]
    rfl
  · rw [if_neg hs, BitVec.toNat_shiftLeft, Nat.shiftLeft_eq, pad, value_append, value_zeros, List.length_replicate,
      canon_length, canon, ← h2, Nat.add_zero]
    generalize s.length = k at *
    have e1 : 2 ^ ((8 - k) * 8) = 256 ^ (8 - k) := by
      rw [show 256 = 2 ^ 8 from rfl, ← Nat.pow_mul, Nat.mul_comm]
    have e2 : 2 ^ 64 = 256 ^ k * 256 ^ (8 - k) := by
      rw [← Nat.pow_add, show k + (8 - k) = 8 by omega]
    rw [e1, e2, Nat.mul_mod_mul_right]

/-- Characters that atoms can hold: no NUL, and no character above 127 except the first. -/
def Storable (s : List Byte) : Prop := s.length ≤ 8 ∧ (∀ c ∈ s, c ≠ 0#8) ∧ ∀ c ∈ s.tail, c.toNat < 128

theorem canon_storable (s : List Byte) (h : Storable s) : canon s = s := by
  match s, h with
  | [], _ => rfl
  | c :: t, h =>
    rw [canon, canonFrom, List.length_nil, List.replicate_zero, List.nil_append, ite_self,
      canonFrom_ascii t (fun x hx => h.2.2 x (by simpa using hx))]
    rfl

theorem wrap_storable (s : List Byte) (h : Storable s) (rest : List Byte) (hr : rest = [] ∨ ∃ r, rest = 0#8 :: r) :
    (wrap (s ++ rest)).toNat = value (pad s) := by
  rw [wrap_value s h.1 h.2.1 rest hr, canon_storable s h]

theorem canonFrom_idem (s : List Byte) : ∀ p, canonFrom [] p = p → canonFrom [] (canonFrom p s) = canonFrom p s := by
  have happ : ∀ (a b p : List Byte), canonFrom p (a ++ b) = canonFrom (canonFrom p a) b := by
    intro a
    induction a with
    | nil => intro b p; rfl
    | cons x a ih => intro b p; rw [List.cons_append, canonFrom, ih, canonFrom]
  induction s with
  | nil => intro p h; exact h
  | cons c s ih =>
    intro p h
    rw [canonFrom]
    apply ih
    by_cases hc : 128 ≤ c.toNat
    · rw [if_pos hc, happ, canonFrom, canonFrom_length, if_pos hc, canonFrom]
      simp
    · rw [if_neg hc, happ, h, canonFrom, if_neg hc, canonFrom]

theorem canon_idem (s : List Byte) : canon (canon s) = canon s := canonFrom_idem s [] rfl

theorem canonFrom_mem (s : List Byte) : ∀ p, ∀ c ∈ canonFrom p s, c ∈ p ∨ c ∈ s ∨ c = 0xFF#8 := by
  induction s with
  | nil => intro p c h; exact .inl h
  | cons x s ih =>
    intro p c h
    rw [canonFrom] at h
    rcases ih _ c h with h | h | h
    · split at h
      · simp only [List.mem_append, List.mem_replicate, List.mem_singleton] at h
        rcases h with h | h
        · exact .inr (.inr h.2)
        · exact .inr (.inl (by simp [h]))
      · simp only [List.mem_append, List.mem_singleton] at h
        rcases h with h | h
        · exact .inl h
        · exact .inr (.inl (by simp [h]))
    · exact .inr (.inl (by simp [h]))
    · exact .inr (.inr h)

theorem canonFrom_last (s : List Byte) (hs : s ≠ []) : ∀ p, (canonFrom p s).getLast? = s.getLast? := by
  induction s with
  | nil => exact absurd rfl hs
  | cons x s ih =>
    intro p
    rw [canonFrom]
    match s with
    | [] => rw [canonFrom]; split <;> simp
    | y :: t => rw [ih (by simp)]; simp [List.getLast?_cons_cons]

theorem canonFrom_head (s : List Byte) : ∀ p, p ≠ [] → (canonFrom p s).head? = p.head? ∨ (canonFrom p s).head? = some 0xFF#8 := by
  induction s with
  | nil => intro p _; exact .inl rfl
  | cons x s ih =>
    intro p hp
    rw [canonFrom]
    match p, hp with
    | y :: p', _ =>
      split
      · rcases ih (List.replicate (y :: p').length 0xFF#8 ++ [x]) (by simp) with h | h
        · right; rw [h]; simp [List.replicate_succ]
        · exact .inr h
      · rcases ih (y :: p' ++ [x]) (by simp) with h | h
        · left; rw [h]; simp
        · exact .inr h

theorem canon_head (s : List Byte) (c : Byte) (h : (canon s).head? = some c) : s.head? = some c ∨ c = 0xFF#8 := by
  match s, h with
  | [], h => cases h
  | x :: t, h =>
    rw [canon, canonFrom, List.length_nil, List.replicate_zero, List.nil_append, ite_self] at h
    rcases canonFrom_head t [x] (by simp) with h' | h'
    · rw [h] at h'; exact .inl h'.symm
    · rw [h] at h'; exact .inr (Option.some.inj h')

/-- The stored characters are the bytes of the number, most significant first. -/
theorem toBuffer_value (p : List Byte) (hp : p.length = 8) (n : BitVec 64) (hn : n.toNat = value p) :
    toBuffer n = p ++ [0#8] := by
  have hall : (0xFF#8).signExtend 64 = BitVec.allOnes 64 := by decide
  rw [toBuffer, hall]
  congr 1
  apply List.ext_getElem?
  intro i
  by_cases hi : i < 8
  · rw [List.getElem?_map, List.getElem?_range hi, Option.map_some, List.getElem?_eq_getElem (by omega)]
    congr 1
    apply BitVec.eq_of_toNat_eq
    rw [BitVec.and_allOnes, BitVec.toNat_setWidth, BitVec.toNat_ushiftRight, hn, Nat.shiftRight_eq_div_pow]
    have hs : p = p.take i ++ p[i] :: p.drop (i + 1) := by
      rw [← List.drop_eq_getElem_cons, List.take_append_drop]
    have e : 2 ^ ((8 - i - 1) * 8) = 256 ^ (p.drop (i + 1)).length := by
      rw [List.length_drop, hp, show 256 = 2 ^ 8 from rfl, ← Nat.pow_mul]; congr 1; omega
    rw [e]
    conv => lhs; rw [hs, value_append]
    have hlen : ((p.take i ++ p[i] :: p.drop (i + 1)).drop (i + 1)) = p.drop (i + 1) := by rw [← hs]
    rw [hlen, List.length_cons, Nat.pow_succ, value]
    have hlt := value_lt (p.drop (i + 1))
    have hb := p[i].isLt
    generalize 256 ^ (p.drop (i + 1)).length = P at *
    have : value (p.take i) * (P * 256) + (p[i].toNat * P + value (p.drop (i + 1))) =
      value (p.drop (i + 1)) + P * (value (p.take i) * 256 + p[i].toNat) := by
      rw [Nat.mul_add, Nat.mul_comm P p[i].toNat, Nat.mul_comm P (value _ * 256), Nat.mul_assoc, Nat.mul_comm 256 P]; omega
    rw [this, Nat.add_mul_div_left _ _ (by omega), Nat.div_eq_of_lt hlt]
    omega
  · rw [List.getElem?_eq_none (by simp; omega), List.getElem?_eq_none (by omega)]

/-- Reading a C string: the characters before the first NUL. -/
def cString (b : List Byte) : List Byte := b.takeWhile (· ≠ 0#8)

theorem cString_pad (s : List Byte) (h0 : ∀ c ∈ s, c ≠ 0#8) : cString (pad s ++ [0#8]) = s := by
  rw [cString, pad, List.append_assoc, List.takeWhile_append_of_pos (by simpa using h0)]
  cases 8 - s.length <;> simp [List.replicate_succ]

theorem lexLt_pad : ∀ (s t : List Byte) (m n : Nat), (∀ c ∈ s, c ≠ 0#8) → (∀ c ∈ t, c ≠ 0#8) →
    s.length + m = t.length + n →
    (lexLt (s ++ List.replicate m 0#8) (t ++ List.replicate n 0#8) ↔ lexLt s t)
  | [], [], m, n, _, _, h => by
    have : m = n := by simpa using h
    subst this
    simp only [List.nil_append]
    exact ⟨fun h => (Uuid.lexLt_irrefl _ h).elim, fun h => h.elim⟩
  | [], y :: ys, m, n, _, ht, h => by
    match m, h with
    | m + 1, h =>
      have hy := ht y (by simp)
      have : 0 < y.toNat := by
        rcases Nat.eq_zero_or_pos y.toNat with h | h
        · exact absurd (BitVec.eq_of_toNat_eq h) hy
        · exact h
      rw [List.replicate_succ, List.nil_append, List.cons_append, lexLt]
      simp [lexLt, this]
    | 0, h => simp at h; omega
  | x :: xs, [], m, n, hs, _, h => by
    match n, h with
    | n + 1, h =>
      have hx := hs x (by simp)
      rw [List.replicate_succ, List.nil_append, List.cons_append, lexLt]
      simp [lexLt, hx]
    | 0, h => simp at h
  | x :: xs, y :: ys, m, n, hs, ht, h => by
    have ih := lexLt_pad xs ys m n (fun c h => hs c (by simp [h])) (fun c h => ht c (by simp [h])) (by simp at h; omega)
    rw [List.cons_append, List.cons_append, lexLt, lexLt, ih]

/-- **C40** (partial: no character above 127 except the first): the atom of a string of up to 8 characters is printed as
that string, distinct strings give distinct atoms, and atoms are ordered as the strings. Missing: other non-ASCII
strings, for which the negation below holds. -/
theorem C40_atoms_partial (s t : List Byte) (hs : Storable s) (ht : Storable t) :
    ∃ a b, tryParse s = .ok a ∧ tryParse t = .ok b ∧
      (s.length ≤ 7 → atom s = a) ∧
      toBuffer a = pad s ++ [0#8] ∧ cString (toBuffer a) = s ∧
      (a = b ↔ s = t) ∧ (a.toNat < b.toNat ↔ lexLt s t) := by
  have hws := wrap_storable s hs [] (.inl rfl)
  have hwt := wrap_storable t ht [] (.inl rfl)
  have hws' := wrap_storable s hs [0#8] (.inr ⟨[], rfl⟩)
  rw [List.append_nil] at hws hwt
  have hbuf := toBuffer_value (pad s) (pad_length s hs.1) _ hws
  have hlex : (wrap s).toNat < (wrap t).toNat ↔ lexLt s t := by
    rw [hws, hwt, value_lexLt _ _ (by rw [pad_length s hs.1, pad_length t ht.1]), pad, pad,
      lexLt_pad _ _ _ _ hs.2.1 ht.2.1 (by have := hs.1; have := ht.1; omega)]
  refine ⟨wrap s, wrap t, ?_, ?_, ?_, hbuf, ?_, ?_, hlex⟩
  · rw [tryParse, if_neg (by have := hs.1; omega)]
  · rw [tryParse, if_neg (by have := ht.1; omega)]
  · intro _
    rw [atom]
    exact BitVec.eq_of_toNat_eq (by rw [hws', hws])
  · rw [hbuf, cString_pad s hs.2.1]
  · constructor
    · intro h
      have hp : pad s = pad t := by
        apply value_inj _ _ (by rw [pad_length s hs.1, pad_length t ht.1])
        rw [← hws, ← hwt, h]
      have := cString_pad s hs.2.1
      rw [hp, cString_pad t ht.2.1] at this
      exact this.symm
    · rintro rfl; rfl

/-- **C40**: exactly the strings of more than 8 characters are rejected. -/
theorem C40_rejects (s : List Byte) : (∃ e, tryParse s = .error e) ↔ 8 < s.length := by
  rw [tryParse]
  split
  · exact ⟨fun _ => by omega, fun _ => ⟨_, rfl⟩⟩
  · exact ⟨fun ⟨e, h⟩ => (by cases h), fun h => (by omega)⟩

theorem canon_no_nul (s : List Byte) (h0 : ∀ c ∈ s, c ≠ 0#8) : ∀ c ∈ canon s, c ≠ 0#8 := by
  intro c hc
  rcases canonFrom_mem s [] c hc with h | h | h
  · cases h
  · exact h0 c h
  · rw [h]; decide

/-- What every string of up to 8 characters other than NUL becomes: it is printed as `canon s`, and two strings have the
same atom exactly when these are the same. Atoms survive printing and parsing. -/
theorem C40_any_string (s : List Byte) (hl : s.length ≤ 8) (h0 : ∀ c ∈ s, c ≠ 0#8) :
    ∃ a, tryParse s = .ok a ∧ cString (toBuffer a) = canon s ∧ tryParse (cString (toBuffer a)) = .ok a := by
  have hw := wrap_value s hl h0 [] (.inl rfl)
  rw [List.append_nil] at hw
  have hlc : (canon s).length ≤ 8 := by rw [canon_length]; exact hl
  have hc0 := canon_no_nul s h0
  have hbuf := toBuffer_value (pad (canon s)) (pad_length _ hlc) _ hw
  have hcs : cString (toBuffer (wrap s)) = canon s := by rw [hbuf, cString_pad _ hc0]
  refine ⟨wrap s, by rw [tryParse, if_neg (by omega)], hcs, ?_⟩
  have hw' := wrap_value (canon s) hlc hc0 [] (.inl rfl)
  rw [List.append_nil, canon_idem] at hw'
  rw [hcs, tryParse, if_neg (by omega)]
  congr 1
  exact BitVec.eq_of_toNat_eq (by rw [hw', hw])

/-- **C40, negation**: a character above 127 that is not the first overwrites everything before it: different strings
with the same atom, which is printed as a third one. -/
theorem C40_non_ascii_collide (x y c : Byte) (hx : x ≠ 0#8) (hy : y ≠ 0#8) (hc : 128 ≤ c.toNat) :
    tryParse [x, c] = tryParse [y, c] ∧ ∃ a, tryParse [x, c] = .ok a ∧ cString (toBuffer a) = [0xFF#8, c] := by
  have hc0 : c ≠ 0#8 := by rintro rfl; exact absurd hc (by decide)
  have hcan : ∀ x : Byte, canon [x, c] = [0xFF#8, c] := by
    intro x
    rw [canon, canonFrom, canonFrom, if_pos hc, canonFrom, List.length_nil, List.replicate_zero, List.nil_append, ite_self]
    rfl
  have hw : ∀ x : Byte, x ≠ 0#8 → (wrap [x, c]).toNat = value (pad [0xFF#8, c]) := by
    intro x hx
    have := wrap_value [x, c] (by simp) (by simp [hx, hc0]) [] (.inl rfl)
    rwa [List.append_nil, hcan] at this
  constructor
  · rw [tryParse, tryParse, if_neg (by simp), if_neg (by simp)]
    congr 1
    exact BitVec.eq_of_toNat_eq (by rw [hw x hx, hw y hy])
  · obtain ⟨a, h1, h2, _⟩ := C40_any_string [x, c] (by simp) (by simp [hx, hc0])
    exact ⟨a, h1, by rw [h2, hcan]⟩

example : ([0x61#8, 0xC3#8] : List Byte).length ≤ 8 ∧ canon [0x61#8, 0xC3#8, 0x62#8] = [0xFF#8, 0xC3#8, 0x62#8] := by decide
example : Storable [0x74#8, 0x63#8, 0x70#8] ∧ Storable [0xC3#8] ∧ ¬Storable [0x61#8, 0xC3#8] := by
  unfold Storable; decide +kernel
example : toBuffer (atom [0x74#8, 0x63#8, 0x70#8]) = [0x74#8, 0x63#8, 0x70#8, 0, 0, 0, 0, 0, 0] := by decide +kernel

end Solace.Atom
