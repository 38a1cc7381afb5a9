import Verif.Spec.Murmur3
/-! The parts of MurmurHash3 have inverses. -/
namespace Solace.Hash.Spec.Murmur3

/-- `f` takes every value exactly once. -/
structure Bij {α β : Type} (f : α → β) : Prop where
  inj : ∀ a b, f a = f b → a = b
  surj : ∀ b, ∃ a, f a = b

theorem Bij.of_inverse {α β : Type} {f : α → β} (g : β → α) (h1 : ∀ a, g (f a) = a) (h2 : ∀ b, f (g b) = b) : Bij f :=
  ⟨fun a b h => by rw [← h1 a, h, h1], fun b => ⟨g b, h2 b⟩⟩

theorem Bij.comp {α β γ : Type} {f : β → γ} {g : α → β} (hf : Bij f) (hg : Bij g) : Bij fun a => f (g a) :=
  ⟨fun a b h => hg.inj _ _ (hf.inj _ _ h), fun c => by
    obtain ⟨b, hb⟩ := hf.surj c
    obtain ⟨a, ha⟩ := hg.surj b
    exact ⟨a, by rw [ha, hb]⟩⟩

theorem bij_mul {w : Nat} (c d : BitVec w) (h : c * d = 1#w) : Bij fun x : BitVec w => x * c :=
  .of_inverse (fun x => x * d) (fun x => by rw [BitVec.mul_assoc, h, BitVec.mul_one])
    (fun x => by rw [BitVec.mul_assoc, BitVec.mul_comm d, h, BitVec.mul_one])

theorem bij_add {w : Nat} (c : BitVec w) : Bij fun x : BitVec w => x + c :=
  .of_inverse (fun x => x - c) (fun x => BitVec.add_sub_cancel x c) (fun x => BitVec.sub_add_cancel x c)

theorem bij_xor {w : Nat} (c : BitVec w) : Bij fun x : BitVec w => x ^^^ c :=
  .of_inverse (fun x => x ^^^ c) (fun x => by rw [BitVec.xor_assoc, BitVec.xor_self, BitVec.xor_zero])
    (fun x => by rw [BitVec.xor_assoc, BitVec.xor_self, BitVec.xor_zero])

theorem bij_xor_left {w : Nat} (c : BitVec w) : Bij fun x : BitVec w => c ^^^ x :=
  .of_inverse (fun x => c ^^^ x) (fun x => by rw [← BitVec.xor_assoc, BitVec.xor_self, BitVec.zero_xor])
    (fun x => by rw [← BitVec.xor_assoc, BitVec.xor_self, BitVec.zero_xor])

theorem bij_rotate {w : Nat} (r : Nat) (hr : r < w) : Bij fun x : BitVec w => x.rotateLeft r :=
  .of_inverse (fun x => x.rotateRight r)
    (fun x => by
      apply BitVec.eq_of_getLsbD_eq
      intro i hi
      rw [BitVec.getLsbD_rotateRight_of_lt hr]
      simp only [BitVec.getLsbD_rotateLeft_of_le hr]
      by_cases h : i < w - r
      · simp only [h]
        have h1 : ¬ r + i < r := by omega
        have h2 : r + i < w := by omega
        have h3 : r + i - r = i := by omega
        rw [decide_eq_false h1]
        simp [h2, h3]
      · simp only [h]
        have h1 : i - (w - r) < r := by omega
        have h3 : w - r + (i - (w - r)) = i := by omega
        simp [h1, h3, hi])
    (fun x => by
      apply BitVec.eq_of_getLsbD_eq
      intro i hi
      rw [BitVec.getLsbD_rotateLeft_of_le hr]
      simp only [BitVec.getLsbD_rotateRight_of_lt hr]
      by_cases h : i < r
      · simp only [h]
        have h1 : ¬ w - r + i < w - r := by omega
        have h2 : w - r + i < w := by omega
        have h3 : w - r + i - (w - r) = i := by omega
        rw [decide_eq_false h1]
        simp [h2, h3]
      · simp only [h]
        have h1 : i - r < w - r := by omega
        have h3 : r + (i - r) = i := by omega
        simp [h1, h3, hi])

/-- A shift by half the width or more and an exclusive or undo themselves. -/
theorem bij_shift {w : Nat} (s : Nat) (hs : w ≤ 2 * s) : Bij fun x : BitVec w => x ^^^ (x >>> s) := by
  have key : ∀ x : BitVec w, (x ^^^ (x >>> s)) ^^^ ((x ^^^ (x >>> s)) >>> s) = x := by
    intro x
    apply BitVec.eq_of_getLsbD_eq
    intro i hi
    simp only [BitVec.getLsbD_xor, BitVec.getLsbD_ushiftRight]
    have : x.getLsbD (s + (s + i)) = false := BitVec.getLsbD_of_ge _ _ (by omega)
    rw [this]
    cases x.getLsbD i <;> cases x.getLsbD (s + i) <;> rfl
  exact .of_inverse (fun x => x ^^^ (x >>> s)) key key

/-- The shift by 13 of a 32-bit word. -/
theorem bij_shift13 : Bij fun x : BitVec 32 => x ^^^ (x >>> 13) := by
  refine .of_inverse (fun x => x ^^^ (x >>> 13) ^^^ (x >>> 26)) ?_ ?_ <;>
  · intro x
    apply BitVec.eq_of_getLsbD_eq
    intro i hi
    simp only [BitVec.getLsbD_xor, BitVec.getLsbD_ushiftRight]
    have h1 : x.getLsbD (13 + (26 + i)) = false := BitVec.getLsbD_of_ge _ _ (by omega)
    have h2 : x.getLsbD (26 + (13 + i)) = false := BitVec.getLsbD_of_ge _ _ (by omega)
    have h3 : 13 + (13 + i) = 26 + i := by omega
    rw [h3]
    first
    | rw [h1]
      cases x.getLsbD i <;> cases x.getLsbD (13 + i) <;> cases x.getLsbD (26 + i) <;> rfl
    | rw [h1, h2]
      cases x.getLsbD i <;> cases x.getLsbD (13 + i) <;> cases x.getLsbD (26 + i) <;> rfl
    | rw [h2]
      cases x.getLsbD i <;> cases x.getLsbD (13 + i) <;> cases x.getLsbD (26 + i) <;> rfl

theorem bij_fmix32 : Bij fmix32 :=
  (bij_shift 16 (by decide)).comp <| (bij_mul 0xc2b2ae35#32 0x7ed1b41d#32 (by decide)).comp <| bij_shift13.comp <|
    (bij_mul 0x85ebca6b#32 0xa5cb9243#32 (by decide)).comp (bij_shift 16 (by decide))

theorem bij_fmix64 : Bij fmix64 :=
  (bij_shift 33 (by decide)).comp <| (bij_mul 0xc4ceb9fe1a85ec53#64 0x9cb4b2f8129337db#64 (by decide)).comp <|
    (bij_shift 33 (by decide)).comp <| (bij_mul 0xff51afd7ed558ccd#64 0x4f74430c22a54005#64 (by decide)).comp
      (bij_shift 33 (by decide))

theorem bij_scramble : Bij scramble :=
  (bij_mul 0x1b873593#32 0x56ed309b#32 (by decide)).comp <| (bij_rotate 15 (by decide)).comp
    (bij_mul 0xcc9e2d51#32 0xdee13bb1#32 (by decide))

theorem bij_scramble1 : Bij scramble1 :=
  (bij_mul 0x4cf5ad432745937f#64 0xa81e14edd9de2c7f#64 (by decide)).comp <| (bij_rotate 31 (by decide)).comp
    (bij_mul 0x87c37b91114253d5#64 0xa98409e882ce4d7d#64 (by decide))

theorem bij_scramble2 : Bij scramble2 :=
  (bij_mul 0x87c37b91114253d5#64 0xa98409e882ce4d7d#64 (by decide)).comp <| (bij_rotate 33 (by decide)).comp
    (bij_mul 0x4cf5ad432745937f#64 0xa81e14edd9de2c7f#64 (by decide))

/-- The inverses of the multipliers of MurmurHash3_x86_128. -/
def factorInverse : Fin 4 → BitVec 32 := pick 0x89c95413#32 0xdf130eb9#32 0x747862ed#32 0x58d64a9b#32

theorem factor_inverse : ∀ j, factor j * factorInverse j = 1#32 := by decide

theorem bij_scrambleX86 (j : Fin 4) : Bij (scrambleX86 j) :=
  (bij_mul _ _ (factor_inverse (j + 1))).comp <| (bij_rotate (blockRotation j) (by revert j; decide)).comp
    (bij_mul _ _ (factor_inverse j))

theorem bij_mul5_32 : Bij fun x : BitVec 32 => x * 5#32 := bij_mul 5#32 0xcccccccd#32 (by decide)
theorem bij_mul5_64 : Bij fun x : BitVec 64 => x * 5#64 := bij_mul 5#64 0xcccccccccccccccd#64 (by decide)

/-! ### The 32-bit hash -/

/-- What a block does to the state. -/
def step32 (h k : BitVec 32) : BitVec 32 := (h ^^^ scramble k).rotateLeft 13 * 5#32 + 0xe6546b64#32

theorem bij_after32 : Bij fun x : BitVec 32 => x.rotateLeft 13 * 5#32 + 0xe6546b64#32 :=
  (bij_add _).comp <| bij_mul5_32.comp <| bij_rotate 13 (by decide)

theorem bij_step32_state (k : BitVec 32) : Bij fun h => step32 h k := bij_after32.comp (bij_xor _)
theorem bij_step32_block (h : BitVec 32) : Bij fun k => step32 h k := bij_after32.comp <| (bij_xor_left _).comp bij_scramble

/-- The end of the 32-bit hash. -/
def end32 (len : Nat) (h k : BitVec 32) : BitVec 32 := fmix32 (h ^^^ scramble k ^^^ BitVec.ofNat 32 len)

theorem bij_end32_state (len : Nat) (k : BitVec 32) : Bij fun h => end32 len h k :=
  bij_fmix32.comp <| (bij_xor _).comp (bij_xor _)
theorem bij_end32_block (len : Nat) (h : BitVec 32) : Bij fun k => end32 len h k :=
  bij_fmix32.comp <| (bij_xor _).comp <| (bij_xor_left _).comp bij_scramble

/-! ### The 128-bit hash of 64-bit targets -/

/-- What a block of two words does to the state. -/
def step64 (h k : BitVec 64 × BitVec 64) : BitVec 64 × BitVec 64 :=
  let h1 := ((h.1 ^^^ scramble1 k.1).rotateLeft 27 + h.2) * 5#64 + 0x52dce729#64
  (h1, ((h.2 ^^^ scramble2 k.2).rotateLeft 31 + h1) * 5#64 + 0x38495ab5#64)

theorem bij_outer64 (c d : BitVec 64) : Bij fun x : BitVec 64 => (x + d) * 5#64 + c := (bij_add _).comp <| bij_mul5_64.comp <| bij_add _

theorem bij_step64_block (h : BitVec 64 × BitVec 64) : Bij fun k => step64 h k := by
  have b1 : Bij fun k : BitVec 64 => ((h.1 ^^^ scramble1 k).rotateLeft 27 + h.2) * 5#64 + 0x52dce729#64 :=
    (bij_outer64 _ _).comp <| (bij_rotate 27 (by decide)).comp <| (bij_xor_left _).comp bij_scramble1
  have b2 : ∀ c, Bij fun k : BitVec 64 => ((h.2 ^^^ scramble2 k).rotateLeft 31 + c) * 5#64 + 0x38495ab5#64 := fun c =>
    (bij_outer64 _ _).comp <| (bij_rotate 31 (by decide)).comp <| (bij_xor_left _).comp bij_scramble2
  constructor
  · intro a b e
    simp only [step64, Prod.mk.injEq] at e
    have e1 := b1.inj _ _ e.1
    rw [e1] at e
    exact Prod.ext e1 ((b2 _).inj _ _ e.2)
  · intro v
    obtain ⟨k1, hk1⟩ := b1.surj v.1
    obtain ⟨k2, hk2⟩ := (b2 v.1).surj v.2
    refine ⟨(k1, k2), ?_⟩
    simp only [step64, hk1, hk2]

theorem bij_step64_state (k : BitVec 64 × BitVec 64) : Bij fun h => step64 h k := by
  have b1 : ∀ c, Bij fun h : BitVec 64 => ((h ^^^ scramble1 k.1).rotateLeft 27 + c) * 5#64 + 0x52dce729#64 := fun c =>
    (bij_outer64 _ _).comp <| (bij_rotate 27 (by decide)).comp (bij_xor _)
  have b2 : ∀ c, Bij fun h : BitVec 64 => ((h ^^^ scramble2 k.2).rotateLeft 31 + c) * 5#64 + 0x38495ab5#64 := fun c =>
    (bij_outer64 _ _).comp <| (bij_rotate 31 (by decide)).comp (bij_xor _)
  constructor
  · intro a b e
    simp only [step64, Prod.mk.injEq] at e
    obtain ⟨e1, e2⟩ := e
    rw [e1] at e2
    have e3 := (b2 _).inj _ _ e2
    rw [e3] at e1
    exact Prod.ext ((b1 _).inj _ _ e1) e3
  · intro v
    obtain ⟨h2, hh2⟩ := (b2 v.1).surj v.2
    obtain ⟨h1, hh1⟩ := (b1 h2).surj v.1
    refine ⟨(h1, h2), ?_⟩
    simp only [step64, hh1, hh2]

/-- Sums of the two words. -/
theorem bij_sums : Bij fun h : BitVec 64 × BitVec 64 => (h.1 + h.2, h.2 + (h.1 + h.2)) := by
  refine .of_inverse (fun v => (v.1 - (v.2 - v.1), v.2 - v.1)) ?_ ?_
  · rintro ⟨a, b⟩
    simp only [BitVec.add_sub_cancel]
  · rintro ⟨a, b⟩
    simp only [BitVec.sub_add_cancel]

/-- The end of the 128-bit hash. -/
def end64 (len : Nat) (h k : BitVec 64 × BitVec 64) : BitVec 64 × BitVec 64 :=
  let h1 := h.1 ^^^ scramble1 k.1 ^^^ BitVec.ofNat 64 len
  let h2 := h.2 ^^^ scramble2 k.2 ^^^ BitVec.ofNat 64 len
  let a1 := h1 + h2
  let a2 := h2 + a1
  let b1 := fmix64 a1
  let b2 := fmix64 a2
  (b1 + b2, b2 + (b1 + b2))

theorem bij_pair {α β γ δ : Type} {f : α → γ} {g : β → δ} (hf : Bij f) (hg : Bij g) : Bij fun h : α × β => (f h.1, g h.2) := by
  constructor
  · rintro ⟨a, b⟩ ⟨c, d⟩ e
    simp only [Prod.mk.injEq] at e
    rw [hf.inj _ _ e.1, hg.inj _ _ e.2]
  · rintro ⟨a, b⟩
    obtain ⟨x, hx⟩ := hf.surj a
    obtain ⟨y, hy⟩ := hg.surj b
    exact ⟨(x, y), by simp only [hx, hy]⟩

theorem Bij.congr {α β : Type} {f g : α → β} (hg : Bij g) (h : ∀ a, f a = g a) : Bij f := by
  rw [funext h]
  exact hg

/-- Its last part. -/
def finish (h : BitVec 64 × BitVec 64) : BitVec 64 × BitVec 64 :=
  let s (h : BitVec 64 × BitVec 64) := (h.1 + h.2, h.2 + (h.1 + h.2))
  s (fmix64 (s h).1, fmix64 (s h).2)

theorem bij_finish : Bij finish := bij_sums.comp <| (bij_pair bij_fmix64 bij_fmix64).comp bij_sums

theorem end64_eq (len : Nat) (h k : BitVec 64 × BitVec 64) :
    end64 len h k = finish (h.1 ^^^ scramble1 k.1 ^^^ BitVec.ofNat 64 len, h.2 ^^^ scramble2 k.2 ^^^ BitVec.ofNat 64 len) := by
  simp only [end64, finish]

theorem bij_end64_state (len : Nat) (k : BitVec 64 × BitVec 64) : Bij fun h => end64 len h k :=
  (bij_finish.comp <| bij_pair ((bij_xor (BitVec.ofNat 64 len)).comp (bij_xor (scramble1 k.1)))
    ((bij_xor (BitVec.ofNat 64 len)).comp (bij_xor (scramble2 k.2)))).congr fun h => end64_eq len h k

theorem bij_end64_block (len : Nat) (h : BitVec 64 × BitVec 64) : Bij fun k => end64 len h k :=
  (bij_finish.comp <| bij_pair ((bij_xor (BitVec.ofNat 64 len)).comp ((bij_xor_left h.1).comp bij_scramble1))
    ((bij_xor (BitVec.ofNat 64 len)).comp ((bij_xor_left h.2).comp bij_scramble2))).congr fun k => end64_eq len h k

/-! ### The 128-bit hash of 32-bit targets -/

/-- What a block of four words does to the state. -/
def stepX86 (h k : Words) : Words :=
  let new0 := mixX86 0 h.w0 k.w0 h.w1
  let new1 := mixX86 1 h.w1 k.w1 h.w2
  let new2 := mixX86 2 h.w2 k.w2 h.w3
  ⟨new0, new1, new2, mixX86 3 h.w3 k.w3 new0⟩

theorem bij_mixX86_state (j : Fin 4) (k next : BitVec 32) : Bij fun h => mixX86 j h k next :=
  (bij_add _).comp <| bij_mul5_32.comp <| (bij_add _).comp <| (bij_rotate (stateRotation j) (by revert j; decide)).comp (bij_xor _)

theorem bij_mixX86_block (j : Fin 4) (h next : BitVec 32) : Bij fun k => mixX86 j h k next :=
  (bij_add _).comp <| bij_mul5_32.comp <| (bij_add _).comp <| (bij_rotate (stateRotation j) (by revert j; decide)).comp <|
    (bij_xor_left _).comp (bij_scrambleX86 j)

theorem bij_stepX86_block (h : Words) : Bij fun k => stepX86 h k := by
  constructor
  · rintro ⟨a, b, c, d⟩ ⟨a', b', c', d'⟩ e
    simp only [stepX86, Words.mk.injEq] at e
    obtain ⟨e0, e1, e2, e3⟩ := e
    rw [e0] at e3
    rw [(bij_mixX86_block 0 _ _).inj _ _ e0, (bij_mixX86_block 1 _ _).inj _ _ e1, (bij_mixX86_block 2 _ _).inj _ _ e2,
      (bij_mixX86_block 3 _ _).inj _ _ e3]
  · rintro ⟨a, b, c, d⟩
    obtain ⟨k0, h0⟩ := (bij_mixX86_block 0 h.w0 h.w1).surj a
    obtain ⟨k1, h1⟩ := (bij_mixX86_block 1 h.w1 h.w2).surj b
    obtain ⟨k2, h2⟩ := (bij_mixX86_block 2 h.w2 h.w3).surj c
    obtain ⟨k3, h3⟩ := (bij_mixX86_block 3 h.w3 a).surj d
    exact ⟨⟨k0, k1, k2, k3⟩, by simp only [stepX86, h0, h1, h2, h3]⟩

theorem bij_stepX86_state (k : Words) : Bij fun h => stepX86 h k := by
  constructor
  · rintro ⟨a, b, c, d⟩ ⟨a', b', c', d'⟩ e
    simp only [stepX86, Words.mk.injEq] at e
    obtain ⟨e0, e1, e2, e3⟩ := e
    rw [e0] at e3
    have h3 := (bij_mixX86_state 3 _ _).inj _ _ e3
    rw [h3] at e2
    have h2 := (bij_mixX86_state 2 _ _).inj _ _ e2
    rw [h2] at e1
    have h1 := (bij_mixX86_state 1 _ _).inj _ _ e1
    rw [h1] at e0
    rw [h3, h2, h1, (bij_mixX86_state 0 _ _).inj _ _ e0]
  · rintro ⟨a, b, c, d⟩
    obtain ⟨k3, h3⟩ := (bij_mixX86_state 3 k.w3 a).surj d
    obtain ⟨k2, h2⟩ := (bij_mixX86_state 2 k.w2 k3).surj c
    obtain ⟨k1, h1⟩ := (bij_mixX86_state 1 k.w1 k2).surj b
    obtain ⟨k0, h0⟩ := (bij_mixX86_state 0 k.w0 k1).surj a
    exact ⟨⟨k0, k1, k2, k3⟩, by simp only [stepX86, h0, h1, h2, h3]⟩

theorem bij_spread : Bij spread := by
  refine .of_inverse (fun v => ⟨v.w0 - (v.w3 - v.w0) - (v.w2 - v.w0) - (v.w1 - v.w0), v.w1 - v.w0, v.w2 - v.w0, v.w3 - v.w0⟩) ?_ ?_
  · rintro ⟨a, b, c, d⟩
    simp only [spread, BitVec.add_sub_cancel]
  · rintro ⟨a, b, c, d⟩
    simp only [spread, BitVec.sub_add_cancel]

theorem bij_words {f0 f1 f2 f3 : BitVec 32 → BitVec 32} (h0 : Bij f0) (h1 : Bij f1) (h2 : Bij f2) (h3 : Bij f3) :
    Bij fun h : Words => (⟨f0 h.w0, f1 h.w1, f2 h.w2, f3 h.w3⟩ : Words) := by
  constructor
  · rintro ⟨a, b, c, d⟩ ⟨a', b', c', d'⟩ e
    simp only [Words.mk.injEq] at e
    rw [h0.inj _ _ e.1, h1.inj _ _ e.2.1, h2.inj _ _ e.2.2.1, h3.inj _ _ e.2.2.2]
  · rintro ⟨a, b, c, d⟩
    obtain ⟨x, hx⟩ := h0.surj a
    obtain ⟨y, hy⟩ := h1.surj b
    obtain ⟨z, hz⟩ := h2.surj c
    obtain ⟨u, hu⟩ := h3.surj d
    exact ⟨⟨x, y, z, u⟩, by simp only [hx, hy, hz, hu]⟩

/-- The end of the hash. -/
def endX86 (len : Nat) (h k : Words) : Words :=
  let l (j : Fin 4) (h k : BitVec 32) : BitVec 32 := h ^^^ scrambleX86 j k ^^^ BitVec.ofNat 32 len
  let a := spread ⟨l 0 h.w0 k.w0, l 1 h.w1 k.w1, l 2 h.w2 k.w2, l 3 h.w3 k.w3⟩
  spread ⟨fmix32 a.w0, fmix32 a.w1, fmix32 a.w2, fmix32 a.w3⟩

theorem bij_endX86_state (len : Nat) (k : Words) : Bij fun h => endX86 len h k :=
  bij_spread.comp <| (bij_words bij_fmix32 bij_fmix32 bij_fmix32 bij_fmix32).comp <| bij_spread.comp <|
    bij_words ((bij_xor (BitVec.ofNat 32 len)).comp (bij_xor (scrambleX86 0 k.w0)))
      ((bij_xor (BitVec.ofNat 32 len)).comp (bij_xor (scrambleX86 1 k.w1)))
      ((bij_xor (BitVec.ofNat 32 len)).comp (bij_xor (scrambleX86 2 k.w2)))
      ((bij_xor (BitVec.ofNat 32 len)).comp (bij_xor (scrambleX86 3 k.w3)))

theorem bij_endX86_block (len : Nat) (h : Words) : Bij fun k => endX86 len h k :=
  bij_spread.comp <| (bij_words bij_fmix32 bij_fmix32 bij_fmix32 bij_fmix32).comp <| bij_spread.comp <|
    bij_words ((bij_xor (BitVec.ofNat 32 len)).comp ((bij_xor_left h.w0).comp (bij_scrambleX86 0)))
      ((bij_xor (BitVec.ofNat 32 len)).comp ((bij_xor_left h.w1).comp (bij_scrambleX86 1)))
      ((bij_xor (BitVec.ofNat 32 len)).comp ((bij_xor_left h.w2).comp (bij_scrambleX86 2)))
      ((bij_xor (BitVec.ofNat 32 len)).comp ((bij_xor_left h.w3).comp (bij_scrambleX86 3)))

/-! ### Messages -/

/-- A fold over steps each of which is a bijection of the state: states that differ stay different. -/
theorem fold_inj {α β : Type} (f : α → β → α) (hf : ∀ k a b, f a k = f b k → a = b) (ks : List β) : ∀ a b,
    ks.foldl f a = ks.foldl f b → a = b := by
  induction ks with
  | nil => intro a b h; exact h
  | cons k ks ih => intro a b h; exact hf _ _ _ (ih _ _ h)

end Solace.Hash.Spec.Murmur3
