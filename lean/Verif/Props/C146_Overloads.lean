import Verif.Model.Overloads
import Verif.Props.C107_Records
import Verif.Props.C105_Measure
import Verif.Props.C71_C74_Char
/-
C146: a number given to a reader, a writer or a string builder keeps its value on every target: either the call does not compile, or
the number is stored and printed as it is. How many bytes it takes is another matter: characters and truth values may take four.
-/
namespace Solace.Over

/-! ### Tables -/

def Target.all : List Target :=
  [Names.lp64, .lp64LL, .long4, .long4Is32].flatMap fun n =>
  [true, false].flatMap fun a => [true, false].flatMap fun b => [true, false].flatMap fun c => [true, false].map fun d =>
    ⟨n, a, b, c, d⟩

def Ty.all : List Ty := [.bool, .char, .schar, .uchar, .short, .ushort, .int, .uint, .long, .ulong, .llong, .ullong, .wchar,
  .char16, .char32, .float, .double, .ldouble]

def Mode.all : List Mode := [.host, .le, .be]

theorem mem_targets (t : Target) : t ∈ Target.all := by
  rcases t with ⟨n, a, b, c, d⟩
  cases n <;> cases a <;> cases b <;> cases c <;> cases d <;> decide

theorem mem_types (t : Ty) : t ∈ Ty.all := by cases t <;> decide

theorem mem_modes (m : Mode) : m ∈ Mode.all := by cases m <;> decide

/-! ### Specification -/

/-- `v` is a value of the type. -/
def IsValue (t : Target) (ty : Ty) (v : Int) : Prop := lo t ty ≤ v ∧ v ≤ hi t ty

instance (t : Target) (ty : Ty) (v : Int) : Decidable (IsValue t ty v) := by unfold IsValue; infer_instance

/-- Which types the functions of the writer take: all numbers but `long double`, and the floating ones only in the byte order of
the host; of two integer types of the same size only the one that has a name in types.hpp. -/
def WriterTakes (t : Target) (m : Mode) : Ty → Prop
  | .schar | .uchar | .short | .ushort => True
  | .float | .double => m = .host
  | .ldouble => False
  | .char => m = .host ∨ t.names ≠ .long4Is32
  | .bool | .char16 | .char32 | .wchar | .int | .uint => t.names ≠ .long4Is32
  | .long | .ulong => t.names = .lp64 ∨ t.names = .long4Is32
  | .llong | .ullong => t.names ≠ .lp64

instance (t : Target) (m : Mode) (ty : Ty) : Decidable (WriterTakes t m ty) := by
  cases ty <;> unfold WriterTakes <;> infer_instance

/-- Which variables the functions of the reader take: the same, but no truth values and no characters other than `char`. -/
def ReaderTakes (t : Target) (m : Mode) : Ty → Prop
  | .bool | .char16 | .char32 | .wchar => False
  | .char => m = .host
  | ty => WriterTakes t m ty

instance (t : Target) (m : Mode) (ty : Ty) : Decidable (ReaderTakes t m ty) := by
  cases ty <;> unfold ReaderTakes <;> infer_instance

/-- The types that are stored in four bytes though they have fewer. -/
def Widened (t : Target) (m : Mode) : Ty → Prop
  | .bool | .char16 => True
  | .wchar => t.wchar4 = false
  | .char => m ≠ .host
  | _ => False

instance (t : Target) (m : Mode) (ty : Ty) : Decidable (Widened t m ty) := by
  cases ty <;> unfold Widened <;> infer_instance

/-! ### Lemmas -/

theorem value_bits (n : Nat) (hn : n = 1 ∨ n = 2 ∨ n = 4 ∨ n = 8) (v : Int) :
    bits n v < 256 ^ n ∧ (0 ≤ v → v < 2 ^ (8 * n) → (bits n v : Int) = v ∧ (v < 2 ^ (8 * n - 1) → bits n v < 2 ^ (8 * n - 1))) ∧
    (-2 ^ (8 * n - 1) ≤ v → v < 0 → (bits n v : Int) = v + 2 ^ (8 * n) ∧ 2 ^ (8 * n - 1) ≤ bits n v) := by
  unfold bits
  rcases hn with rfl | rfl | rfl | rfl <;> simp only [Nat.reduceMul, Nat.reduceSub, Nat.reducePow, Int.reducePow, Int.reduceNeg] <;> omega

/-- Bits and values, for types of 1 to 8 bytes. -/
theorem valueOf_bits (t : Target) (p : Ty) (hp : p ≠ .ldouble) (v : Int) (h : IsValue t p v) :
    valueOf t p (bits (size t p) v) = v ∧ bits (size t p) v < 256 ^ size t p ∧
      (signed t p = false → (bits (size t p) v : Int) = v) := by
  have hw : size t p = 1 ∨ size t p = 2 ∨ size t p = 4 ∨ size t p = 8 := by
    have : ∀ t ∈ Target.all, ∀ p ∈ Ty.all, p ≠ .ldouble → size t p = 1 ∨ size t p = 2 ∨ size t p = 4 ∨ size t p = 8 := by
      decide +kernel
    exact this t (mem_targets t) p (mem_types p) hp
  obtain ⟨h1, h2, h3⟩ := value_bits (size t p) hw v
  obtain ⟨hl, hh⟩ := h
  unfold lo at hl
  have hh' : v ≤ if signed t p then 2 ^ (8 * size t p - 1) - 1 else 2 ^ (8 * size t p) - 1 := by
    unfold hi at hh
    by_cases hb : p = .bool
    · subst hb; rw [if_pos rfl] at hh; simp only [signed, size]; simp; omega
    · rwa [if_neg hb] at hh
  unfold valueOf
  cases hs : signed t p
  · rw [hs] at hl hh'
    simp only [Bool.false_eq_true, if_false] at hl hh'
    refine ⟨?_, h1, fun _ => (h2 hl (by omega)).1⟩
    simp only [Bool.false_eq_true, false_and, if_false]
    exact (h2 hl (by omega)).1
  · rw [hs] at hl hh'
    simp only [if_true] at hl hh'
    refine ⟨?_, h1, nofun⟩
    by_cases h0 : 0 ≤ v
    · have hlt : v < 2 ^ (8 * size t p) := by
        have : (2 : Int) ^ (8 * size t p - 1) ≤ 2 ^ (8 * size t p) := by rcases hw with e | e | e | e <;> rw [e] <;> decide
        omega
      obtain ⟨e1, e2⟩ := h2 h0 hlt
      have := e2 (by omega)
      rw [if_neg (by omega), e1]
    · obtain ⟨e1, e2⟩ := h3 hl (by omega)
      rw [if_pos ⟨rfl, e2⟩, e1]; omega

/-- What there is to know about the writer's overloads, to be checked for one argument. -/
def writeRow (t : Target) (m : Mode) (a : Ty) : Bool :=
  match resolve t (m.set t) a with
  | none => !decide (WriterTakes t m a) && !decide (a ∈ m.set t)
  | some p => decide (WriterTakes t m a ∧ p ∈ m.set t ∧ p ≠ .ldouble ∧ lo t p ≤ lo t a ∧ hi t a ≤ hi t p ∧
      size t p = (if Widened t m a then 4 else size t a) ∧ (a ∈ m.set t → p = a))

theorem writeRow_all : ∀ t ∈ Target.all, ∀ m ∈ Mode.all, ∀ a ∈ Ty.all, writeRow t m a = true := by decide +kernel

theorem write_none {t : Target} {m : Mode} {a : Ty} (h : resolve t (m.set t) a = none) : ¬ WriterTakes t m a ∧ a ∉ m.set t := by
  have := writeRow_all t (mem_targets t) m (mem_modes m) a (mem_types a)
  rw [writeRow, h] at this
  simpa using this

theorem write_some {t : Target} {m : Mode} {a p : Ty} (h : resolve t (m.set t) a = some p) :
    WriterTakes t m a ∧ p ∈ m.set t ∧ p ≠ .ldouble ∧ lo t p ≤ lo t a ∧ hi t a ≤ hi t p ∧
      size t p = (if Widened t m a then 4 else size t a) ∧ (a ∈ m.set t → p = a) := by
  have := writeRow_all t (mem_targets t) m (mem_modes m) a (mem_types a)
  rw [writeRow, h] at this
  exact of_decide_eq_true this

theorem set_table (t : Target) (m : Mode) (a : Ty) : a ∈ m.set t ↔ ReaderTakes t m a := by
  have : ∀ t ∈ Target.all, ∀ m ∈ Mode.all, ∀ a ∈ Ty.all, a ∈ m.set t ↔ ReaderTakes t m a := by decide +kernel
  exact this t (mem_targets t) m (mem_modes m) a (mem_types a)

theorem set_width (t : Target) (m : Mode) (a : Ty) (h : a ∈ m.set t) : a ≠ .ldouble ∧ IsWidth (size t a) := by
  have : ∀ t ∈ Target.all, ∀ m ∈ Mode.all, ∀ a ∈ Ty.all, a ∈ m.set t →
      a ≠ .ldouble ∧ (size t a = 1 ∨ size t a = 2 ∨ size t a = 4 ∨ size t a = 8) := by decide +kernel
  exact this t (mem_targets t) m (mem_modes m) a (mem_types a) h

/-! ### Theorems -/

/-- **C146, what compiles** (full): which numbers the writer and the reader take on which target. -/
theorem C146_accepts (t : Target) (m : Mode) (a : Ty) (v : Int) :
    ((∃ i, compileWrite t m a v = some i) ↔ WriterTakes t m a) ∧ ((∃ i, compileRead t m a v = some i) ↔ ReaderTakes t m a) := by
  constructor
  · rw [compileWrite]
    cases h : resolve t (m.set t) a with
    | none => simp [(write_none h).1]
    | some p => simp [(write_some h).1]
  · rw [compileRead, ← set_table]
    by_cases h : a ∈ m.set t <;> simp [h]

-- `size_t` on Linux, `size_t` on macOS.
example : WriterTakes ⟨.lp64, true, true, true, false⟩ .le .ulong ∧ ¬ WriterTakes ⟨.lp64LL, true, true, true, false⟩ .le .ulong := by
  decide

/-- **C146, values are kept** (full): every number that the writer takes can be read back: there is a type whose variables the reader
takes, of the width in which the number was written, and the bits read as a value of that type are the number. -/
theorem C146_value_kept (t : Target) (m : Mode) (a : Ty) (v old : Int) (hv : IsValue t a v) (i : Item)
    (h : compileWrite t m a v = some i) :
    ∃ p j, compileRead t m p old = some j ∧ Record.Same i j ∧ Record.Fits i ∧ readBack t p i = v ∧ IsValue t p v := by
  rw [compileWrite] at h
  cases hr : resolve t (m.set t) a with
  | none => rw [hr] at h; cases h
  | some p =>
    rw [hr] at h
    have h := (Option.some.inj h).symm
    obtain ⟨-, h2, h3, h4, h5, -, -⟩ := write_some hr
    have hp : IsValue t p v := ⟨Int.le_trans h4 hv.1, Int.le_trans hv.2 h5⟩
    obtain ⟨e1, e2, -⟩ := valueOf_bits t p h3 v hp
    have hw := (set_width t m p h2).2
    refine ⟨p, m.item (size t p) (bits (size t p) old), by rw [compileRead, if_pos h2], ?_, ?_, ?_, hp⟩
    · rw [h]; cases m <;> exact rfl
    · rw [h]; cases m <;> exact ⟨hw, e2⟩
    · rw [h]; cases m <;> exact e1

-- 'a' written with `writeLE` on Linux.
example : IsValue ⟨.lp64, true, true, true, false⟩ .char 97 ∧
    compileWrite ⟨.lp64, true, true, true, false⟩ .le .char 97 = some (.le 4 97) := by decide +kernel

/-- **C146, the width**: a number is written in as many bytes as its type has (partial: the exceptions are exactly `bool`, `char16_t`,
a `wchar_t` of two bytes and, in `writeLE` and `writeBE`, `char`; these are written in four). -/
theorem C146_width_partial (t : Target) (m : Mode) (a : Ty) (v : Int) (i : Item) (h : compileWrite t m a v = some i) :
    Record.size i = (if Widened t m a then 4 else size t a) ∧ (Record.size i = size t a ↔ ¬ Widened t m a) := by
  rw [compileWrite] at h
  cases hr : resolve t (m.set t) a with
  | none => rw [hr] at h; cases h
  | some p =>
    rw [hr] at h
    have h := (Option.some.inj h).symm
    obtain ⟨-, -, -, -, -, h6, -⟩ := write_some hr
    have hs : Record.size i = size t p := by rw [h]; cases m <;> rfl
    have hne : Widened t m a → size t a ≠ 4 := by
      have : ∀ t ∈ Target.all, ∀ m ∈ Mode.all, ∀ a ∈ Ty.all, Widened t m a → size t a ≠ 4 := by decide +kernel
      exact this t (mem_targets t) m (mem_modes m) a (mem_types a)
    rw [hs, h6]
    refine ⟨rfl, ?_⟩
    by_cases hw : Widened t m a
    · rw [if_pos hw]; exact ⟨fun e => absurd e.symm (hne hw), fun e => absurd hw e⟩
    · rw [if_neg hw]; exact ⟨fun _ => hw, fun _ => rfl⟩

/-- **C146, negation**: a character written in a byte order takes four bytes where one written without takes one, and there is no
reader of characters for them. -/
theorem C146_char_four_bytes (t : Target) (ht : t.names ≠ .long4Is32) (v : Int) :
    (∃ i, compileWrite t .le .char v = some i ∧ Record.size i = 4) ∧ (∃ i, compileWrite t .be .char v = some i ∧ Record.size i = 4) ∧
    (∃ i, compileWrite t .host .char v = some i ∧ Record.size i = 1) ∧
    compileRead t .le .char v = none ∧ compileRead t .be .char v = none := by
  have go : ∀ m, WriterTakes t m .char → ∃ i, compileWrite t m .char v = some i ∧
      Record.size i = if Widened t m .char then 4 else size t .char := fun m hm => by
    obtain ⟨i, hi⟩ := (C146_accepts t m .char v).1.mpr hm
    exact ⟨i, hi, (C146_width_partial t m .char v i hi).1⟩
  have no : ∀ m, ¬ ReaderTakes t m .char → compileRead t m .char v = none := fun m hm => by
    cases h : compileRead t m .char v with
    | none => rfl
    | some i => exact absurd ((C146_accepts t m .char v).2.mp ⟨i, h⟩) hm
  exact ⟨go .le (.inr ht), go .be (.inr ht), go .host (.inl rfl), no .le (by simp [ReaderTakes]), no .be (by simp [ReaderTakes])⟩

/-- **C146, records** (full): a program that writes numbers of types the reader takes and another, on any target on which the types have
the same size and sign, that reads them into variables of the same types: all variables get the numbers written. The byte orders of
the targets may differ if only `writeLE` and `writeBE` are used. -/
theorem C146_round_trip (tw tr : Target) (fs : List (Mode × Ty × Int)) (old : Int) (buf : List Byte)
    (hv : ∀ f ∈ fs, IsValue tw f.2.1 f.2.2 ∧ ReaderTakes tw f.1 f.2.1 ∧ ReaderTakes tr f.1 f.2.1 ∧
      size tw f.2.1 = size tr f.2.1 ∧ signed tw f.2.1 = signed tr f.2.1)
    (hroom : (fs.map fun f => size tw f.2.1).sum ≤ buf.length) (hb : buf.length < 2 ^ 64)
    (hh : tw.big = tr.big ∨ ∀ f ∈ fs, f.1 ≠ .host) :
    ∃ w r, writeAll tw (ByteWriter.ofBuffer buf) fs = some (w, .ok ()) ∧
      readAll tr (ByteReader.ofView w.viewWritten) (fs.map fun f => (f.1, f.2.1, old)) = some (r, fs.map (·.2.2), .ok ()) ∧
      r.remaining = 0 ∧ w.viewWritten.length = (fs.map fun f => size tw f.2.1).sum := by
  let enc (f : Mode × Ty × Int) : Item := f.1.item (size tw f.2.1) (bits (size tw f.2.1) f.2.2)
  let dec (f : Mode × Ty × Int) : Item := f.1.item (size tr f.2.1) (bits (size tr f.2.1) old)
  have hc : ∀ f ∈ fs, compileWrite tw f.1 f.2.1 f.2.2 = some (enc f) := by
    intro f hf
    have hm := (set_table tw f.1 f.2.1).mpr (hv f hf).2.1
    rw [compileWrite]
    cases hr : resolve tw (f.1.set tw) f.2.1 with
    | none => exact absurd hm (write_none hr).2
    | some p => rw [(write_some hr).2.2.2.2.2.2 hm]; rfl
  have hd : ∀ f ∈ fs, compileRead tr f.1 f.2.1 old = some (dec f) := by
    intro f hf
    rw [compileRead, if_pos ((set_table tr f.1 f.2.1).mpr (hv f hf).2.2.1)]
  have mw : ∀ l : List (Mode × Ty × Int), (∀ f ∈ l, compileWrite tw f.1 f.2.1 f.2.2 = some (enc f)) →
      (l.mapM fun (m, ty, v) => compileWrite tw m ty v) = some (l.map enc) := by
    intro l
    induction l with
    | nil => intro _; rfl
    | cons f l ih =>
      intro h
      rw [List.mapM_cons, ih fun g hg => h g (List.mem_cons_of_mem _ hg)]
      have := h f (List.mem_cons_self ..)
      simp only [this]; rfl
  have mr : ∀ l : List (Mode × Ty × Int), (∀ f ∈ l, compileRead tr f.1 f.2.1 old = some (dec f)) →
      ((l.map fun f => (f.1, f.2.1, old)).mapM fun (m, ty, v) => compileRead tr m ty v) = some (l.map dec) := by
    intro l
    induction l with
    | nil => intro _; rfl
    | cons f l ih =>
      intro h
      rw [List.map_cons, List.mapM_cons, ih fun g hg => h g (List.mem_cons_of_mem _ hg)]
      have := h f (List.mem_cons_self ..)
      simp only [this]; rfl
  have hsz : ∀ l : List (Mode × Ty × Int), Record.total (l.map enc) = (l.map fun f => size tw f.2.1).sum := by
    intro l
    induction l with
    | nil => rfl
    | cons f l ih =>
      rw [Record.total] at ih ⊢
      simp only [List.map_cons, List.sum_cons, ih]
      congr 1
      show Record.size (f.1.item _ _) = _
      cases f.1 <;> rfl
  have hval : ∀ f ∈ fs, f.2.1 ≠ .ldouble ∧ IsWidth (size tw f.2.1) := fun f hf =>
    set_width tw f.1 f.2.1 ((set_table tw f.1 f.2.1).mpr (hv f hf).2.1)
  have hfit : ∀ i ∈ fs.map enc, Record.Fits i := by
    intro i hi
    obtain ⟨f, hf, rfl⟩ := List.mem_map.mp hi
    have h1 := hval f hf
    have h2 := (valueOf_bits tw f.2.1 h1.1 f.2.2 (hv f hf).1).2.1
    show Record.Fits (f.1.item _ _)
    cases f.1 <;> exact ⟨h1.2, h2⟩
  have hsame : Record.All2 Record.Same (fs.map enc) (fs.map dec) := by
    have : ∀ l : List (Mode × Ty × Int), (∀ f ∈ l, size tw f.2.1 = size tr f.2.1) →
        Record.All2 Record.Same (l.map enc) (l.map dec) := by
      intro l
      induction l with
      | nil => intro _; exact .nil
      | cons f l ih =>
        intro h
        refine .cons ?_ (ih fun g hg => h g (List.mem_cons_of_mem _ hg))
        have := h f (List.mem_cons_self ..)
        show Record.Same (f.1.item _ _) (f.1.item _ _)
        cases f.1 <;> exact this
    exact this fs fun f hf => (hv f hf).2.2.2.1
  have hnh : tw.big = tr.big ∨ ∀ n v, Item.host n v ∉ fs.map enc := by
    refine hh.imp id fun h n v hm => ?_
    obtain ⟨f, hf, e⟩ := List.mem_map.mp hm
    have := h f hf
    change f.1.item _ _ = _ at e
    revert e this
    cases f.1 <;> intro this e
    · exact this rfl
    · cases e
    · cases e
  obtain ⟨w, r, h1, h2, h3⟩ := Record.C107_round_trip tw.big tr.big (fs.map enc) (fs.map dec) buf hfit hsame
    (by rw [hsz]; exact hroom) hb hnh
  obtain ⟨w', bs, k1, k2, -, k4, k5, -⟩ := Record.C107_written tw.big (fs.map enc) (ByteWriter.ofBuffer buf)
    ⟨Nat.zero_le _, Nat.le_refl _, hb⟩ (by rw [hsz]; show 0 + _ ≤ buf.length; omega)
  rw [h1] at k1
  cases k1
  refine ⟨w, r, ?_, ?_, h3, ?_⟩
  · rw [writeAll, mw fs hc, Option.map_some, h1]
  · rw [readAll, mr fs hd, Option.map_some, h2]
    simp only [Option.some.injEq, Prod.mk.injEq, true_and, and_true]
    have : ∀ l : List (Mode × Ty × Int), (∀ f ∈ l, readBack tr f.2.1 (enc f) = f.2.2) →
        List.zipWith (fun (x : Mode × Ty × Int) i => readBack tr x.2.1 i) (l.map fun f => (f.1, f.2.1, old)) (l.map enc) =
          l.map (·.2.2) := by
      intro l
      induction l with
      | nil => intro _; rfl
      | cons f l ih =>
        intro h
        simp only [List.map_cons, List.zipWith_cons_cons]
        rw [ih fun g hg => h g (List.mem_cons_of_mem _ hg), h f (List.mem_cons_self ..)]
    refine this fs fun f hf => ?_
    have e1 := (valueOf_bits tw f.2.1 (hval f hf).1 f.2.2 (hv f hf).1).1
    have : valueOf tr f.2.1 = valueOf tw f.2.1 := by
      funext n
      unfold valueOf
      rw [(hv f hf).2.2.2.1, (hv f hf).2.2.2.2]
    show readBack tr f.2.1 (f.1.item _ _) = _
    refine Eq.trans ?_ e1
    rw [← this]
    cases f.1 <;> rfl
  · rw [k4, Record.viewWritten_ofBuffer, List.nil_append, Record.text_unique k2, Record.encs_length, hsz]

-- A record of an `unsigned short`, an `int` and a `long long`, written on Windows and read on a big-endian Mac.
example : let tw : Target := ⟨.long4, true, false, false, false⟩
    let tr : Target := ⟨.lp64LL, true, true, true, true⟩
    ∀ f ∈ [(Mode.be, Ty.ushort, (65535 : Int)), (.be, .int, -5), (.le, .llong, -9223372036854775808)],
      IsValue tw f.2.1 f.2.2 ∧ ReaderTakes tw f.1 f.2.1 ∧ ReaderTakes tr f.1 f.2.1 ∧
      size tw f.2.1 = size tr f.2.1 ∧ signed tw f.2.1 = signed tr f.2.1 := by decide +kernel

/-- **C146, every target writes the same** (full): a number given to `writeLE` or `writeBE` is written as the same bytes on any two targets
on which the call compiles, except that a `long` or `unsigned long` is written in the bytes it has. -/
theorem C146_same_bytes (t u : Target) (m : Mode) (hm : m ≠ .host) (a : Ty) (v : Int) (i j : Item)
    (hi : compileWrite t m a v = some i) (hj : compileWrite u m a v = some j) :
    (a ≠ .long ∧ a ≠ .ulong ∨ size t a = size u a) ↔ i = j := by
  rw [compileWrite] at hi hj
  cases hr : resolve t (m.set t) a with
  | none => rw [hr] at hi; cases hi
  | some p =>
    cases hs : resolve u (m.set u) a with
    | none => rw [hs] at hj; cases hj
    | some q =>
      rw [hr] at hi
      rw [hs] at hj
      have hi := (Option.some.inj hi).symm
      have hj := (Option.some.inj hj).symm
      dsimp only at hi hj
      have h6 := (write_some hr).2.2.2.2.2.1
      have k6 := (write_some hs).2.2.2.2.2.1
      have key : ∀ m ∈ Mode.all, m ≠ .host → ∀ a ∈ Ty.all, ∀ t ∈ Target.all, ¬ (a = .long ∨ a = .ulong) →
          (if Widened t m a then 4 else size t a) =
            (if Widened ⟨.lp64, true, true, true, true⟩ m a then 4 else size ⟨.lp64, true, true, true, true⟩ a) := by
        decide +kernel
      have klong : ∀ m ∈ Mode.all, ∀ t ∈ Target.all, ∀ a ∈ [Ty.long, Ty.ulong], ¬ Widened t m a := by decide +kernel
      have inj : ∀ x y x' y', m.item x y = m.item x' y' → x = x' := by
        cases m <;> intro x y x' y' e <;> injection e
      constructor
      · intro h
        have : size t p = size u q := by
          rw [h6, k6]
          by_cases hl : a = .long ∨ a = .ulong
          · have hmem : a ∈ [Ty.long, Ty.ulong] := by simpa using hl
            rw [if_neg (klong m (mem_modes m) t (mem_targets t) a hmem), if_neg (klong m (mem_modes m) u (mem_targets u) a hmem)]
            rcases h with h | h
            · rcases hl with e | e
              · exact absurd e h.1
              · exact absurd e h.2
            · exact h
          · rw [key m (mem_modes m) hm a (mem_types a) t (mem_targets t) hl,
              key m (mem_modes m) hm a (mem_types a) u (mem_targets u) hl]
        rw [hi, hj, this]
      · intro e
        by_cases hl : a = .long ∨ a = .ulong
        · right
          have hmem : a ∈ [Ty.long, Ty.ulong] := by simpa using hl
          rw [hi, hj] at e
          have := inj _ _ _ _ e
          rw [h6, k6, if_neg (klong m (mem_modes m) t (mem_targets t) a hmem),
            if_neg (klong m (mem_modes m) u (mem_targets u) a hmem)] at this
          exact this
        · exact .inl ⟨fun e => hl (.inl e), fun e => hl (.inr e)⟩

-- `wchar_t` is 2 bytes on Windows and 4 on Linux; both write 4.
example : compileWrite ⟨.long4, true, false, false, false⟩ .be .wchar 8364 = some (.be 4 8364) ∧
    compileWrite ⟨.lp64, true, true, true, false⟩ .be .wchar 8364 = some (.be 4 8364) := by decide +kernel

/-! ### String builders and characters -/

/-- Which numbers `append` takes. -/
def BuilderTakes (t : Target) : Ty → Prop
  | .char | .ushort => True
  | .uint | .char32 => t.names ≠ .long4Is32
  | .wchar => t.names ≠ .long4Is32 ∧ t.wchar4 = true ∧ t.wcharSigned = false
  | .ulong => t.names = .lp64 ∨ t.names = .long4Is32
  | .ullong => t.names ≠ .lp64
  | _ => False

instance (t : Target) (ty : Ty) : Decidable (BuilderTakes t ty) := by
  cases ty <;> unfold BuilderTakes <;> infer_instance

/-- What there is to know about `append`, `measureFormatted` and `Char` for one argument. -/
def builderRow (t : Target) (a : Ty) : Bool :=
  (match resolve t (appendSet t) a with
  | none => !decide (BuilderTakes t a)
  | some p => decide (BuilderTakes t a ∧ p ≠ .ldouble ∧ lo t p ≤ lo t a ∧ hi t a ≤ hi t p ∧ (a = .char ↔ p = .char) ∧
      (p ≠ .char → signed t p = false ∧ size t p ≤ 8 ∧ resolve t (measureSet t) a = some p)))

theorem builderRow_all : ∀ t ∈ Target.all, ∀ a ∈ Ty.all, builderRow t a = true := by decide +kernel

theorem append_none {t : Target} {a : Ty} (h : resolve t (appendSet t) a = none) : ¬ BuilderTakes t a := by
  have := builderRow_all t (mem_targets t) a (mem_types a)
  rw [builderRow, h] at this
  simpa using this

theorem append_some {t : Target} {a p : Ty} (h : resolve t (appendSet t) a = some p) :
    BuilderTakes t a ∧ p ≠ .ldouble ∧ lo t p ≤ lo t a ∧ hi t a ≤ hi t p ∧ (a = .char ↔ p = .char) ∧
      (p ≠ .char → signed t p = false ∧ size t p ≤ 8 ∧ resolve t (measureSet t) a = some p) := by
  have := builderRow_all t (mem_targets t) a (mem_types a)
  rw [builderRow, h] at this
  exact of_decide_eq_true this

/-- **C146, appending** (full): a builder takes exactly the types of the table; a `char` is appended as the character with its bits,
all others as decimal numbers, and `measureFormatted` takes these too and announces their text. -/
theorem C146_append (t : Target) (a : Ty) (v : Int) (hv : IsValue t a v) :
    ((∃ i, compileAppend t a v = some i) ↔ BuilderTakes t a) ∧
    ∀ i, compileAppend t a v = some i →
      (a = .char → ∃ c : Byte, i = .char c ∧ (c.toNat : Int) % 256 = v % 256) ∧
      (a ≠ .char → ∃ n : Nat, (n : Int) = v ∧ n < 2 ^ 64 ∧ i = .number n ∧
        ∀ text, Decimal.IsDecimal n text → compileMeasure t a v = some text.length) := by
  rw [compileAppend]
  cases hr : resolve t (appendSet t) a with
  | none => exact ⟨by simp [append_none hr], nofun⟩
  | some p =>
    obtain ⟨h1, h2, h3, h4, h5, h6⟩ := append_some hr
    refine ⟨by simp [h1], fun i hi => ?_⟩
    have hi := (Option.some.inj hi).symm
    dsimp only at hi
    have hp : IsValue t p v := ⟨Int.le_trans h3 hv.1, Int.le_trans hv.2 h4⟩
    obtain ⟨e1, e2, e3⟩ := valueOf_bits t p h2 v hp
    refine ⟨fun e => ?_, fun e => ?_⟩
    · have e := h5.mp e
      rw [if_pos e] at hi
      refine ⟨_, hi, ?_⟩
      rw [BitVec.toNat_ofNat, bits]
      simp only [Nat.mul_one, Int.reducePow, Nat.reducePow]
      omega
    · have hpc : p ≠ .char := fun h => e (h5.mpr h)
      obtain ⟨k1, k2, k3⟩ := h6 hpc
      rw [if_neg hpc] at hi
      have hlt : bits (size t p) v < 2 ^ 64 := by
        refine Nat.lt_of_lt_of_le e2 ?_
        have : 256 ^ size t p ≤ 256 ^ 8 := Nat.pow_le_pow_right (by decide) k2
        exact this
      refine ⟨bits (size t p) v, e3 k1, hlt, hi, fun text ht => ?_⟩
      rw [compileMeasure, k3, Option.map_some, k1]
      rw [if_neg (by simp), StringBuilder.C105_unsigned _ hlt text ht]

example : IsValue ⟨.lp64, true, true, true, false⟩ .ulong 18446744073709551615 ∧
    BuilderTakes ⟨.lp64, true, true, true, false⟩ .ulong := by decide +kernel

/-- **C146, negation**: `append` of a character of type `char32_t` appends its number, not the character; of `char16_t`, of any signed
number, of a byte and of a truth value it does not compile. -/
theorem C146_code_point_printed (t : Target) (ht : t.names ≠ .long4Is32) (v : Nat) (hv : v < 2 ^ 32) :
    compileAppend t .char32 v = some (.number v) ∧
    ∀ a ∈ [Ty.bool, .schar, .uchar, .short, .int, .long, .llong, .char16, .float, .double, .ldouble], ∀ w, compileAppend t a w = none := by
  constructor
  · have hval : IsValue t .char32 v := by
      constructor
      · show (if signed t .char32 then _ else (0 : Int)) ≤ v
        rw [show signed t .char32 = false from rfl]; simp
      · show (v : Int) ≤ (if Ty.char32 = .bool then 1 else if signed t .char32 then _ else _)
        rw [show signed t .char32 = false from rfl]
        simp [size]; omega
    obtain ⟨h1, h2⟩ := C146_append t .char32 v hval
    obtain ⟨i, hi⟩ := h1.mpr ht
    obtain ⟨n, hn, -, e, -⟩ := (h2 i hi).2 (by decide)
    rw [hi, e]
    congr 2
    omega
  · intro a ha w
    rw [compileAppend]
    cases hr : resolve t (appendSet t) a with
    | none => rfl
    | some p =>
      have := (append_some hr).1
      simp only [List.mem_cons, List.not_mem_nil, or_false] at ha
      rcases ha with rfl | rfl | rfl | rfl | rfl | rfl | rfl | rfl | rfl | rfl | rfl <;> exact this.elim

/-- **C146, `measure`**: it takes every number for a character and announces 1, also where `append` prints the number. -/
theorem C146_measure_one (t : Target) (a : Ty) : compileMeasureChar t a = some 1 := by
  have : ∀ t ∈ Target.all, ∀ a ∈ Ty.all, compileMeasureChar t a = some 1 := by decide +kernel
  exact this t (mem_targets t) a (mem_types a)

/-- Which numbers make a `Char`. -/
def CharTakes (t : Target) : Ty → Prop
  | .char | .uchar => True
  | .uint | .char32 => t.names ≠ .long4Is32
  | .ulong => t.names = .long4Is32
  | .wchar => t.names ≠ .long4Is32 ∧ t.wchar4 = true ∧ t.wcharSigned = false
  | _ => False

instance (t : Target) (ty : Ty) : Decidable (CharTakes t ty) := by
  cases ty <;> unfold CharTakes <;> infer_instance

def charRow (t : Target) (a : Ty) : Bool :=
  match resolve t (charSet t) a with
  | none => !decide (CharTakes t a)
  | some p => decide (CharTakes t a ∧ lo t p ≤ lo t a ∧ hi t a ≤ hi t p ∧ (p = uint32 t ↔ a ≠ .char ∧ a ≠ .uchar) ∧
      (p = uint32 t → lo t p = 0 ∧ hi t p = 2 ^ 32 - 1) ∧ (a = .uchar → lo t a = 0 ∧ hi t a = 255))

theorem charRow_all : ∀ t ∈ Target.all, ∀ a ∈ Ty.all, charRow t a = true := by decide +kernel

/-- **C146, characters** (full): a `Char` is made of exactly the numbers of the table, of bytes as the character of that byte and of wider ones
with the number as its code value. -/
theorem C146_char (t : Target) (a : Ty) (v : Int) (hv : IsValue t a v) :
    ((∃ c, compileChar t a v = some c) ↔ CharTakes t a) ∧
    ∀ c, compileChar t a v = some c →
      (a = .char ∨ a = .uchar → ∃ b : Byte, c = Chr.ofByte b ∧ (b.toNat : Int) % 256 = v % 256) ∧
      (a ≠ .char → a ≠ .uchar → (c.value t.big : Int) = v) := by
  rw [compileChar]
  have hrow := charRow_all t (mem_targets t) a (mem_types a)
  rw [charRow] at hrow
  cases hr : resolve t (charSet t) a with
  | none => rw [hr] at hrow; exact ⟨by simpa using hrow, nofun⟩
  | some p =>
    rw [hr] at hrow
    obtain ⟨h1, h3, h4, h5, h6, h7⟩ := of_decide_eq_true hrow
    refine ⟨by simp [h1], fun c hc => ?_⟩
    have hc := (Option.some.inj hc).symm
    dsimp only at hc
    refine ⟨fun e => ?_, fun n1 n2 => ?_⟩
    · rw [if_neg (fun h => by rcases e with e | e; exact (h5.mp h).1 e; exact (h5.mp h).2 e)] at hc
      refine ⟨_, hc, ?_⟩
      rw [BitVec.toNat_ofNat, bits]
      simp only [Nat.mul_one, Int.reducePow, Nat.reducePow]
      omega
    · have hp := h5.mpr ⟨n1, n2⟩
      rw [if_pos hp] at hc
      obtain ⟨l, h⟩ := h6 hp
      have hvp : lo t p ≤ v ∧ v ≤ hi t p := ⟨Int.le_trans h3 hv.1, Int.le_trans hv.2 h4⟩
      rw [l, h] at hvp
      obtain ⟨b1, b2, -⟩ := value_bits 4 (by decide) v
      rw [hc, (Chr.C71_order t.big (bits 4 v) 0 b1 (by decide)).1]
      exact (b2 hvp.1 (by omega)).1

example : CharTakes ⟨.lp64, false, false, true, false⟩ .wchar ∧ ¬ CharTakes ⟨.lp64, true, true, true, false⟩ .int := by decide

/-- **C146, the bytes**: `writeLE` stores the bits of the number from the lowest byte, `writeBE` from the highest, `write` as the host does. -/
theorem C146_order (t : Target) (m : Mode) (a : Ty) (v : Int) (i : Item) (h : compileWrite t m a v = some i) (bs : List Byte) :
    Record.Bytes t.big i bs ↔
      if m = .be ∨ m = .host ∧ t.big = true then IsBigEndian (Record.size i) (v % 2 ^ (8 * Record.size i)).toNat bs
      else IsLittleEndian (Record.size i) (v % 2 ^ (8 * Record.size i)).toNat bs := by
  rw [compileWrite] at h
  cases hr : resolve t (m.set t) a with
  | none => rw [hr] at h; cases h
  | some p =>
    rw [hr] at h
    have h := (Option.some.inj h).symm
    subst h
    cases m <;> simp [Mode.item, Record.Bytes, Record.size, bits]

end Solace.Over
