import Verif.Model.CharObject
import Verif.Props.C71_C74_Char
/-
C100: characters keep their bytes through copying, swapping and assignment, and `c_str` is these bytes.
-/
namespace Solace.CharObj

/-! ### Specification: variables that hold four bytes each -/

/-- The first four of the bytes followed by zeros. -/
def fourOf (bs : List Byte) : List Byte := (bs ++ [0#8, 0#8, 0#8, 0#8]).take 4

/-- What a program does to the values: new variables are appended; a copy or an assigned variable has the value of the source;
move assignment and swap exchange values. -/
def valuesStep (big : Bool) (vs : List (List Byte)) : Op → List (List Byte)
  | .nothing => vs ++ [fourOf []]
  | .byte c => vs ++ [fourOf [c]]
  | .char c => vs ++ [fourOf [c]]
  | .value v => vs ++ [hostRepr big 4 v]
  | .bytes bs => vs ++ [fourOf bs]
  | .copy i => vs ++ (vs[i]?).toList
  | .swap i j => if i < vs.length ∧ j < vs.length then (vs.set i (vs[j]?.getD [])).set j (vs[i]?.getD []) else vs
  | .assignMove i j => if i < vs.length ∧ j < vs.length then (vs.set i (vs[j]?.getD [])).set j (vs[i]?.getD []) else vs
  | .assignCopy i j => if i < vs.length ∧ j < vs.length then vs.set i (vs[j]?.getD []) else vs

/-- Which variables were made with a zero behind their four bytes (`some true`), with another byte (`some false`), or with nothing:
decided by the constructor alone. -/
def tailsStep (ts : List (Option Bool)) (n : Nat) : Op → List (Option Bool)
  | .nothing => ts ++ [none]
  | .byte _ => ts ++ [none]
  | .char _ => ts ++ [some true]
  | .value _ => ts ++ [none]
  | .bytes bs => ts ++ [some (decide (bs.length ≤ 4) || bs[4]? == some 0#8)]
  | .copy i => if i < n then ts ++ [none] else ts
  | _ => ts

/-- All byte views fit in the object. -/
def Fits (ops : List Op) : Prop := ∀ bs, Op.bytes bs ∈ ops → bs.length ≤ 5

def values (s : Store) : List (List Byte) := s.map (·.chr.bytes)
def tails (s : Store) : List (Option Bool) := s.map fun o => o.fifth.map (· == 0#8)

/-! ### Proofs -/

theorem map_modify_chr (s : Store) (i : Nat) (c : Chr) :
    values (s.modify i fun o => { o with chr := c }) = (values s).set i c.bytes ∧
      tails (s.modify i fun o => { o with chr := c }) = tails s := by
  constructor
  · apply List.ext_getElem?
    intro k
    simp only [values, List.getElem?_map, List.getElem?_modify, List.getElem?_set, List.length_map]
    by_cases e : i = k
    · subst e
      by_cases h : i < s.length
      · simp [h]
      · simp [h]
    · simp [e]
  · apply List.ext_getElem?
    intro k
    simp only [tails, List.getElem?_map, List.getElem?_modify]
    by_cases e : i = k
    · subst e
      by_cases h : i < s.length
      · simp [h]
      · simp [h]
    · simp [e]

theorem set_eq_modify (s : Store) (i : Nat) (a : Obj) (h : s[i]? = some a) (c : Chr) :
    s.set i { a with chr := c } = s.modify i fun o => { o with chr := c } := by
  apply List.ext_getElem?
  intro k
  rw [List.getElem?_set, List.getElem?_modify]
  by_cases e : i = k
  · subst e
    obtain ⟨hl, he⟩ := List.getElem?_eq_some_iff.mp h
    subst he
    simp [hl]
  · simp [e]

theorem swap_spec (s : Store) (i j : Nat) :
    values (swap s i j) = (if i < (values s).length ∧ j < (values s).length then
        ((values s).set i ((values s)[j]?.getD [])).set j ((values s)[i]?.getD []) else values s) ∧
      tails (swap s i j) = tails s := by
  have hlen : (values s).length = s.length := by simp [values]
  unfold swap
  split
  · rename_i a b ha hb
    have hi := (List.getElem?_eq_some_iff.mp ha).1
    have hj := (List.getElem?_eq_some_iff.mp hb).1
    rw [set_eq_modify s i a ha]
    have h1 := map_modify_chr s i b.chr
    have h2 := map_modify_chr (s.modify i fun o => { o with chr := b.chr }) j a.chr
    rw [h2.1, h2.2, h1.1, h1.2, hlen, if_pos ⟨hi, hj⟩]
    simp [values, ha, hb]
  · rename_i h
    refine ⟨?_, rfl⟩
    rw [hlen, if_neg]
    rintro ⟨hi, hj⟩
    exact h s[i] s[j] (List.getElem?_eq_getElem hi) (List.getElem?_eq_getElem hj)

theorem assignCopy_spec (s : Store) (i j : Nat) :
    values (assignCopy s i j) = (if i < (values s).length ∧ j < (values s).length then
        (values s).set i ((values s)[j]?.getD []) else values s) ∧
      tails (assignCopy s i j) = tails s := by
  have hlen : (values s).length = s.length := by simp [values]
  unfold assignCopy
  split
  · rename_i a b ha hb
    have hi := (List.getElem?_eq_some_iff.mp ha).1
    have hj := (List.getElem?_eq_some_iff.mp hb).1
    have h1 := map_modify_chr s i (copy b).chr
    rw [h1.1, h1.2, hlen, if_pos ⟨hi, hj⟩]
    simp [values, hb, copy]
  · rename_i h
    refine ⟨?_, rfl⟩
    rw [hlen, if_neg]
    rintro ⟨hi, hj⟩
    exact h s[i] s[j] (List.getElem?_eq_getElem hi) (List.getElem?_eq_getElem hj)

theorem ofBytes_spec (bs : List Byte) (h : bs.length ≤ 5) :
    ∃ o, ofBytes bs = .ok o ∧ o.chr.bytes = fourOf bs ∧
      o.fifth.map (· == 0#8) = some (decide (bs.length ≤ 4) || bs[4]? == some 0#8) := by
  refine ⟨⟨⟨(bs ++ List.replicate 5 0#8).take 4⟩, some ((bs[4]?).getD 0#8)⟩, ?_, ?_, ?_⟩
  · unfold ofBytes Chr.ofBytes
    rw [if_pos h]
    rfl
  · show (bs ++ List.replicate 5 0#8).take 4 = (bs ++ [0#8, 0#8, 0#8, 0#8]).take 4
    match bs, h with
    | [], _ => rfl
    | [_], _ => rfl
    | [_, _], _ => rfl
    | [_, _, _], _ => rfl
    | [_, _, _, _], _ => rfl
    | [_, _, _, _, _], _ => rfl
  · match bs, h with
    | [], _ => rfl
    | [_], _ => rfl
    | [_, _], _ => rfl
    | [_, _, _], _ => rfl
    | [_, _, _, _], _ => rfl
    | [_, _, _, _, e], _ => simp

theorem step_spec (big : Bool) (s : Store) (op : Op) (h : ∀ bs, op = .bytes bs → bs.length ≤ 5) :
    ∃ s', step big s op = .ok s' ∧ values s' = valuesStep big (values s) op ∧ tails s' = tailsStep (tails s) s.length op := by
  have push : ∀ o : Obj, values (s ++ [o]) = values s ++ [o.chr.bytes] ∧ tails (s ++ [o]) = tails s ++ [o.fifth.map (· == 0#8)] :=
    fun o => ⟨by simp [values], by simp [tails]⟩
  cases op with
  | nothing => exact ⟨_, rfl, push _⟩
  | byte c => exact ⟨_, rfl, push _⟩
  | char c => exact ⟨_, rfl, push _⟩
  | value v => exact ⟨_, rfl, push _⟩
  | bytes bs =>
    obtain ⟨o, h1, h2, h3⟩ := ofBytes_spec bs (h bs rfl)
    refine ⟨s ++ [o], ?_, ?_, ?_⟩
    · show (ofBytes bs >>= fun o => pure (s ++ [o])) = _
      rw [h1]
      rfl
    · rw [(push o).1, h2]; rfl
    · rw [(push o).2, h3]; rfl
  | copy i =>
    show ∃ s', (match s[i]? with | some o => Outcome.ok (s ++ [CharObj.copy o]) | none => .ok s) = .ok s' ∧ _
    cases hi : s[i]? with
    | none =>
      refine ⟨s, rfl, ?_, ?_⟩
      · simp [valuesStep, values, hi]
      · rw [tailsStep, if_neg]
        exact Nat.not_lt.mpr (List.getElem?_eq_none_iff.mp hi)
    | some o =>
      refine ⟨_, rfl, ?_, ?_⟩
      · rw [(push _).1]
        simp [valuesStep, values, hi, copy]
      · rw [(push _).2, tailsStep, if_pos (List.getElem?_eq_some_iff.mp hi).1]
        rfl
  | swap i j => exact ⟨_, rfl, swap_spec s i j⟩
  | assignMove i j => exact ⟨_, rfl, swap_spec s i j⟩
  | assignCopy i j => exact ⟨_, rfl, assignCopy_spec s i j⟩

/-- The specification, run over a program. -/
def specRun (big : Bool) (vs : List (List Byte)) (ts : List (Option Bool)) : List Op → List (List Byte) × List (Option Bool)
  | [] => (vs, ts)
  | op :: ops => specRun big (valuesStep big vs op) (tailsStep ts vs.length op) ops

/-- **C100** (full): in every program (views of at most five bytes; longer ones are undefined, C71) the variables have the values the
specification gives, and the byte behind them is the constructor's. -/
theorem C100_values (big : Bool) (ops : List Op) (h : Fits ops) :
    ∃ s, run big [] ops = .ok s ∧ (s.map (·.chr.bytes), s.map fun o => o.fifth.map (· == 0#8)) = specRun big [] [] ops := by
  have key : ∀ (ops : List Op) (s : Store), Fits ops →
      ∃ s', run big s ops = .ok s' ∧ (values s', tails s') = specRun big (values s) (tails s) ops := by
    intro ops
    induction ops with
    | nil => intro s _; exact ⟨s, rfl, rfl⟩
    | cons op ops ih =>
      intro s hf
      obtain ⟨s1, h1, h2, h3⟩ := step_spec big s op (fun bs e => hf bs (by simp [e]))
      obtain ⟨s2, h4, h5⟩ := ih s1 (fun bs hb => hf bs (by simp [hb]))
      refine ⟨s2, ?_, ?_⟩
      · rw [run, h1]; exact h4
      · rw [h5, h2, h3, specRun, show (values s).length = s.length by simp [values]]
  exact key ops [] h

theorem takeWhile_of_not_mem (l : List Byte) (h : 0#8 ∉ l) : l.takeWhile (· != 0#8) = l := by
  induction l with
  | nil => rfl
  | cons b l ih =>
    have hb : b ≠ 0#8 := fun e => h (by simp [e])
    rw [List.takeWhile_cons, if_pos (by simpa using hb), ih (fun e => h (by simp [e]))]

/-- **C100**: exactly when reading `c_str` is defined, and then it is the bytes `getBytes` shows. -/
theorem C100_cstr (o : Obj) :
    cStr o = if 0#8 ∈ o.chr.bytes ∨ o.fifth = some 0#8 then .ok o.chr.getBytes else .ub := by
  have hg : o.chr.getBytes = o.chr.bytes.takeWhile (· != 0#8) := Chr.getBytes_takeWhile o.chr.bytes
  unfold cStr
  by_cases h : 0#8 ∈ o.chr.bytes
  · rw [if_pos h, if_pos (.inl h), hg]
    congr 2
    funext b
    by_cases e : b = 0#8 <;> simp [e]
  · rw [if_neg h, hg, takeWhile_of_not_mem _ h]
    cases ho : o.fifth with
    | none => simp [h]
    | some b =>
      simp only [Option.some.injEq, h, false_or]

/-- **C100** (partial: a character of fewer than four bytes): the C string is the bytes, however the object was copied, swapped and
assigned. Missing: four bytes, see the negation. -/
theorem C100_cstr_partial (o : Obj) (h : o.chr.getBytesCount < 4) (h4 : o.chr.bytes.length = 4) :
    cStr o = .ok o.chr.getBytes := by
  rw [C100_cstr, if_pos]
  left
  by_cases hm : 0#8 ∈ o.chr.bytes
  · exact hm
  · exfalso
    have := Chr.countFrom_no_zero o.chr.bytes [] hm
    unfold Chr.getBytesCount at h
    rw [this.2] at h
    omega

/-- **C100, negation**: the C string of a copy of a character of four bytes is undefined, and so is that of one made from its
number. -/
theorem C100_four_bytes (big : Bool) (o : Obj) (v : Nat) (h : 0#8 ∉ o.chr.bytes) (hv : 0#8 ∉ hostRepr big 4 v) :
    cStr (copy o) = .ub ∧ cStr (ofValue big v) = .ub := by
  constructor
  · rw [C100_cstr, if_neg]
    rintro (h' | h')
    · exact h h'
    · cases h'
  · rw [C100_cstr, if_neg]
    rintro (h' | h')
    · exact hv h'
    · cases h'

/-! Non-trivial cases. -/

/-- U+1F600 as UTF-8. -/
def smile : List Byte := [0xF0#8, 0x9F#8, 0x98#8, 0x80#8]

example : ∃ o, ofBytes smile = .ok o ∧ cStr o = .ok smile ∧ cStr (copy o) = .ub :=
  ⟨⟨⟨smile⟩, some 0#8⟩, by decide, by decide, by decide⟩
example : Fits [.bytes smile, .char 0x61#8, .assignCopy 1 0, .swap 0 1] := by
  intro bs h
  simp only [List.mem_cons, Op.bytes.injEq, List.not_mem_nil, reduceCtorEq, or_false] at h
  subst h
  decide
example : run false [] [.bytes smile, .byte 0x61#8, .assignMove 1 0] =
    .ok [⟨.ofByte 0x61#8, some 0#8⟩, ⟨⟨smile⟩, none⟩] := by decide
example : (0#8 : Byte) ∉ (⟨⟨smile⟩, some 0#8⟩ : Obj).chr.bytes ∧ (0#8 : Byte) ∉ hostRepr false 4 0x01020304 := by decide

end Solace.CharObj
