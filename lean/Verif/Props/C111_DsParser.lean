import Verif.Model.DsParser
import Verif.Spec.DsParser
import Verif.Props.C76_C82_Exact
/-
C111: the program examples/ds_parser.cpp.
-/
namespace Solace.DsParser
open Strings StringView Atom DialString Spec

theorem space_eq : Spec.space = StringView.isSpace := by
  funext c
  have hc := c.isLt
  rw [Spec.space, StringView.isSpace, Bool.eq_iff_iff]
  simp only [Bool.or_eq_true, Bool.and_eq_true, beq_iff_eq, decide_eq_true_eq, BitVec.le_def, ← BitVec.toNat_inj]
  exact Iff.rfl

theorem lit_chars (s : String) : Exn.lit s = Spec.chars s := rfl

theorem trim_of {s t : List Byte} (h : IsTrim Spec.space s t) : t = trim s := by
  rw [space_eq] at h; exact (C26_trim s t).mp h

/-- How the protocol is shown: the characters before a NUL, with the damage characters above 127 do in an atom (C40). -/
def shown (p : List Byte) : List Byte := canon (counted p)

/-- What the parser makes of a text, against what the text means. -/
theorem parse_means (data : List Byte) (hl : data.length < 2 ^ 16) (fuel : Nat) (hf : data.length < fuel) (r : Option Parts)
    (h : Means data r) :
    (r = none → ∃ e, parse fuel data = some (.error e)) ∧
    ∀ p, r = some p → ∃ ds, parse fuel data = some (.ok ds) ∧ Output.chars (toBuffer ds.protocol) = shown p.protocol ∧
      ds.address = p.address ∧ ds.service = p.service := by
  have key : ∀ p q rest, IsSplit [0x3A#8] data (p :: q :: rest) →
      parse fuel data = some (withProtocol (tryParse (trim p)) (trim q) (serviceOf rest)) := by
    intro p q rest hs
    obtain ⟨-, h2, -⟩ := C41_parse data hl fuel hf _ hs
    refine h2 ?_
    intro e
    obtain ⟨t, ht, -⟩ := hs
    rw [e] at ht
    simp at ht
  have good : ∀ p q rest, IsSplit [0x3A#8] data (p :: q :: rest) → (trim p).length ≤ 8 →
      ∃ ds, parse fuel data = some (.ok ds) ∧ Output.chars (toBuffer ds.protocol) = shown (trim p) ∧
      ds.address = trim q ∧ ds.service = serviceOf rest := by
    intro p q rest hs hle
    obtain ⟨a, -, ha, -, hb, -⟩ := C40_exact (trim p) [] hle (by simp)
    refine ⟨⟨a, trim q, serviceOf rest⟩, ?_, hb, rfl, rfl⟩
    rw [key p q rest hs, ha]; rfl
  cases h with
  | empty =>
    exact ⟨fun _ => ⟨_, (C41_parse [] (by simp) fuel hf [[]] ⟨rfl, fun i h => by
      obtain ⟨a, b, h, -⟩ := h; simp at h⟩).1 rfl⟩, fun p e => (by cases e)⟩
  | plain hne hc =>
    refine ⟨fun e => (by cases e), fun p e => ?_⟩
    cases e
    have hs : IsSplit [0x3A#8] data [data] := ⟨rfl, fun i h => hc ((occursAt_single _ _).mp ⟨i, h⟩)⟩
    exact ⟨⟨0#64, data, []⟩, (C41_parse data hl fuel hf _ hs).2.1 hne,
      (by decide : Output.chars (toBuffer 0#64) = shown []), rfl, rfl⟩
  | long hs ht h8 =>
    refine ⟨fun _ => ?_, fun p e => by cases e⟩
    rw [key _ _ _ hs, ← trim_of ht, tryParse, if_pos h8]
    exact ⟨_, rfl⟩
  | two hs ht h8 hq =>
    refine ⟨fun e => (by cases e), fun p e => ?_⟩
    cases e
    rw [trim_of ht] at h8
    rw [trim_of ht, trim_of hq]
    exact good _ _ _ hs h8
  | three hs ht h8 hq hr =>
    refine ⟨fun e => (by cases e), fun p e => ?_⟩
    cases e
    rw [trim_of ht] at h8
    rw [trim_of ht, trim_of hq, trim_of hr]
    exact good _ _ _ hs h8

/-- Every text means something, and one thing only. -/
theorem means_total (t : List Byte) : ∃ r, Means t r := by
  by_cases ht : t = []
  · exact ⟨none, ht ▸ .empty⟩
  by_cases hc : 0x3A#8 ∈ t
  · have hs := scan_spec [0x3A#8] t (by simp)
    have istrim : ∀ l, IsTrim Spec.space l (trim l) := fun l => by rw [space_eq]; exact (C26_trim l _).mpr rfl
    match hps : scan [0x3A#8] [] t, hs with
    | [p], hs =>
      obtain ⟨e, hno⟩ := hs
      obtain ⟨i, hi⟩ := (occursAt_single _ _).mpr hc
      exact absurd (e ▸ hi) (hno i)
    | [p, q], hs =>
      by_cases h8 : 8 < (trim p).length
      · exact ⟨_, .long hs (istrim p) h8⟩
      · exact ⟨_, .two hs (istrim p) (by omega) (istrim q)⟩
    | p :: q :: r :: rest, hs =>
      by_cases h8 : 8 < (trim p).length
      · exact ⟨_, .long hs (istrim p) h8⟩
      · exact ⟨_, .three hs (istrim p) (by omega) (istrim q) (istrim r)⟩
  · exact ⟨_, .plain ht hc⟩

/-- The text of the error, as C82 gives it. -/
def errorText {D : Type} (name : D → List Byte) (message : D → BitVec 32 → List Byte) : Option D → List Byte
  | some d => name d ++ Spec.chars ":1:" ++ message d 1#32 ++ Spec.chars ":tryParseDailString"
  | none => Spec.chars "posix:1::tryParseDailString"

variable {D : Type}

theorem theError_text (name : D → List Byte) (message : D → BitVec 32 → List Byte) (rs : List (BitVec 64 × D)) :
    Output.error name message Exn.signedText (ErrorDomains.run ErrorDomains.registry rs).1 theError =
      .ok (errorText name message (ErrorDomains.firstFor (rs.take 128) ErrorValue.systemCategory)) := by
  rw [Output.C82_error_exact]
  have hd : theError.domain = ErrorValue.systemCategory := rfl
  have h1 : Exn.signedText theError.code.toInt = Spec.chars "1" := by decide
  have h2 : theError.tag = Spec.chars "tryParseDailString" := rfl
  have h3 : theError.code = 1#32 := rfl
  have h4 : Spec.chars "tryParseDailString" ≠ [] := by decide
  have h5 : nameOf ErrorValue.systemCategory = Spec.chars "posix" := by decide
  have h6 : Spec.chars ":1:" = 0x3A#8 :: Spec.chars "1" ++ [0x3A#8] := by decide
  have h7 : Spec.chars ":tryParseDailString" = 0x3A#8 :: Spec.chars "tryParseDailString" := by decide
  have h8 : Spec.chars "posix:1::tryParseDailString" =
      Spec.chars "posix" ++ 0x3A#8 :: (Spec.chars "1" ++ 0x3A#8 :: 0x3A#8 :: Spec.chars "tryParseDailString") := by decide
  rw [hd, h1, h2, h3, if_neg h4, h5]
  cases ErrorDomains.firstFor (rs.take 128) ErrorValue.systemCategory with
  | some d => simp [errorText, List.intercalate, List.intersperse, h6, h7]
  | none => simp [errorText, List.intercalate, List.intersperse, h8]

theorem one_argument (name : D → List Byte) (message : D → BitVec 32 → List Byte) (rs : List (BitVec 64 × D)) (fuel : Nat)
    (arg : List Byte) (r : Option Parts) (hr : Means (viewOf arg) r) (hf : (viewOf arg).length < fuel) (s : Streams) :
    parseAndPrint name message (ErrorDomains.run ErrorDomains.registry rs).1 fuel arg s =
      some (.ok ⟨s.out ++ block shown r, s.err ++
        report (errorText name message (ErrorDomains.firstFor (rs.take 128) ErrorValue.systemCategory)) arg r⟩) := by
  have hl : (viewOf arg).length < 2 ^ 16 := by
    rw [viewOf, List.length_take]
    have := wrap16_lt arg.length
    omega
  obtain ⟨h1, h2⟩ := parse_means _ hl fuel hf r hr
  cases r with
  | none =>
    obtain ⟨e, he⟩ := h1 rfl
    rw [parseAndPrint, he]
    simp only [theError_text, Outcome.bind_ok, block, report, List.append_nil, List.append_assoc, lit_chars]
  | some p =>
    obtain ⟨ds, hd, hp, ha, hs⟩ := h2 p rfl
    rw [parseAndPrint, hd]
    have e1 : Exn.lit "protocol: \"" = Spec.chars "protocol" ++ Spec.chars ": \"" := by decide
    have e2 : Exn.lit "address: \"" = Spec.chars "address" ++ Spec.chars ": \"" := by decide
    have e3 : Exn.lit "service: \"" = Spec.chars "service" ++ Spec.chars ": \"" := by decide
    simp only [hp, ha, hs, block, report, List.append_nil, line, e1, e2, e3, lit_chars, ne_eq, List.length_eq_zero_iff,
      List.append_assoc]
    by_cases hv : p.service = []
    · simp [hv]
    · simp [hv]

theorem loop_all (name : D → List Byte) (message : D → BitVec 32 → List Byte) (rs : List (BitVec 64 × D)) (fuel : Nat)
    (as : List (List Byte × Option Parts)) (hm : ∀ x ∈ as, Means (viewOf x.1) x.2)
    (hf : ∀ x ∈ as, (viewOf x.1).length < fuel) : ∀ s : Streams,
    loop name message (ErrorDomains.run ErrorDomains.registry rs).1 fuel (as.map Prod.fst) s =
      some (.ok ⟨s.out ++ List.intercalate [0x0A#8] (as.map fun x => block shown x.2), s.err ++ as.flatMap fun x =>
        report (errorText name message (ErrorDomains.firstFor (rs.take 128) ErrorValue.systemCategory)) x.1 x.2⟩) := by
  induction as with
  | nil => intro s; simp [loop]
  | cons x as ih =>
    intro s
    rw [List.map_cons, loop, one_argument name message rs fuel x.1 x.2 (hm x (List.mem_cons_self ..)) (hf x (List.mem_cons_self ..))]
    simp only
    rw [ih (fun y hy => hm y (List.mem_cons_of_mem _ hy)) (fun y hy => hf y (List.mem_cons_of_mem _ hy))]
    cases as with
    | nil => simp [List.intercalate]
    | cons y as => simp [List.intercalate, lit_chars, show Spec.chars "\n" = [0x0A#8] from by decide]

/-- **C111, exactly**: for every program name and arguments of any length, the program ends with status 0. It prints how it is
used if there is no argument or the first one asks for it. Otherwise it prints the parts of every argument that is a dial string,
in order, with an empty line between two arguments (whether or not they are dial strings), and reports every other argument on the
error stream. Of an argument the first `length mod 65536` characters count. `as` are the arguments together with what they mean,
`rs` the error domains that were registered. -/
theorem C111_exact (name : D → List Byte) (message : D → BitVec 32 → List Byte) (rs : List (BitVec 64 × D)) (fuel : Nat)
    (progname : List Byte) (as : List (List Byte × Option Parts)) (hm : ∀ x ∈ as, Means (x.1.take (x.1.length % 65536)) x.2)
    (hf : 65536 ≤ fuel) :
    main name message (ErrorDomains.run ErrorDomains.registry rs).1 fuel (progname :: as.map Prod.fst) =
      some (.ok (
        if as = [] ∨ (as.head?.map Prod.fst) ∈ [some (Spec.chars "-h"), some (Spec.chars "--help")] then
          ⟨Spec.chars "Usage: " ++ progname ++
            Spec.chars "[-h]  <STRING>...\nParse a dial string\n\nOptions: \n -h - Display help and exit\n\n", []⟩
        else
          ⟨List.intercalate [0x0A#8] (as.map fun x => block shown x.2), as.flatMap fun x =>
            report (errorText name message (ErrorDomains.firstFor (rs.take 128) ErrorValue.systemCategory)) x.1 x.2⟩, 0)) := by
  have hu : usage progname ⟨[], []⟩ = ⟨Spec.chars "Usage: " ++ progname ++
      Spec.chars "[-h]  <STRING>...\nParse a dial string\n\nOptions: \n -h - Display help and exit\n\n", []⟩ := by
    have e : Spec.chars "[-h]  <STRING>...\nParse a dial string\n\nOptions: \n -h - Display help and exit\n\n" =
        Spec.chars "[-h] " ++ (Spec.chars " <STRING>..." ++ (Spec.chars "\n" ++ (Spec.chars "Parse a dial string\n\n" ++
          (Spec.chars "Options: \n" ++ (Spec.chars " -h - Display help and exit\n" ++ Spec.chars "\n"))))) := by decide
    simp only [usage, lit_chars, e, List.nil_append, List.append_assoc]
  cases as with
  | nil => rw [if_pos (.inl rfl), List.map_nil, main, hu]
  | cons x as =>
    rw [List.map_cons, main]
    simp only [reduceCtorEq, false_or, List.head?_cons, Option.map_some, List.mem_cons, Option.some.injEq, List.not_mem_nil, or_false,
      lit_chars]
    by_cases hh : x.1 = Spec.chars "-h" ∨ x.1 = Spec.chars "--help"
    · simp only [hh, if_true, hu]
    · simp only [hh, if_false]
      have h1 : ∀ y ∈ x :: as, Means (viewOf y.1) y.2 := fun y hy => by
        rw [viewOf, wrap16_def]; exact hm y hy
      have h2 : ∀ y ∈ x :: as, (viewOf y.1).length < fuel := fun y hy => by
        rw [viewOf, List.length_take]
        have := wrap16_lt y.1.length
        omega
      have := loop_all name message rs fuel (x :: as) h1 h2 ⟨[], []⟩
      rw [List.map_cons] at this
      rw [this]
      simp

/-- Every choice of arguments is covered by `C111_exact`. -/
theorem C111_every_argument (args : List (List Byte)) :
    ∃ as : List (List Byte × Option Parts), as.map Prod.fst = args ∧ ∀ x ∈ as, Means (x.1.take (x.1.length % 65536)) x.2 := by
  induction args with
  | nil => exact ⟨[], rfl, fun x hx => by cases hx⟩
  | cons a args ih =>
    obtain ⟨as, h1, h2⟩ := ih
    obtain ⟨r, hr⟩ := means_total (a.take (a.length % 65536))
    refine ⟨(a, r) :: as, by rw [List.map_cons, h1], fun x hx => ?_⟩
    rcases List.mem_cons.mp hx with e | e
    · rw [e]; exact hr
    · exact h2 x e

theorem shown_ascii (p : List Byte) (hp : p.length ≤ 8) (h : ∀ c ∈ p, 0 < c.toNat ∧ c.toNat < 128) : shown p = p := by
  have h0 : 0#8 ∉ p := fun hm => by have := (h _ hm).1; simp at this
  obtain ⟨a, -, ha, -, hb, -⟩ := C40_exact p [] hp (by simp)
  rw [shown, ← hb]
  refine (C40_print_iff p hp a ha).mpr ⟨h0, fun q c r e hc => ?_⟩
  have := (h c (by rw [e]; simp)).2
  omega

/-- **C111** (partial: arguments of less than 65536 characters, protocols of ASCII characters). The parts of every argument are
printed as they are in the text, without white space around them; the other arguments are reported. Missing: protocols with
characters above 127 and longer arguments, see `C111_exact` and the negations. -/
theorem C111_program_partial (name : D → List Byte) (message : D → BitVec 32 → List Byte) (rs : List (BitVec 64 × D)) (fuel : Nat)
    (progname : List Byte) (x : List Byte × Option Parts) (as : List (List Byte × Option Parts))
    (hm : ∀ y ∈ x :: as, Means y.1 y.2) (hl : ∀ y ∈ x :: as, y.1.length < 65536)
    (ha : ∀ y ∈ x :: as, ∀ p, y.2 = some p → p.protocol.length ≤ 8 ∧ ∀ c ∈ p.protocol, 0 < c.toNat ∧ c.toNat < 128)
    (hh : x.1 ≠ Spec.chars "-h" ∧ x.1 ≠ Spec.chars "--help") (hf : 65536 ≤ fuel) :
    main name message (ErrorDomains.run ErrorDomains.registry rs).1 fuel (progname :: (x :: as).map Prod.fst) =
      some (.ok (⟨List.intercalate [0x0A#8] ((x :: as).map fun y => block id y.2), (x :: as).flatMap fun y =>
        report (errorText name message (ErrorDomains.firstFor (rs.take 128) ErrorValue.systemCategory)) y.1 y.2⟩, 0)) := by
  rw [C111_exact name message rs fuel progname (x :: as) (fun y hy => by
    rw [Nat.mod_eq_of_lt (hl y hy), List.take_length]; exact hm y hy) hf, if_neg (by simp [hh.1, hh.2])]
  have e : (x :: as).map (fun y => block shown y.2) = (x :: as).map fun y => block id y.2 := by
    refine List.map_congr_left fun y hy => ?_
    cases h : y.2 with
    | none => rfl
    | some p =>
      obtain ⟨h1, h2⟩ := ha y hy p h
      rw [block, block, shown_ascii p.protocol h1 h2]
      rfl
  rw [e]

/-- **C111, negation, characters above 127**: `é:x` is shown with another protocol. -/
theorem C111_non_ascii : shown [0xC3#8, 0xA9#8] = [0xFF#8, 0xA9#8] := by decide

/-- **C111, negation, long arguments**: an argument of 65536 characters is reported, whatever its characters. -/
theorem C111_long_argument (arg : List Byte) (h : arg.length = 65536) : Means (arg.take (arg.length % 65536)) none := by
  rw [h, Nat.mod_self, List.take_zero]
  exact .empty

/-- **C111**: started without a program name it prints a null pointer. -/
theorem C111_no_name (name : D → List Byte) (message : D → BitVec 32 → List Byte) (m : Dict (BitVec 64) D) (fuel : Nat) :
    main name message m fuel [] = some .ub := rfl

example : Means (Spec.chars " tcp : host:80") (some ⟨Spec.chars "tcp", Spec.chars "host", Spec.chars "80"⟩) := by
  refine .three (p := Spec.chars " tcp ") (q := Spec.chars " host") (r := Spec.chars "80") (rest := [])
    (isSplit_three (Spec.chars " tcp ") (Spec.chars " host") (Spec.chars "80") (by decide) (by decide) (by decide)) ?_ (by decide) ?_ ?_
  · exact ⟨Spec.chars " ", Spec.chars " ", by decide, by decide, by decide, by decide, by decide⟩
  · exact ⟨Spec.chars " ", [], by decide, by decide, by decide, by decide, by decide⟩
  · exact ⟨[], [], by decide, by decide, by decide, by decide, by decide⟩

#guard (main (D := Unit) (fun _ => Spec.chars "PosixSystemError") (fun _ _ => Spec.chars "Operation not permitted")
    (ErrorDomains.run ErrorDomains.registry [(ErrorValue.systemCategory, ())]).1 100
    [Spec.chars "ds", Spec.chars " tcp : host:80", [], Spec.chars "plain"]) =
  some (.ok (⟨Spec.chars "protocol: \"tcp\"\naddress: \"host\"\nservice: \"80\"\n\n\nprotocol: \"\"\naddress: \"plain\"\n",
    Spec.chars "Failed to parse \"\": PosixSystemError:1:Operation not permitted:tryParseDailString\n"⟩, 0))

end Solace.DsParser
