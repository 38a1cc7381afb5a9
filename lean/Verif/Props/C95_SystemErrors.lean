import Verif.Model.SystemErrors
import Verif.Props.C66_ErrorDomain
import Verif.Props.C87_StringViewMake
/-
C95: the named error codes are those of the operating system, and the text of a system error is the one of the C library.
-/
namespace Solace.SystemErrors

/-- The error numbers of Linux (asm-generic/errno-base.h and asm-generic/errno.h), names and values; the same on all
architectures but alpha, mips, parisc and sparc. -/
def linux : List (String × Nat) :=
  [("EPERM", 1), ("ENOENT", 2), ("ESRCH", 3), ("EINTR", 4), ("EIO", 5), ("ENXIO", 6), ("E2BIG", 7), ("ENOEXEC", 8),
   ("EBADF", 9), ("ECHILD", 10), ("EAGAIN", 11), ("ENOMEM", 12), ("EACCES", 13), ("EFAULT", 14), ("ENOTBLK", 15),
   ("EBUSY", 16), ("EEXIST", 17), ("EXDEV", 18), ("ENODEV", 19), ("ENOTDIR", 20), ("EISDIR", 21), ("EINVAL", 22),
   ("ENFILE", 23), ("EMFILE", 24), ("ENOTTY", 25), ("ETXTBSY", 26), ("EFBIG", 27), ("ENOSPC", 28), ("ESPIPE", 29),
   ("EROFS", 30), ("EMLINK", 31), ("EPIPE", 32), ("EDOM", 33), ("ERANGE", 34), ("EDEADLK", 35), ("ENAMETOOLONG", 36),
   ("ENOLCK", 37), ("ENOSYS", 38), ("ENOTEMPTY", 39), ("ELOOP", 40), ("EWOULDBLOCK", 11), ("ENOMSG", 42), ("EIDRM", 43),
   ("ECHRNG", 44), ("EL2NSYNC", 45), ("EL3HLT", 46), ("EL3RST", 47), ("ELNRNG", 48), ("EUNATCH", 49), ("ENOCSI", 50),
   ("EL2HLT", 51), ("EBADE", 52), ("EBADR", 53), ("EXFULL", 54), ("ENOANO", 55), ("EBADRQC", 56), ("EBADSLT", 57),
   ("EDEADLOCK", 35), ("EBFONT", 59), ("ENOSTR", 60), ("ENODATA", 61), ("ETIME", 62), ("ENOSR", 63), ("ENONET", 64),
   ("ENOPKG", 65), ("EREMOTE", 66), ("ENOLINK", 67), ("EADV", 68), ("ESRMNT", 69), ("ECOMM", 70), ("EPROTO", 71),
   ("EMULTIHOP", 72), ("EDOTDOT", 73), ("EBADMSG", 74), ("EOVERFLOW", 75), ("ENOTUNIQ", 76), ("EBADFD", 77), ("EREMCHG", 78),
   ("ELIBACC", 79), ("ELIBBAD", 80), ("ELIBSCN", 81), ("ELIBMAX", 82), ("ELIBEXEC", 83), ("EILSEQ", 84), ("ERESTART", 85),
   ("ESTRPIPE", 86), ("EUSERS", 87), ("ENOTSOCK", 88), ("EDESTADDRREQ", 89), ("EMSGSIZE", 90), ("EPROTOTYPE", 91),
   ("ENOPROTOOPT", 92), ("EPROTONOSUPPORT", 93), ("ESOCKTNOSUPPORT", 94), ("EOPNOTSUPP", 95), ("EPFNOSUPPORT", 96),
   ("EAFNOSUPPORT", 97), ("EADDRINUSE", 98), ("EADDRNOTAVAIL", 99), ("ENETDOWN", 100), ("ENETUNREACH", 101),
   ("ENETRESET", 102), ("ECONNABORTED", 103), ("ECONNRESET", 104), ("ENOBUFS", 105), ("EISCONN", 106), ("ENOTCONN", 107),
   ("ESHUTDOWN", 108), ("ETOOMANYREFS", 109), ("ETIMEDOUT", 110), ("ECONNREFUSED", 111), ("EHOSTDOWN", 112),
   ("EHOSTUNREACH", 113), ("EALREADY", 114), ("EINPROGRESS", 115), ("ESTALE", 116), ("EUCLEAN", 117), ("ENOTNAM", 118),
   ("ENAVAIL", 119), ("EISNAM", 120), ("EREMOTEIO", 121), ("EDQUOT", 122), ("ENOMEDIUM", 123), ("EMEDIUMTYPE", 124),
   ("ECANCELED", 125), ("ENOKEY", 126), ("EKEYEXPIRED", 127), ("EKEYREVOKED", 128), ("EKEYREJECTED", 129),
   ("EOWNERDEAD", 130), ("ENOTRECOVERABLE", 131), ("ERFKILL", 132), ("EHWPOISON", 133)]

/-- The C name an enumerator stands for: the name with an `E` in front, five are spelled out. -/
def errnoName (name : String) : String :=
  if name = "TooBig" then "E2BIG"
  else if name = "NameTooLong" then "ENAMETOOLONG"
  else if name = "NoLock" then "ENOLCK"
  else if name = "NoSys" then "ENOSYS"
  else if name = "Overflow" then "EOVERFLOW"
  else "E" ++ name

/-- The enumerators of both enumerations. -/
def all : List (String × Nat) := generic ++ system

/-- **C95**, values: each enumerator has the value of the error number it is named after; every error number is named, and only
`AGAIN` and `WOULDBLOCK` share a value. -/
theorem C95_values : (∀ e ∈ all, (errnoName e.1, e.2) ∈ linux) ∧ (∀ l ∈ linux, ∃ e ∈ all, e.2 = l.2) ∧
    (∀ a ∈ all, ∀ b ∈ all, a.2 = b.2 → a = b ∨ (a.1 ∈ ["AGAIN", "WOULDBLOCK"] ∧ b.1 ∈ ["AGAIN", "WOULDBLOCK"])) := by
  refine ⟨?_, ?_, ?_⟩
  · decide +kernel
  · decide +kernel
  · decide +kernel

theorem lookup_mem {t : List (String × Nat)} {name : String} {v : Nat} (h : t.lookup name = some v) : (name, v) ∈ t := by
  induction t with
  | nil => cases h
  | cons x xs ih =>
    rw [List.lookup_cons] at h
    by_cases hx : name == x.1
    · rw [hx] at h
      have : name = x.1 := by simpa using hx
      cases h
      rw [this]
      exact List.mem_cons_self
    · rw [Bool.not_eq_true] at hx
      rw [hx] at h
      exact List.mem_cons_of_mem _ (ih h)

theorem small : ∀ e ∈ all, e.2 < 2 ^ 32 := by decide +kernel

/-- **C95**, made errors: the error of an enumerator has the error number it is named after as its code, is an error, belongs to
the system domain and keeps the tag; it equals the error made from another enumerator exactly when both name the same error
number, whatever the tags. -/
theorem C95_named {t u : List (String × Nat)} (ht : t = generic ∨ t = system) (hu : u = generic ∨ u = system)
    {name other : String} {tag tag' : List Byte} {e f : ErrorValue} (he : makeNamed t name tag = some e)
    (hf : makeNamed u other tag' = some f) :
    (errnoName name, e.code.toNat) ∈ linux ∧ e.toBool = true ∧ e.domain = ErrorValue.systemCategory ∧ e.tag = tag ∧
    (e.equals f = true ↔
      name = other ∨ (name ∈ ["AGAIN", "WOULDBLOCK"] ∧ other ∈ ["AGAIN", "WOULDBLOCK"])) := by
  obtain ⟨v, hv, rfl⟩ := Option.map_eq_some_iff.1 he
  obtain ⟨w, hw, rfl⟩ := Option.map_eq_some_iff.1 hf
  have hva : (name, v) ∈ all := by
    rcases ht with rfl | rfl
    · exact List.mem_append_left _ (lookup_mem hv)
    · exact List.mem_append_right _ (lookup_mem hv)
  have hwa : (other, w) ∈ all := by
    rcases hu with rfl | rfl
    · exact List.mem_append_left _ (lookup_mem hw)
    · exact List.mem_append_right _ (lookup_mem hw)
  have hvs : (BitVec.ofNat 32 v).toNat = v := by rw [BitVec.toNat_ofNat]; exact Nat.mod_eq_of_lt (small _ hva)
  have hws : (BitVec.ofNat 32 w).toNat = w := by rw [BitVec.toNat_ofNat]; exact Nat.mod_eq_of_lt (small _ hwa)
  refine ⟨?_, ?_, rfl, rfl, ?_⟩
  · show (errnoName name, (BitVec.ofNat 32 v).toNat) ∈ linux
    rw [hvs]
    exact C95_values.1 _ hva
  · have h0 : ∀ e ∈ all, e.2 ≠ 0 := by decide +kernel
    have := h0 _ hva
    show (BitVec.ofNat 32 v != 0#32) = true
    rw [bne_iff_ne]
    intro hz
    rw [hz] at hvs
    exact this hvs.symm
  · show ((ErrorValue.systemCategory == ErrorValue.systemCategory) && (BitVec.ofNat 32 v == BitVec.ofNat 32 w)) = true ↔ _
    rw [beq_self_eq_true, Bool.true_and, beq_iff_eq]
    have hvw : BitVec.ofNat 32 v = BitVec.ofNat 32 w ↔ v = w :=
      ⟨fun h => by rw [← hvs, ← hws, h], fun h => by rw [h]⟩
    rw [hvw]
    constructor
    · intro h
      rcases C95_values.2.2 _ hva _ hwa h with h' | h'
      · exact .inl (congrArg Prod.fst h')
      · exact .inr h'
    · have one : ∀ a ∈ all, ∀ b ∈ all, (a.1 = b.1 ∨ (a.1 ∈ ["AGAIN", "WOULDBLOCK"] ∧ b.1 ∈ ["AGAIN", "WOULDBLOCK"])) →
          a.2 = b.2 := by decide +kernel
      exact one _ hva _ hwa

/-- **C95**, `makeErrno`: the code is the value of `errno`; it is an error unless `errno` is zero, and it equals the error of an
enumerator exactly when `errno` is its error number. -/
theorem C95_errno (errno : BitVec 32) (tag : Option (List Byte)) :
    (makeErrno errno tag).code = errno ∧ (makeErrno errno tag).domain = ErrorValue.systemCategory ∧
    ((makeErrno errno tag).toBool = true ↔ errno ≠ 0#32) ∧ (makeErrno errno tag).tag = tag.getD [] ∧
    ∀ t, (t = generic ∨ t = system) → ∀ name tag' f, makeNamed t name tag' = some f →
      ((makeErrno errno tag).equals f = true ↔ (errnoName name, errno.toNat) ∈ linux) := by
  refine ⟨rfl, rfl, ?_, rfl, ?_⟩
  · show (errno != 0#32) = true ↔ _
    rw [bne_iff_ne]
  · intro t ht name tag' f hf
    have h1 := (C95_named ht ht hf hf).1
    have hd := (C95_named ht ht hf hf).2.2.1
    have uniq : ∀ a ∈ linux, ∀ b ∈ linux, a.1 = b.1 → a.2 = b.2 := by decide +kernel
    show ((ErrorValue.systemCategory == f.domain) && (errno == f.code)) = true ↔ _
    rw [hd, beq_self_eq_true, Bool.true_and, beq_iff_eq]
    constructor
    · intro h; rw [h]; exact h1
    · intro h
      exact BitVec.eq_of_toNat_eq (uniq _ h _ h1 rfl)

/-- The characters of a text, one byte each. -/
def ascii (text : String) : List Byte := text.toList.map fun c => BitVec.ofNat 8 c.toNat

theorem fallback_text : fallback = ascii "PosixSystemError: Failed to get error string" := by decide +kernel

/-- **C95**, texts: the text of a system error is the text the C library has for the code, or the fixed text when there is no
memory for it. The program is never ended by asking. -/
theorem C95_message (alloc : Nat → Except Err MutView) (ha : Str.AllocOk alloc) (strerror : BitVec 32 → Option (List Byte))
    (code : BitVec 32) (text rest : List Byte) (hs : strerror code = some (text ++ 0#8 :: rest)) (h0 : 0#8 ∉ text)
    (hl : text.length < 2 ^ 16) :
    ∃ s, message alloc strerror code = .ok s ∧
      ((∃ v, alloc text.length = .ok v ∧ v.null = false) → s.view = text) ∧
      ((∀ v, alloc text.length = .ok v → v.null = true) →
        s.view = ascii "PosixSystemError: Failed to get error string") := by
  rw [← fallback_text]
  obtain ⟨v, h1, h2⟩ := Make.C87_cstring_partial text rest h0 hl
  have hm : message alloc strerror code =
      (match Str.make alloc text with | .ok s => Outcome.ok s | .error _ => .ok ⟨fallback, fallback.length⟩ : Outcome Str).noexcept := by
    rw [message, hs, h1]
    show ((Make.SV.chars v).bind _).noexcept = _
    rw [h2]
    rfl
  rw [hm]
  cases ho : alloc text.length with
  | error e =>
    have hmk : Str.make alloc text = .error e := by rw [Str.make, ho]
    rw [hmk]
    refine ⟨_, rfl, ?_, fun _ => Str.view_whole _⟩
    rintro ⟨v, hv, _⟩
    cases hv
  | ok w =>
    obtain ⟨hwl, _⟩ := ha _ w ho
    by_cases hn : w.null = true
    · have hmk : Str.make alloc text = .error .dom := by
        rw [Str.make, ho]
        simp only [MutView.write]
        rw [if_pos hn]
      rw [hmk]
      refine ⟨_, rfl, ?_, fun _ => Str.view_whole _⟩
      rintro ⟨v, hv, hf⟩
      cases hv
      rw [hn] at hf
      cases hf
    · rcases Str.C29_make alloc ha text with ⟨e, he⟩ | ⟨str, hstr, hview⟩
      · rw [Str.make, ho] at he
        simp only [MutView.write] at he
        rw [if_neg hn, if_neg (by omega)] at he
        cases he
      · rw [hstr]
        exact ⟨str, rfl, fun _ => hview, fun h => absurd (h w rfl) hn⟩

/-- A text with something behind it in memory, and memory for it. -/
example : ∃ s, message (fun n => .ok ⟨false, List.replicate n 0#8⟩) (fun _ => some [0x4E#8, 0x6F#8, 0#8, 0x21#8]) 2#32 = .ok s ∧
    s.view = [0x4E#8, 0x6F#8] := by
  obtain ⟨s, h1, h2, _⟩ := C95_message (fun n => .ok ⟨false, List.replicate n 0#8⟩)
    (by
      intro n v h
      cases h
      refine ⟨by simp, ?_⟩
      intro h
      cases h)
    (fun _ => some [0x4E#8, 0x6F#8, 0#8, 0x21#8]) 2#32 [0x4E#8, 0x6F#8] [0x21#8] rfl (by decide) (by decide)
  exact ⟨s, h1, h2 ⟨_, rfl, rfl⟩⟩

example : makeNamed generic "NOENT" [0x61#8] = some ⟨2#32, ErrorValue.systemCategory, [0x61#8]⟩ := by decide +kernel
example : makeNamed system "WOULDBLOCK" [] = some ⟨11#32, ErrorValue.systemCategory, []⟩ := by decide +kernel
example : errnoName "TooBig" = "E2BIG" ∧ errnoName "NOENT" = "ENOENT" := by decide +kernel

end Solace.SystemErrors
