# Formal model of libsolace: design and results

## 1. Method

The C++ library in /repo is read as text and transcribed, function by function, into total computable Lean 4
definitions under `lean/Verif/Model/`. Every definition cites the file and lines it models and states its
simplifications. Specifications are written separately, in `lean/Verif/Spec/` (small, model-independent
definitions) or directly in theorem statements over `List`/`Nat`/`BitVec`. Property theorems are in
`lean/Verif/Props/`; helper lemmas are in `lean/Verif/Lemmas/`. Beside each property theorem an `example` shows that its
hypotheses can be met by a non-trivial case.

159 properties: 48 proved as stated, 111 partial (in nearly all of these the code does not have the property; the negation is proved with a witness, and the part that holds is proved as a theorem with the suffix `_partial`).

## 2. Conventions

* **Bytes and characters** are `BitVec 8`. `char` is assumed *signed* (x86-64 / Linux ABI), so a `char` promoted to
  `int` is `BitVec.toInt`.
* **Memory views** (`MemoryView`, `StringView`, `ArrayView`) are the list of bytes they span. Where code reads past the
  end of a view, the memory that follows it is an explicit second list, and running out of *that* is undefined
  behaviour. Addresses are modelled only where the code looks at them (`ArrayView` equality, Murmur3 alignment).
* **`size_t` / `uint64`** quantities are `Nat` with explicit wrap-around (`wrap64`, `sub64`) at each operation that can
  wrap; **`uint16`** (`StringView::size_type`) and `uint32` likewise (`wrap16`, `wrap32`).
* **Outcomes.** A C++ call can return, throw, terminate (throw out of a `noexcept` function), have undefined behaviour,
  or not terminate. The first four are distinct constructors of `Outcome`: `ok a | throws | terminate | ub`.
  Divergence is modelled with an explicit fuel argument: a loop that has not finished after `n` iterations returns
  `none`; "terminates" is `∃ n, run n ≠ none`, "diverges" is `∀ n, run n = none`.
* **`Result<T, Error>`** is `Except Err T`, with `Err` naming the error code.
* **Memory allocation** is an oracle: `alloc n` is an error, or memory of the right size with arbitrary previous content.
  Uninitialised local arrays are arbitrary too (`Hash.Host`). Theorems quantify over all of these.
* **Object lifetimes** (C20, C45, C46, C57) are logs of construct/destroy/use events; what is claimed about them is
  computed from the log only.
* **Host byte order** is a parameter (`big : Bool`) of streams, integers and digests.
* Where the code does not have a property, the negation is a theorem with a concrete witness or, better, a general statement
  of what the code does instead, and the part that holds is kept as a theorem with the suffix `_partial`.


## 3. Results, property by property

### C01 Reading never passes the limit — partial

*Model:* `Model/ByteReader`. *Proof:* State (buffer, position, limit); every method is a step. Invariant position ≤ limit ≤ size by induction over the call list (`SafeRun`), then each successful call is compared with `StoredAt`: the bytes of the buffer at the offset reported before the call.

*Theorems:* `ByteReader.C01_reads_stay_below_limit_partial`, `ByteReader.C01_read_past_limit`, `ByteReader.C01_reads_stay_in_buffer`, `ByteReader.C01_bytes_every_history`, `ByteReader.C01_fails_iff`

*What holds and what does not:* False as stated for the code: after limit(n) with n below the position, remaining() wraps and reads pass the limit (C01_read_past_limit). Proved for every history in which the limit is not lowered below the position; and for every state reads stay inside the buffer. C01_bytes_every_history: in every history the right bytes are returned; C01_fails_iff: a byte at or beyond the limit is returned exactly in states with limit < position < size.

### C02 Failed reader calls change nothing — partial

*Model:* `Model/ByteReader`. *Proof:* Case analysis of each step for every state (failure returns the same reader and destination); no-abort by the C01 invariant; the abort is a concrete history.

*Theorems:* `ByteReader.C02_failure_is_clean`, `ByteReader.C02_no_abort_partial`, `ByteReader.C02_abort_reachable`, `ByteReader.C02_abort_iff`

*What holds and what does not:* First half proved in full for every state. The no-abort half is false (C02_abort_reachable); proved when the limit is never lowered below the position. C02_abort_iff: a call aborts exactly in states with limit < position and size <= position.

### C03 Writing never touches bytes beyond the limit — partial

*Model:* `Model/ByteWriter`. *Proof:* Same shape as the reader. `write_cases` splits a write into its four outcomes; bytes at or beyond the limit are compared before and after.

*Theorems:* `ByteWriter.C03_no_write_beyond_limit_partial`, `ByteWriter.C03_failed_write_beyond_limit`, `ByteWriter.C03_successful_write_beyond_limit`, `ByteWriter.C03_write_every_history`, `ByteWriter.C03_fails_iff`, `ByteWriter.C03_limit_beyond_buffer`

*What holds and what does not:* False as stated: write copies before checking the limit. Proved whenever the data fits below the limit or does not fit in the buffer at all; the missing case is exactly the counterexample. C03_write_every_history says what a write does after any history; C03_fails_iff: it fails exactly in states with position < size and limit < size.

### C04 A failed write leaves the buffer and the position unchanged — partial

*Model:* `Model/ByteWriter`. *Proof:* From `write_cases`; for histories without `limit`/`flip` by the invariant limit = capacity.

*Theorems:* `ByteWriter.C04_failed_keeps_position`, `ByteWriter.C04_failed_changes_nothing_partial`, `ByteWriter.C04_failed_changes_nothing_history_partial`, `ByteWriter.C04_failed_write_changes_buffer`, `ByteWriter.C04_fails_iff`

*What holds and what does not:* Position and limit part proved in full. Buffer part false when limit < position+n <= capacity (witness); proved otherwise, and for all histories without limit/flip calls. C04_fails_iff: exactly in states with position <= limit < size.

### C05 Successful writes accumulate — proved

*Model:* `Model/ByteWriter`. *Proof:* Refinement: the bytes before the position equal the concatenation of the accepted payloads, by induction over the list of writes.

*Theorems:* `ByteWriter.C05_writes_accumulate`

### C06 Integers survive a write/read round trip in both byte orders — proved

*Model:* `Model/Endian`, `Model/ByteReader`, `Model/ByteWriter`. *Proof:* Positional notation over `Nat` is the specification; round trip and canonical byte order by induction on the width, for both host orders.

*Theorems:* `C06_canonical`, `C06_round_trip`

*Note:* Both host byte orders, widths 8/16/32/64.

### C07 Slicing a memory view is clamped and composes — proved

*Model:* `Model/MemoryView`. *Proof:* Equalities with `List.take`/`List.drop`/`replicate` for all indices.

*Theorems:* `C07_slice_clamped`, `C07_slice_slice`, `C07_mutable_slice`, `C07_index`, `C07_index_whole`

### C08 View copies touch exactly the intended range — proved

*Model:* `Model/MemoryView`. *Proof:* Equalities with `List.take`/`List.drop`/`replicate` for all indices.

*Theorems:* `C08_write`, `C08_read`, `C08_fill`, `C08_equals`, `C08_empty_write_to_null`

*Note:* A zero-length write to a null view is reported as an error (C08_empty_write_to_null).

### C09 Base16 decodes what it encodes — proved

*Model:* `Model/Base16`, `Model/Base16Tables`. *Proof:* The transcribed tables are compared once with `Spec/Hex` over the whole table (`decide +kernel` on 256 and 128 entries) and lifted to all inputs by induction.

*Theorems:* `Base16.C09_round_trip`, `Base16.C09_text`

*Note:* Full, for any destinations with room.

### C10 Base16 decoder accepts exactly hexadecimal text — partial

*Model:* `Model/Base16`, `Model/Base16Tables`. *Proof:* The transcribed tables are compared once with `Spec/Hex` over the whole table (`decide +kernel` on 256 and 128 entries) and lifted to all inputs by induction.

*Theorems:* `Base16.C10_accepts_exactly_hex_partial`, `Base16.C10_reencode_lower`, `Base16.C10_non_ascii_undefined`, `Base16.C10_exact`, `Base16.C10_undefined_iff`

*What holds and what does not:* False for the code: bytes >= 0x80 index a 128-entry table out of bounds (C10_non_ascii_undefined). Acceptance proved for ASCII texts; re-encoding proved in full. C10_exact says what every text of every length gives.

### C11 Base16 iterators agree with the bulk coder — partial

*Model:* `Model/Base16`, `Model/Base16Tables`. *Proof:* The transcribed tables are compared once with `Spec/Hex` over the whole table (`decide +kernel` on 256 and 128 entries) and lifted to all inputs by induction.

*Theorems:* `Base16.C11_encode_iterator`, `Base16.C11_decode_iterator_partial`, `Base16.C11_non_ascii_undefined`, `Base16.C11_exact`

*What holds and what does not:* Encoding iterator full. Decoding iterator for ASCII texts; undefined behaviour for bytes >= 0x80 proved. C11_exact gives the decoded bytes and the stop for every text.

### C12 Base64 decodes what it encodes — partial

*Model:* `Model/Base64`, `Model/Base64Tables`. *Proof:* `Spec/Rfc4648` regroups the bit string in six-bit groups. Tables compared over their whole domain, encoder and decoder loops by induction on groups of three and four. `C12_round_trip_iff` (from the exact C96) says for which memory behind the text the round trip works.

*Theorems:* `Base64.C12_round_trip_partial`, `Base64.C12_empty_rejected`, `Base64.C12_unpadded_undefined`, `Base64.C12_unpadded_wrong`, `Base64.C12_round_trip_iff`

*What holds and what does not:* False for the code: the empty text is rejected, and unpadded texts (length divisible by 3) are decoded past the end of the view. Proved for all other cases, both alphabets. C12_round_trip_iff: exactly when the round trip works.

### C13 Base64 encoding conforms to RFC 4648 — proved

*Model:* `Model/Base64`, `Model/Base64Tables`. *Proof:* `Spec/Rfc4648` regroups the bit string in six-bit groups. Tables compared over their whole domain, encoder and decoder loops by induction on groups of three and four. `C12_round_trip_iff` (from the exact C96) says for which memory behind the text the round trip works.

*Theorems:* `Base64.C13_conforms_to_rfc4648`

*Note:* Full; size formula for inputs below 2^62 bytes (4*len would wrap).

### C14 Base64 decoding never reads outside its input — partial

*Model:* `Model/Base64`, `Model/Base64Tables`. *Proof:* `Spec/Rfc4648` regroups the bit string in six-bit groups. Tables compared over their whole domain, encoder and decoder loops by induction on groups of three and four. `C12_round_trip_iff` (from the exact C96) says for which memory behind the text the round trip works.

*Theorems:* `Base64.C14_reads_only_view_partial`, `Base64.C14_unterminated_undefined`, `Base64.C14_iff`

*What holds and what does not:* False for every non-empty view of alphabet characters (C14_unterminated_undefined). Proved for views that contain a non-alphabet byte.

### C15 Base64 decodedSize predicts the decoded length — partial

*Model:* `Model/Base64`, `Model/Base16`. *Proof:* Arithmetic on the size formulas against the number of characters/bytes actually produced.

*Theorems:* `Base64.C15_decodedSize_partial`, `Base64.C15_url_undercounts`, `Base64.C15_decodedSize_exact`

*What holds and what does not:* False for every URL text with - or _ (C15_url_undercounts). Proved otherwise. The result is characterised exactly for every text.

### C16 Encoders fit in the space they announce — proved

*Model:* `Model/Base64`, `Model/Base16`. *Proof:* Arithmetic on the size formulas against the number of characters/bytes actually produced.

*Theorems:* `Base64.C16_base64_fits`, `Base64.C16_base16_fits`, `Base64.C16_base16_decoder_fits`

*Note:* Full for base16/base64 encoders and the base16 decoder.

### C17 Memory accounting is exact — proved

*Model:* `Model/Memory`. *Proof:* World of managers and resources with a log of malloc/free calls. The reported size is compared with the log (`Spec/Heap`), by induction over histories. For C19 the histories that keep the accounting are characterised (`C19_accounting_iff`), and the sum over all managers is shown to be right in all of them (`C19_sum_conserved`).

*Theorems:* `Memory.C17_size_is_outstanding`, `Memory.C17_alloc_exact`, `Memory.C17_alloc_error`, `Memory.C17_newMgr`

*Note:* histories without moving or swapping managers (those are C19); sizes computed from the malloc/free log.

### C18 Locked managers never allocate — proved

*Model:* `Model/Memory`. *Proof:* World of managers and resources with a log of malloc/free calls. The reported size is compared with the log (`Spec/Heap`), by induction over histories. For C19 the histories that keep the accounting are characterised (`C19_accounting_iff`), and the sum over all managers is shown to be right in all of them (`C19_sum_conserved`).

*Theorems:* `Memory.C18_locked_never_allocates`, `Memory.C18_locked_size_never_grows`

*Note:* every state / every history without unlock.

### C19 Accounting survives moving and swapping managers — partial

*Model:* `Model/Memory`. *Proof:* World of managers and resources with a log of malloc/free calls. The reported size is compared with the log (`Spec/Heap`), by induction over histories. For C19 the histories that keep the accounting are characterised (`C19_accounting_iff`), and the sum over all managers is shown to be right in all of them (`C19_sum_conserved`).

*Theorems:* `Memory.C19_accounting_partial`, `Memory.C19_swap_breaks_accounting`, `Memory.C19_move_breaks_accounting`, `Memory.C19_accounting_iff`, `Memory.C19_sum_conserved`, `Memory.C19_moved_manager`

*What holds and what does not:* false for the code: swap and move construction leave disposers pointing at the old manager; proved for swaps of idle managers, negations with witnesses Exactly: without move construction accounting holds iff every swap was of managers with equal totals; the sum is always right modulo 2^64.

### C20 Each block is released exactly once — proved

*Model:* `Model/Memory`. *Proof:* Invariant "every live block has exactly one owner" over all histories; each release is in the log once.

*Theorems:* `Memory.C20_released_exactly_once`, `Memory.C20_live_blocks_have_one_owner`

*Note:* all histories, incl. self assignment and manager swaps.

### C21 String equality and hash — proved

*Model:* `Model/StringView`. *Proof:* Each method against the list operation that defines it (`=`, shortlex order, `take`/`drop`, first/last occurrence, prefix, suffix, dropWhile). Comparison and search take the memory behind the view as an explicit list.

*Theorems:* `StringView.C21_equals_iff`, `StringView.C21_hash_respects_equals`, `StringView.C21_hash_polynomial`, `StringView.C21_hash_piece`, `StringView.C21_hash_one_change`, `StringView.C21_hash_two_changes`, `StringView.C21_hash_leading_zeros`, `StringView.C21_hash_many`

*Note:* all views Which small changes the hash code notices: one character always, two neighbours exactly unless the second moves by 31 per step of the first; leading zero characters never.

### C22 String comparison is a total order consistent with equality — partial

*Model:* `Model/StringView`. *Proof:* Each method against the list operation that defines it (`=`, shortlex order, `take`/`drop`, first/last occurrence, prefix, suffix, dropWhile). Comparison and search take the memory behind the view as an explicit list.

*Theorems:* `StringView.C22_shortlex_partial`, `StringView.C22_shortlex_total`, `StringView.C22_empty_terminates`, `StringView.C22_not_an_order`, `StringView.C22_exact`

*What holds and what does not:* false for the code: terminates on an empty argument, not antisymmetric for bytes >= 128, zero for some different strings; proved to be the shortlex order on characters 1..127 C22_exact says what is returned for all strings.

### C23 Substring is clamped — proved

*Model:* `Model/StringView`. *Proof:* Each method against the list operation that defines it (`=`, shortlex order, `take`/`drop`, first/last occurrence, prefix, suffix, dropWhile). Comparison and search take the memory behind the view as an explicit list.

*Theorems:* `StringView.C23_substring`, `StringView.C23_substring_in_range`

*Note:* all strings and bounds.

### C24 Searching finds the first and last occurrence — partial

*Model:* `Model/StringView`. *Proof:* Each method against the list operation that defines it (`=`, shortlex order, `take`/`drop`, first/last occurrence, prefix, suffix, dropWhile). Comparison and search take the memory behind the view as an explicit list.

*Theorems:* `StringView.C24_indexOf_char`, `StringView.C24_lastIndexOf_char`, `StringView.C24_indexOf_partial`, `StringView.C24_lastIndexOf_partial`, `StringView.C24_empty_needle_reads_outside`, `StringView.C24_empty_needle_depends_on_memory`, `StringView.C24_contains_partial`, `StringView.C24_empty_needle_exact`, `StringView.C24_empty_needle_memory_end`

*What holds and what does not:* full for characters and non-empty needles; the empty needle reads outside (negation proved) The empty needle is covered also where memory ends with the string or with the needle.

### C25 Prefix and suffix tests — proved

*Model:* `Model/StringView`. *Proof:* Each method against the list operation that defines it (`=`, shortlex order, `take`/`drop`, first/last occurrence, prefix, suffix, dropWhile). Comparison and search take the memory behind the view as an explicit list.

*Theorems:* `StringView.C25_startsWith_iff`, `StringView.C25_endsWith_iff`

*Note:* string arguments; the character overloads are C72.

### C26 Trimming — proved

*Model:* `Model/StringView`. *Proof:* Each method against the list operation that defines it (`=`, shortlex order, `take`/`drop`, first/last occurrence, prefix, suffix, dropWhile). Comparison and search take the memory behind the view as an explicit list.

*Theorems:* `StringView.C26_trim`, `StringView.C26_trim_char`, `StringView.C26_trim_idempotent`, `StringView.C26_white`

*Note:* isspace of the C locale, little-endian host.

### C27 Splitting is the inverse of joining — partial

*Model:* `Model/StringView`. *Proof:* The scanning loops are unfolded against the inductive definition of the pieces; termination by fuel.

*Theorems:* `StringView.C27_split_partial`, `StringView.C27_splitChar_partial`, `StringView.C27_count_wraps`, `StringView.C27_count_exact`

*What holds and what does not:* everything but the reported count for 65536 pieces, which wraps to 0 (negation proved) The count is exactly the number of pieces modulo 65536 for every variant, and there are never more than 65536 pieces.

### C28 Splitting terminates — partial

*Model:* `Model/StringView`. *Proof:* The scanning loops are unfolded against the inductive definition of the pieces; termination by fuel.

*Theorems:* `StringView.C28_terminates_partial`, `StringView.C28_empty_delimiter_diverges`, `StringView.C28_empty_delimiter_chars`, `StringView.C28_iff`

*What holds and what does not:* false for the three-argument callback and an empty delimiter (divergence proved); proved otherwise.

### C29 Concatenation is faithful — partial

*Model:* `Model/String`. *Proof:* Lengths wrap at 16 bits in the model; exact results below 65536, with the allocation and the previous content of the memory arbitrary.

*Theorems:* `Str.C29_make`, `Str.C29_concat_partial`, `Str.C29_concat_truncates`, `Str.C29_concat_exact`, `Str.C29_concat_iff`

*What holds and what does not:* Total below 65536: exact or the memory manager's error. Negation proved: from 65536 on the length is taken mod 65536 and write errors are ignored, so a truncated string is returned as success. C29_concat_exact gives the content for every total, C29_concat_iff says when it is the concatenation.

### C30 Joining is faithful — partial

*Model:* `Model/String`. *Proof:* Lengths wrap at 16 bits in the model; exact results below 65536, with the allocation and the previous content of the memory arbitrary.

*Theorems:* `Str.C30_join_partial`, `Str.C30_join_succeeds`, `Str.C30_empty_list`, `Str.C30_join_exact`

*What holds and what does not:* Every non-empty list: error or exact join. Negation proved: empty list with a non-empty separator returns 65536-|by| characters of uninitialised memory. C30_join_exact decides error or result for every non-empty list.

### C31 Replacing is faithful — partial

*Model:* `Model/String`. *Proof:* Lengths wrap at 16 bits in the model; exact results below 65536, with the allocation and the previous content of the memory arbitrary.

*Theorems:* `Str.C31_replace_char_partial`, `Str.C31_replace_char_high`, `Str.C31_replace_partial`, `Str.C31_replace_empty_pattern_diverges`, `Str.C31_replace_truncates`, `Str.C31_replace_exact`, `Str.C31_replace_char_exact`

*What holds and what does not:* Char version exact below 128; string version exact for a non-empty pattern and a result below 65536. Negations proved: char from 128 on never replaced; empty pattern diverges; 256x256 replacement returns the empty string. C31_replace_exact and C31_replace_char_exact give the outcome for results of any length.

### C32 String builder accumulates — partial

*Model:* `Model/StringBuilder`. *Proof:* Refinement to an accumulated list over every sequence of appends.

*Theorems:* `StringBuilder.C32_accumulates_partial`, `StringBuilder.C32_nothing_lost_partial`, `StringBuilder.C32_initial`, `StringBuilder.C32_long_view_empty`, `StringBuilder.C32_parts_partial`, `StringBuilder.C32_any_size`

*What holds and what does not:* Buffers below 65536 bytes: exact accumulation semantics for every sequence of appends. Negation proved: 65536 characters give an empty view. For buffers of any size view, length, string and substring are given exactly (narrowed modulo 65536), and right exactly when fewer than 65536 bytes are accumulated.

### C33 String builder finds characters — partial

*Model:* `Model/StringBuilder`. *Proof:* Refinement to an accumulated list over every sequence of appends.

*Theorems:* `StringBuilder.C33_indexOf_partial`, `StringBuilder.C33_last_not_found`, `StringBuilder.C33_zero_found`, `StringBuilder.C33_exact`, `StringBuilder.C33_long_exact`

*What holds and what does not:* First occurrence that does not end the text. Negations proved: an occurrence that ends the text is never found (off by one); the zero character is found anywhere. C33_exact describes indexOf for every character object and builder; C33_long_exact shows that the 16-bit index wraps and the search never ends in longer builders.

### C34 Version ordering — partial

*Model:* `Model/Version`. *Proof:* Lexicographic order; round trip through the printed decimal text (`Spec/Decimal`) and `strtoul` on the memory behind the piece.

*Theorems:* `Version.C34_gt_partial`, `Version.C34_lt_negation`, `Version.C34_equals`, `Version.C34_lt_exact`

*What holds and what does not:* operator> is a strict weak order by (major, minor, patch) and == is equality of numbers and pre-release; operator< is not its converse: a < b holds exactly when not a > b, also for equal versions (negation proved). Build metadata and pre-release are ignored by >. operator< is the mirror of > exactly for versions that differ in a number.

### C35 Version text round trip — proved

*Model:* `Model/Version`. *Proof:* Lexicographic order; round trip through the printed decimal text (`Spec/Decimal`) and `strtoul` on the memory behind the piece.

*Theorems:* `Version.C35_round_trip`, `Version.C35_parse_text_partial`, `Version.C35_view_negation`, `Version.C35_dash_negation`, `Version.C35_read_back_iff`, `Version.C35_no_memory`

*Note:* Round trip for every version whose labels are admissible (no '+', no leading or trailing dashes in the parts, total length within 16 bits), through the String made by toString, including the terminating zero in its buffer. Negations: parsing a bare view of the same text is undefined without a terminator, and labels with outer dashes do not survive. The admissibility conditions on the labels are exactly those under which the text is read back (iff).

### C36 Version parsing depends only on its argument — partial

*Model:* `Model/Version`. *Proof:* Lexicographic order; round trip through the printed decimal text (`Spec/Decimal`) and `strtoul` on the memory behind the piece.

*Theorems:* `Version.C36_terminated_partial`, `Version.C36_depends_on_memory`, `Version.C36_accepts_negation`, `Version.C36_exact_partial`, `Version.C36_independent_iff`, `Version.C36_any_memory`

*What holds and what does not:* For views followed by a zero byte parsing is free of undefined behaviour, depends only on the view and rejects texts with fewer than three dotted pieces. Negations: otherwise the result depends on the memory after the view (1.2.3 followed by 4 gives patch 34) or reads out of bounds; a.b.c and 4294967296.0.0 are accepted. With a terminating zero and memory for the labels the result is characterised exactly. Parsing depends only on the view exactly when the last number read ends inside it (iff); for any memory after the view the result is given exactly.

### C37 UUID text round trip — proved

*Model:* `Model/Uuid`. *Proof:* Round trip by induction over the 16 bytes; order is the lexicographic order on byte lists.

*Theorems:* `Uuid.C37_round_trip`, `Uuid.C37_string`, `Uuid.C37_size`

*Note:* Full: text form is 36 characters in the 8-4-4-4-12 layout and parsing it gives the same UUID back, for every UUID.

### C38 UUID parsing is safe and strict — partial

*Model:* `Model/Uuid`. *Proof:* Round trip by induction over the 16 bytes; order is the lexicographic order on byte lists.

*Theorems:* `Uuid.C38_four_dashes_partial`, `Uuid.C38_accepts_canonical`, `Uuid.C38_accepts_other`, `Uuid.C38_undefined`, `Uuid.C38_exact_partial`

*What holds and what does not:* The parser accepts every canonical text, but dashes are not required at fixed positions; the negation is proved with witnesses (dashes anywhere; 36 dashes return indeterminate bytes; 36 digits write out of bounds). Partial: what is accepted with four dashes at even offsets. C38_exact_partial gives the outcome of every text of 36 characters.

### C39 UUID ordering — proved

*Model:* `Model/Uuid`. *Proof:* Round trip by induction over the 16 bytes; order is the lexicographic order on byte lists.

*Theorems:* `Uuid.C39_strict_total_order`, `Uuid.C39_isNull`, `Uuid.C39_make`

*Note:* Full.

### C40 Atom round trip and order — partial

*Model:* `Model/Atom`. *Proof:* The packing loop is a base-256 numeral; injectivity and inverse by induction on at most eight characters.

*Theorems:* `Atom.C40_atoms_partial`, `Atom.C40_rejects`, `Atom.C40_any_string`, `Atom.C40_non_ascii_collide`, `Atom.C40_exact`, `Atom.C40_print_iff`, `Atom.C40_print_any`

*What holds and what does not:* Proved for ASCII names; the negation for bytes >= 128 is proved (two names with one atom). For all texts of up to 8 characters, NULs and characters above 127 included, what is printed and when two atoms are equal or ordered is stated exactly (C40_exact), and so is when a text is printed as itself (C40_print_iff).

### C41 Dial string parsing — partial

*Model:* `Model/Atom`. *Proof:* The parser is characterised by the positions of the first three colons; round trip from it.

*Theorems:* `DialString.C41_parse`, `DialString.C41_round_trip_partial`, `DialString.C41_nul_negation`, `DialString.C41_round_trip_iff`

*What holds and what does not:* Meaning of the parser proved for every text; round trip for protocols without NUL, with a proved counterexample otherwise. When the round trip holds is proved as an equivalence for all texts with a colon.

### C42 Variable span iteration — proved

*Model:* `Model/VariableSpan`. *Proof:* Induction over the list of chunks and the trailing bytes, for all prefix widths and byte orders; every dereference stays inside the buffer.

*Theorems:* `VariableSpan.C42_iteration`

*Note:* Full, for every prefix width, byte order of prefix and host, chunk list and trailing data.

### C43 Variable span stays inside its data — proved

*Model:* `Model/VariableSpan`. *Proof:* Induction over the list of chunks and the trailing bytes, for all prefix widths and byte orders; every dereference stays inside the buffer.

*Theorems:* `VariableSpan.C43_in_bounds`

*Note:* Full.

### C44 Vector behaves like a bounded list — proved

*Model:* `Model/Vector`. *Proof:* Refinement of a bounded list over all histories.

*Theorems:* `Vec.C44_vector`, `Vec.C44_refines`, `Vec.C44_failure_keeps`, `Vec.C44_capacity_wraps`

*Note:* Full refinement of a bounded list for every history, element size and capacity. Side finding: makeVector(n) multiplies without overflow check (witness).

### C45 Elements are destroyed exactly once — partial

*Model:* `Model/Array`, `Model/Vector`. *Proof:* Programs over any number of vectors and arrays with a log of constructor and destructor calls (`Spec/Lifetime`); invariant "alive = constructed and not destroyed" by induction.

*Theorems:* `Lifetimes.C45_exactly_once_partial`, `Lifetimes.C45_counts_partial`, `Lifetimes.C45_alive_partial`, `Lifetimes.C45_array_nullptr_twice`, `Lifetimes.C45_emplace_throws_twice`, `Lifetimes.C45_iff`

*What holds and what does not:* Proved for all histories that do not assign nullptr to an Array with elements and have no throwing ArrayView::emplace; for these two the negation is proved (double destruction). These are exactly the offending histories: the log is clean if and only if neither occurs, otherwise some element is destroyed at least twice.

### C46 Construction is exception safe — proved

*Model:* `Model/Array`. *Proof:* The guards of array_utils.hpp and arrayView.hpp: for every length and every set of throwing constructors the cells destroyed are exactly those constructed.

*Theorems:* `Guard.C46_exception_safe`, `Guard.C46_throws`, `Guard.C46_completes`, `Guard.C46_too_many`

*Note:* Full, for every length and every set of throwing positions. Side finding: emplaceAll with more values than cells writes out of bounds (witness).

### C47 Dictionary is a map — partial

*Model:* `Model/Dictionary`. *Proof:* Refinement of a first-wins association list over all histories.

*Theorems:* `Dict.C47_first_put`, `Dict.C47_map_partial`, `Dict.C47_failed_put`, `Dict.C47_second_put_ignored`, `Dict.C47_key_throws`, `Dict.C47_with_exceptions`, `Dict.C47_iff`

*What holds and what does not:* The code keeps the first value put under a key; proved for every history. The property holds when no key is put twice (partial); negation proved for repeated keys and for a key whose move constructor throws. For every history with throwing constructors the dictionary is given exactly as two lists.

### C48 Path parse inverts print — partial

*Model:* `Model/Path`. *Proof:* Parser and printer against `splitOn`/`intercalate`-like specifications for arbitrary delimiters, with memory as an oracle.

*Theorems:* `Path.C48_parse_print_partial`, `Path.C48_single_partial`, `Path.C48_overlap`, `Path.C48_iff`

*What holds and what does not:* Texts shorter than 65536, memory available, components separable by the delimiter (for one-character delimiters: not containing it). Fails for multi-character delimiters that overlap a component end (C48_overlap). Exactly the paths that are read back are characterised (iff).

### C49 Path print inverts parse — partial

*Model:* `Model/Path`. *Proof:* Parser and printer against `splitOn`/`intercalate`-like specifications for arbitrary delimiters, with memory as an oracle.

*Theorems:* `Path.C49_print_parse_partial`, `Path.C49_single_partial`, `Path.C49_all_delimiters`, `Path.C49_print_without_memory`, `Path.C49_single_iff`

*What holds and what does not:* Every text but one kind, memory available. Fails for 65535 copies of a one-character delimiter (C49_all_delimiters): parsed as the path without components.

### C50 Path length agrees with its text — partial

*Model:* `Model/Path`. *Proof:* Parser and printer against `splitOn`/`intercalate`-like specifications for arbitrary delimiters, with memory as an oracle.

*Theorems:* `Path.C50_length_partial`, `Path.C50_too_long`, `Path.C50_no_components`, `Path.C50_iff`

*What holds and what does not:* Non-empty paths with texts shorter than 65536. Fails for the empty path and for longer texts (negations proved).

### C51 Normalisation — partial

*Model:* `Model/Path`. *Proof:* The normalising loop against a stack machine on components; idempotence from the characterisation of normal forms.

*Theorems:* `Path.C51_normal`, `Path.C51_idempotent`, `Path.C51_absolute_partial`, `Path.C51_relative_partial`, `Path.C51_query_partial`, `Path.C51_not_absolute`, `Path.C51_hollow`, `Path.C51_parent_of_parent`, `Path.C51_meaning_iff`, `Path.C51_absolute_iff`, `Path.C51_query_iff`

*What holds and what does not:* Normal form and idempotence in full. Absoluteness and meaning only for paths that never lead above their start; /../a becomes relative and a/.. terminates the program when queried (negations proved). C51_meaning_iff and C51_absolute_iff say exactly when normalising keeps where a path leads (never more than one step above its start, never above its root) and what is left otherwise; C51_query_iff says exactly when the result can be queried.

### C52 Path containment queries — partial

*Model:* `Model/Path`. *Proof:* Prefix/suffix/infix relations on component lists.

*Theorems:* `Path.C52_startsWith_partial`, `Path.C52_endsWith_partial`, `Path.C52_contains_partial`, `Path.C52_startsWith_throws`, `Path.C52_startsWith_empty`, `Path.C52_contains_throws`, `Path.C52_startsWith_exact`, `Path.C52_endsWith_exact`, `Path.C52_no_buffer`, `Path.C52_startsWith_wraps`

*What holds and what does not:* Exact answers for non-empty paths with texts shorter than 65536, except the root against two empty components (throws). contains throws for an argument without components; startsWith(Path{}) is false. startsWith and endsWith exactly for all paths; texts of 65536 characters and more have their length taken modulo 65536, so a path need not start with its own first component (C52_startsWith_wraps).

### C53 Path parent, base name and sub-path — proved

*Model:* `Model/Path`. *Proof:* List equations; the comparison against a strict order defined on component lists.

*Theorems:* `Path.C53_parent_basename`, `Path.C53_short`, `Path.C53_subpath`, `Path.C53_join_subpaths`, `Path.C53_make`, `Path.C53_without_memory`, `Path.C53_parent_throws`

*Note:* Memory available; what happens otherwise is C53_without_memory.

### C54 Path comparison is a total order — partial

*Model:* `Model/Path`. *Proof:* List equations; the comparison against a strict order defined on component lists.

*Theorems:* `Path.before_irrefl`, `Path.before_trans`, `Path.C54_before_total`, `Path.C54_compare_partial`, `Path.C54_relative_absolute`, `Path.C54_zero_for_different`, `Path.C54_exact`

*What holds and what does not:* Characters 1..127 and no non-empty component compared with an empty one; otherwise terminates or is zero for different paths (negations proved). C54_exact gives the outcome for all paths.

### C55 Optional is a lawful container — partial

*Model:* `Model/Optional`, `Model/Result`. *Proof:* Equations on contents, with a record of which handler is called with what; laws of functor and monad.

*Theorems:* `Opt.C55_get`, `Opt.C55_list`, `Opt.C55_functor`, `Opt.C55_monad`, `Opt.C55_map_flattens`, `Opt.C55_flatMap_consumes`, `Opt.C55_equality`, `Opt.C55_equality_identity`, `Opt.C55_swap`, `Opt.C55_map_optional`, `Opt.C55_functor_iff`

*What holds and what does not:* Everything but the functor law of map for functions that themselves return an Optional, where it fails (C55_map_flattens: an empty result is flattened). Also shown: flatMap on an lvalue leaves a moved-from payload; an object equals itself even when its content does not.

### C56 Result is a lawful sum — partial

*Model:* `Model/Optional`, `Model/Result`. *Proof:* Equations on contents, with a record of which handler is called with what; laws of functor and monad.

*Theorems:* `Res.C56_states`, `Res.C56_then`, `Res.C56_monad`, `Res.C56_functor`, `Res.C56_orElse`, `Res.C56_orElse_monad`, `Res.C56_mapError`, `Res.C56_unchanged`, `Res.C56_consumes`, `Res.C56_void`, `Res.C56_swap_partial`, `Res.C56_self_swap`

*What holds and what does not:* Everything but swap and move assignment of a Result with itself, which is undefined behaviour for types with a destructor (C56_self_swap). Reference payloads are in C149, exceptions thrown by payload constructors in C124.

### C57 Optional and Result destroy their payload exactly once — partial

*Model:* `Model/OptionalLifetime`. *Proof:* Programs over any number of variables with a log of payload constructions, destructions and uses; invariant by induction.

*Theorems:* `Payload.C57_clean_partial`, `Payload.C57_counts_partial`, `Payload.C57_optional_partial`, `Payload.C57_self_swap`, `Payload.C57_self_swap_always`, `Payload.C57_own_payload`, `Payload.C57_iff`, `Payload.C57_own_payload_always`

*What holds and what does not:* All programs without a Result swapped/move-assigned to itself and without opt = mv(*opt); for those two the negation is proved. C57_iff: a program destroys every payload once and uses it only while alive if and only if it has none of these; C57_own_payload_always: opt = mv(*opt) always uses a destroyed payload.

### C58 MD5 conforms to RFC 1321 — partial

*Model:* `Model/Hashing`, `Model/Md5/Sha1/Sha2`. *Proof:* The unrolled rounds (with their register renaming) are shown equal to the loop of the standard (`Spec/Md5`, `Spec/Sha1`, `Spec/Sha256`), the buffering and padding to the padded message of the standard, by induction over the pieces.

*Theorems:* `Hash.Md5.C58_md5_partial`, `Hash.Md5.C58_any_pieces`, `Hash.Md5.C58_long_piece`, `Hash.Md5.C58_exact`

*What holds and what does not:* For every sequence of updates below 4 GiB each the digest is MD5 (RFC 1321) of the concatenation, for both host byte orders and whatever uninitialised memory holds. C58_any_pieces says what is computed for all pieces; C58_long_piece is the negation for a single update of 8 GiB: the carry of the length counter is wrong. C58_exact: for messages of any length, the length appended is the right one exactly when no piece loses a carry.

### C59 SHA-1 conforms to FIPS 180-4 — partial

*Model:* `Model/Hashing`, `Model/Md5/Sha1/Sha2`. *Proof:* The unrolled rounds (with their register renaming) are shown equal to the loop of the standard (`Spec/Md5`, `Spec/Sha1`, `Spec/Sha256`), the buffering and padding to the padded message of the standard, by induction over the pieces.

*Theorems:* `Hash.Sha1.C59_sha1_partial`, `Hash.Sha1.C59_any_pieces`, `Hash.Sha1.C59_long_piece`, `Hash.Sha1.C59_exact`

*What holds and what does not:* For every sequence of updates below 4 GiB each the digest is SHA-1 (FIPS 180-4) of the concatenation, for both host byte orders and whatever uninitialised memory holds. C59_any_pieces says what is computed for all pieces; C59_long_piece is the negation for a single update of 8 GiB: the carry of the length counter is wrong. C59_exact: the length appended is right exactly when no piece loses a carry.

### C60 SHA-256 conforms to FIPS 180-4 — partial

*Model:* `Model/Hashing`, `Model/Md5/Sha1/Sha2`. *Proof:* The unrolled rounds (with their register renaming) are shown equal to the loop of the standard (`Spec/Md5`, `Spec/Sha1`, `Spec/Sha256`), the buffering and padding to the padded message of the standard, by induction over the pieces.

*Theorems:* `Hash.Sha2.C60_sha256_partial`, `Hash.Sha2.C60_any_pieces`, `Hash.Sha2.C60_long_piece`, `Hash.Sha2.C60_exact`

*What holds and what does not:* For every sequence of updates below 4 GiB each the digest is SHA-256 (FIPS 180-4) of the concatenation, for both host byte orders and whatever uninitialised memory holds. C60_any_pieces says what is computed for all pieces; C60_long_piece is the negation for a single update of 8 GiB: the carry of the length counter is wrong. C60_exact: the length appended is right exactly when no piece loses a carry.

### C61 Digest is repeatable — partial

*Model:* `Model/Hashing and the algorithm models`. *Proof:* Exact state after `digest`; incremental use from the C58-C60 refinement.

*Theorems:* `Hash.C61_others_partial`, `Hash.C61_second_md5`, `Hash.C61_second_sha1`, `Hash.C61_second_sha256`, `Hash.C61_md5`, `Hash.C61_sha1`, `Hash.C61_sha256`

*What holds and what does not:* False for MD5, SHA-1 and SHA-256: digest pads the object's own state, so the second digest is that of the padded message (C61_second_*), and for a new object it differs (C61_md5, C61_sha1, C61_sha256). True for Murmur3 and the stub Sha3.

### C62 Every hashing algorithm is incremental — partial

*Model:* `Model/Hashing and the algorithm models`. *Proof:* Exact state after `digest`; incremental use from the C58-C60 refinement.

*Theorems:* `Hash.C62_incremental_partial`, `Hash.C62_sha3`, `Hash.C62_murmur_last`, `Hash.C62_murmur128_last`, `Hash.C62_murmur`, `Hash.C62_gentle`

*What holds and what does not:* Proved for MD5, SHA-1, SHA-256 with pieces below 4 GiB, and for the stub Sha3 (constant digest). False for Murmur3, whose objects keep only the last update (C62_murmur_last, C62_murmur). C62_gentle: pieces of any size, as long as none loses a carry of the length.

### C63 Murmur3 conforms to the reference — partial

*Model:* `Model/Murmur3`. *Proof:* Block loop and tail against the published definition over lists (`Spec/Murmur3`).

*Theorems:* `Hash.Murmur.C63_murmur32_partial`, `Hash.Murmur.C63_murmur128_partial`, `Hash.Murmur.C63_decomposition`, `Hash.Murmur.C63_misaligned`, `Hash.Murmur.C63_misaligned128`, `Hash.Murmur.C63_long`, `Hash.Murmur.C63_big_endian`, `Hash.Murmur.C63_murmur32_exact`, `Hash.Murmur.C63_murmur128_exact`, `Hash.Murmur.C63_block`

*What holds and what does not:* Proved on little endian machines for aligned inputs below 2 GiB. Negations: blocks at addresses that are not aligned are undefined behaviour, the block arithmetic overflows int from 2 GiB on, and big endian machines give other digests. The x86 128-bit variant, for 32-bit targets, is C84. The exact theorems give the outcome for every input length, address and byte order.

### C64 Digest text form — partial

*Model:* `Model/MessageDigest`. *Proof:* Direct; the empty text because the view is taken of a vector without elements.

*Theorems:* `MessageDigest.C64_digest_partial`, `MessageDigest.C64_empty_text`, `MessageDigest.C64_not_hex`, `MessageDigest.C64_text_size`

*What holds and what does not:* Length, bytes and indexing are proved. The text is false: toString returns the empty string for every digest, because it writes into a view of the zero elements of a fresh vector.

### C65 Environment variables read back — partial

*Model:* `Model/Env`. *Proof:* The environment is a list of `NAME=VALUE` strings; libc calls by their POSIX contract; a separate map specification in `Spec/Env`.

*Theorems:* `Env.C65_get`, `Env.C65_set_get_partial`, `Env.C65_unset`, `Env.C65_iteration_partial`, `Env.C65_value_cut`, `Env.C65_name_memory`, `Env.C65_name_unterminated`, `Env.C65_clear`, `Env.C65_many`, `Env.C65_read_exact`, `Env.C65_iteration_iff`, `Env.C65_set_exact`, `Env.C65_read_back`, `Env.C65_unset_exact`

*What holds and what does not:* get/set/unset agree with a map view of environ for names and values whose views end at a NUL; the code passes views as C strings (C65_name_memory, C65_name_unterminated), iteration cuts values at a second '=' (C65_value_cut), clear() reports success and failure the wrong way round (C65_clear), and iteration over 65536 or more entries never ends (C65_many). setenv, unsetenv, clearenv and getenv are modelled as POSIX describes them. The *_exact theorems say what get, set, unset and the iteration do for every environment and every name and value, also where views do not end at a zero byte; C65_read_back says exactly when a value is read back.

### C66 Error-domain registry — partial

*Model:* `Model/ErrorDomain`, `Model/Dictionary`. *Proof:* Every registration history against a first-wins list cut at 128 entries.

*Theorems:* `ErrorDomains.C66_every_history`, `ErrorDomains.C66_registered_partial`, `ErrorDomains.C66_unregistered`, `ErrorDomains.C66_repeated`, `ErrorDomains.C66_full`

*What holds and what does not:* Exact behaviour for every history (C66_every_history). The claim holds for at most 128 registrations of different ids; a repeated id keeps its first domain while the count grows (C66_repeated), and registration 129 is dropped (C66_full). For the order of static initialisers see C110.

### C67 Exception messages are complete and in bounds — partial

*Model:* `Model/Exception`. *Proof:* Message composition into a fixed heap buffer, against the intended texts in `Spec/Exception`.

*Theorems:* `Exn.C67_text_partial`, `Exn.C67_long_text_overruns`, `Exn.C67_long_name_truncated`, `Exn.C67_no_memory`, `Exn.C67_exact`, `Exn.C67_no_memory_exact`

*What holds and what does not:* Complete texts and no write outside the buffer for every exception whose text is at least eight characters shorter than 2^16, when calloc succeeds. IOException(code, text) with a longer text writes outside its heap buffer (C67_long_text_overruns); NoSuchElementException(name) is cut; without memory the null pointer is written through. calloc, snprintf and strerror are assumed to behave as the C standard says. C67_exact gives the outcome of every constructor in full: the exact text, or the write outside the buffer, for every argument.

### C68 Filtered ranges — partial

*Model:* `Model/RangeView`. *Proof:* Iterator stepping against `List.filter`.

*Theorems:* `RangeView.C68_visits`, `RangeView.C68_filter_partial`, `RangeView.C68_first_not_skipped`, `RangeView.C68_iff`

*What holds and what does not:* Exact behaviour proved (C68_visits); the claim holds when the first element matches. begin() does not skip a first element that does not satisfy the predicate (C68_first_not_skipped).

### C69 Array views — partial

*Model:* `Model/ArrayView`. *Proof:* Element view of a byte buffer against `List` operations on elements.

*Theorems:* `ArrayView.C69_size`, `ArrayView.C69_at`, `ArrayView.C69_set`, `ArrayView.C69_indexOf`, `ArrayView.C69_equals_partial`, `ArrayView.C69_equals_not_reflexive`, `ArrayView.C69_slice_partial`, `ArrayView.C69_slice_wraps`, `ArrayView.C69_fill`, `ArrayView.C69_forEach_indexed_copies`, `ArrayView.C69_slice_exact`, `ArrayView.C69_equals_exact`, `ArrayView.C69_equals_iff`

*What holds and what does not:* Everything but: equality of elements that are not equal to themselves (address shortcut), and slice for indices whose byte offset exceeds 64 bits. forEach with an index hands out references to copies. C69_slice_exact and C69_equals_exact hold for all indices and elements.

### C70 Encoding a reader consumes it — proved

*Model:* `Model/Encoder`. *Proof:* Case analysis for an arbitrary concrete encoder.

*Theorems:* `C70_encode_reader`, `C70_base16`

*Note:* Full, for an arbitrary concrete encoder and any reader state.

### C71 Characters — partial

*Model:* `Model/Char`. *Proof:* Union of value and bytes; classification compared with the "C" locale classes over all byte values.

*Theorems:* `Chr.C71_bytes_partial`, `Chr.C71_bytes_negation`, `Chr.C71_equals`, `Chr.C71_order`, `Chr.C71_byte_order`, `Chr.C71_bytes_exact`

*What holds and what does not:* Order and equality full; bytes round trip for non-zero bytes. Negations proved: zero byte truncates; more than 5 bytes is undefined behaviour.

### C72 Prefix and suffix characters — partial

*Model:* `Model/StringView`. *Proof:* As C25, with the null/non-null distinction of the view.

*Theorems:* `StringView.C72_endsWith_char`, `StringView.C72_startsWith_char_partial`, `StringView.C72_startsWith_char_reads_outside`, `StringView.C72_startsWith_char_exact`, `StringView.C72_iff`

*What holds and what does not:* startsWith(char) reads behind an empty non-null view (negation proved).

### C73 Joining a fixed argument list is exact or an error — partial

*Model:* `Model/String`. *Proof:* As C29/C30 for the variadic functions.

*Theorems:* `Str.C73_join_args_partial`, `Str.C73_join_views_partial`, `Str.C73_join_strings_drops_separator`, `Str.C73_join_exact`

*What holds and what does not:* Exact when the total is below 65536, and for string-view arguments at any length. Negation proved: String arguments ignore a failed separator write. C73_join_exact gives the outcome for every argument list.

### C74 Character classification — partial

*Model:* `Model/Char`. *Proof:* Union of value and bytes; classification compared with the "C" locale classes over all byte values.

*Theorems:* `Chr.C74_classes_partial`, `Chr.C74_case_partial`, `Chr.C74_wide_ub`, `Chr.C74_newline_negation`, `Chr.C74_print_partial`, `Chr.C74_eof`, `Chr.C74_big_exact`, `Chr.C74_newline_exact`, `Chr.C74_wide_exact`, `Chr.C74_byte_exact`

*What holds and what does not:* Exact on code values up to 255 (little-endian). Negations proved: undefined behaviour from 256 on; U+1000A counted as new line. The *_exact theorems cover big-endian hosts, all code values and characters made from bytes.

### C75 Digest lengths — proved

*Model:* `Model/Md5/Sha1/Sha2/Sha3/Murmur3`. *Proof:* The digest each object returns is measured and compared with the announced length.

*Theorems:* `Hash.C75_digest_length`, `Hash.Fixed.C75_fixed`, `Hash.Fixed.C75_fixed_exact`

*Note:* All six classes. The lengths are in bits, although the comment in digestAlgorithm.hpp says bytes. FixedSizeDigest, which no algorithm uses, declares 8 Size modulo 2^32.

### C76 Error values — partial

*Model:* `Model/ErrorDomain`. *Proof:* Equality, conversion to bool and text composition of error values, on top of C66.

*Theorems:* `ErrorValue.C76_equality`, `ErrorValue.C76_known_partial`, `ErrorValue.C76_unknown_partial`, `ErrorValue.C76_overflow_is_false`, `ErrorValue.C76_invalid_input_is_perm`, `ErrorValue.C76_exact`, `ErrorValue.C76_unknown_iff`

*What holds and what does not:* Texts proved for up to 128 registrations of different ids, and for unknown domains with texts shorter than 2^16 when memory suffices. makeError(BasicError::Overflow) has code 0 and converts to false; BasicError::InvalidInput and GenericError::PERM have the same code and domain. C76_exact gives the text for every history, id and length.

### C77 Reader calls succeed exactly when they fit — partial

*Model:* `Model/ByteReader`. *Proof:* For every call one condition (`Fits`), one expected position/limit (`after`) and one list of delivered bytes; case analysis under the C01 invariant.

*Theorems:* `ByteReader.C77_reader_exact_partial`, `ByteReader.C77_past_limit`

*What holds and what does not:* Full success and failure specification of every reader call for histories that never lower the limit below the position; otherwise false (C01, C02 negations).

### C78 Writer calls succeed exactly when they fit — partial

*Model:* `Model/ByteWriter`. *Proof:* As C77; every byte of the buffer after the call is given by `written`.

*Theorems:* `ByteWriter.C78_writer_exact_partial`, `ByteWriter.C78_any_state`

*What holds and what does not:* Full success and failure specification of every writer call for histories that never lower the limit below the position; otherwise false (C03, C04 negations). A failed write may change the buffer below the limit: C04.

### C79 Digest constants are the ones the standards define — proved

*Model:* `Model/Md5`, `Model/Sha1`, `Model/Sha2`. *Proof:* Power series of exp(i) with a Mathlib error bound, then addition theorems in scaled integers with an error bound; roots by integer inequalities; primes by trial division related to `Nat.nth Nat.Prime`.

*Theorems:* `Hash.Md5.C79_md5`, `Hash.C79_sha1`, `Hash.C79_sha256`, `Hash.C79_sha256_init`

*Note:* Against the real sine, square root and cube root of Mathlib; integer interval arithmetic with 200 bits for the sine.

### C80 Typed access, range fills and overlapping copies of memory views — partial

*Model:* `Model/MemoryAccess`, `Model/MemoryView`. *Proof:* Views as windows of one memory block; every byte of the block after an operation is compared with the block before.

*Theorems:* `Window.C80_offsetAddress`, `Window.C80_dataAs_partial`, `Window.C80_dataAs_wraps`, `Window.C80_sliceFor_partial`, `Window.C80_sliceFor_wraps`, `Window.C80_fill`, `Window.C80_overlapping`, `Window.C80_construct`, `Window.C80_dataAs_exact`, `Window.C80_sliceFor_exact`, `Window.C80_copy_result`

*What holds and what does not:* Addresses, fills, overlapping copies and construction in full. dataAs(offset) and sliceFor compute offset + sizeof(T) and offset * sizeof(T) in 64 bits without a check: near 2^64 dataAs accesses memory outside the view and sliceFor shows other objects (negations proved). Alignment is in C104. C80_dataAs_exact and C80_sliceFor_exact say what happens for all offsets.

### C81 Arrays and vectors show the elements they were made from — partial

*Model:* `Model/ArrayFactory`. *Proof:* Allocation by the memory-manager oracle; each factory against the element list it is given; equality against list equality.

*Theorems:* `Vec.C81_makeArray_partial`, `Vec.C81_makeArrayFrom_partial`, `Vec.C81_makeVectorFrom_partial`, `Vec.C81_makeOf`, `Vec.C81_toArray`, `Vec.C81_equalsList`, `Vec.C81_equals`, `Vec.C81_makeArray_wraps`, `Vec.C81_makeVector_unwritten`, `Vec.C81_toArray_not_empty`, `Vec.C81_makeArray_exact`, `Vec.C81_makeArray_iff`, `Vec.C81_makeVectorFrom_exact`, `Vec.C81_given_memory`

*What holds and what does not:* Proved when n * sizeof(T) fits in 64 bits and the view of makeVector has whole elements; three disagreements: the unchecked multiplication, a vector of unwritten elements when the view has left-over bytes, and empty() of an array made by toArray. What happens for all other sizes is in the _exact theorems.

### C82 Printed values can be read back — partial

*Model:* `Model/Output`. *Proof:* The stream is the list of bytes appended; hexadecimal text by its inverse, dial strings through the C41 characterisation of the parser, errors through C66.

*Theorems:* `Output.C82_memoryView`, `Output.C82_digest`, `Output.C82_dial_partial`, `Output.C82_plain_dial`, `Output.C82_dial_negation`, `Output.C82_error_known_partial`, `Output.C82_error_unknown_partial`, `Output.C82_optional`, `Output.C82_optional_negation`, `Output.C82_error_exact`, `Output.C82_dial_iff`, `Output.C82_optional_iff`, `Output.C82_null`

*What holds and what does not:* Memory views and digests hold in full. The dial string round trip fails when a text without a colon has a space at an end (printed with an empty protocol, then trimmed when read); proved for parts without colons and outer spaces, and exactly for texts without a colon. An Optional holding the text None is printed like an empty one. Errors exactly for every history and id; the dial round trip as an equivalence for every accepted text with a colon.

### C83 Iterating a dictionary — partial

*Model:* `Model/DictionaryIteration`. *Proof:* Loop over two indices against the list of puts that fitted (from C47); the uneven case by the first index at which one buffer has no object.

*Theorems:* `Dict.C83_iterate`, `Dict.C83_find`, `Dict.C83_make_partial`, `Dict.C83_capacity_negation`, `Dict.C83_make_wraps`, `Dict.C83_iterate_uneven`, `Dict.C83_iterate_negation`, `Dict.C83_ofBytes_exact`, `Dict.C83_capacity_iff`, `Dict.C83_make_exact`, `Dict.C83_make_iff`

*What holds and what does not:* Iteration holds for every history of puts without exceptions. After a put whose key constructor throws there is one more value than keys and iteration is undefined (proved in general). capacity() reports only the room for values; sizes are multiplied modulo 2^64. What happens for all sizes is in the _exact and _iff theorems.

### C84 Murmur3 on 32-bit targets — partial

*Model:* `Model/Murmur3`. *Proof:* As C63, four words and a tail in four parts. The specification was evaluated against the verification values published with the algorithm.

*Theorems:* `Hash.Murmur.C84_murmur128_x86_partial`, `Hash.Murmur.C84_misaligned`, `Hash.Murmur.C84_targets_differ`, `Hash.Murmur.C84_new`, `Hash.Murmur.C84_murmur128_exact`, `Hash.Murmur.C63_block`

*What holds and what does not:* Proved on little endian machines for aligned input of less than 2 GiB; misaligned input is undefined. The digests on 32 and 64-bit targets differ. The exact theorem gives the outcome for every input length below 2^32, every address and byte order.

### C85 Murmur3 tells apart inputs that differ in one block — partial

*Model:* `Model/Murmur3`. *Proof:* Every operation (multiplication by an odd constant, xor-shift, rotation, addition) is injective; hence a round is injective in the state and in the block, and so is the end; then induction over the blocks on both sides of the differing one.

*Theorems:* `Hash.Murmur.C85_murmur32_partial`, `Hash.Murmur.C85_murmur128_partial`, `Hash.Murmur.C85_murmur128_x86_partial`, `Hash.Murmur.C85_murmur32_exact`, `Hash.Murmur.C85_murmur128_exact`, `Hash.Murmur.C85_murmur128_x86_exact`

*What holds and what does not:* Under the conditions of C63 and C84 (little endian, aligned input of less than 2 GiB), outside of which the code is undefined or computes another hash. The exact theorems cover every host, address and length for which the update is defined: digests are the same exactly if the difference is beyond the bytes looked at (inputs of 16 GiB or 64 GiB and more).

### C86 Strings own their characters through moves, swaps and copies — proved

*Model:* `Model/StringOwner`. *Proof:* Invariant over all programs: every living block has exactly one owner, and only that; the texts shown are compared with a specification that interprets the program over plain texts.

*Theorems:* `Owner.C86_texts`, `Owner.C86_blocks`, `Owner.C86_views`, `Owner.C86_length`, `Owner.C86_disposer`

*Note:* Programs are lists of operations on string variables over blocks of memory; the memory manager's answers are arbitrary. C86_length assumes the documented precondition of String(MemoryResource, size).

### C87 String views show the characters they were made from — partial

*Model:* `Model/StringViewMake`. *Proof:* A view is a pointer into memory with a size; each function reads the memory cell by cell and is compared with the text; the exact results modulo 2^16 give both the partial theorem and its negation.

*Theorems:* `Make.C87_pointer`, `Make.C87_cstring_exact`, `Make.C87_cstring_partial`, `Make.C87_cstring_long`, `Make.C87_memory_exact`, `Make.C87_memory_partial`, `Make.C87_memory_wraps`, `Make.C87_literal`, `Make.C87_reading`, `Make.C87_index_partial`, `Make.C87_index_unchecked`, `Make.C87_round_trip`, `Make.C87_equals`, `Make.C87_equals_cstring`, `Make.C87_equals_cstring_wraps`, `Make.C87_substring_len`, `Make.C87_substring_range`

*What holds and what does not:* Exact for every input. The property itself fails for C strings and memory of 65536 characters and more (length is narrowed to 16 bits: C87_cstring_long, C87_memory_wraps, C87_equals_cstring_wraps), for operator[] outside of the view, which is documented to throw but is unchecked (C87_index_unchecked), and for substring(from, len), which takes len as the end (C87_substring_len says exactly when this is the same).

### C88 Assertions pass exactly the values that meet them — partial

*Model:* `Model/Assert`, `Model/Exception`. *Proof:* Case analysis of the decision, and the C67 theorem for the text of the exception.

*Theorems:* `Assert.C88_range`, `Assert.C88_range_text_partial`, `Assert.C88_conditions`, `Assert.C88_texts_partial`, `Assert.C88_errno_partial`, `Assert.C88_invalid_state_partial`, `Assert.C88_null_text_wrong`, `Assert.C88_long_tag`, `Assert.C88_texts_exact`, `Assert.C88_errno_exact`, `Assert.C88_range_exact`, `Assert.C88_invalid_state_exact`, `Assert.C88_code`

*What holds and what does not:* Which values pass is proved in full. The texts need memory and less than 2^16 characters (C88_long_tag: a tag of 65536 characters is lost), and assertNull(ptr) fails with the text of assertNotNull(ptr) (C88_null_text_wrong). The _exact theorems give the whole outcome of each raise function for all arguments.

### C89 Comparing results — proved

*Model:* `Model/ResultCompare`, `Model/Result`. *Proof:* Case analysis of the states of both results, for comparisons given as outcomes and a relation they decide.

*Theorems:* `Res.C89_results`, `Res.C89_equivalence`, `Res.C89_values`, `Res.C89_void`, `Res.C89_throwing`, `Res.C89_move`, `Res.C89_or`

*Note:* For comparisons of contents that do not throw. C89_throwing: == of two results is noexcept, so a comparison that throws ends the program, while comparing with a value lets the exception through.

### C90 Single-string paths, the root, iteration and text queries of paths — partial

*Model:* `Model/PathMore`, `Model/Path`. *Proof:* Iteration by induction on the distance to the end; parsing through the specification of splitting (C26); the text queries through C25 and C24; joining by induction on the arguments, with what each argument holds afterwards.

*Theorems:* `Path.C90_single`, `Path.C90_single_parse`, `Path.C90_single_print`, `Path.C90_root`, `Path.C90_root_without_memory`, `Path.C90_relative`, `Path.C90_iterate`, `Path.C90_deref`, `Path.C90_iterator_eq`, `Path.C90_iterator_eq_other`, `Path.C90_forEach`, `Path.C90_forEach_moved`, `Path.C90_text_partial`, `Path.C90_text_without_memory`, `Path.C90_text_too_long`, `Path.C90_text_none`, `Path.C90_join`, `Path.C90_join_moved`, `Path.C90_moved_string`, `Path.C90_iterate_other`

*What holds and what does not:* Text queries: proved when memory suffices, the text is shorter than 65536 characters and the path has components. Otherwise proved false: the text is then empty or uninitialised memory. Iterators of different paths are equal when their indices are. makePath with an rvalue String never returns, because countPathComponents has no overload for it and its template calls itself.

### C91 Concatenating and joining arguments of mixed kinds — partial

*Model:* `Model/StringArgs.lean`. *Proof:* The overload chosen for every kind of argument is part of the model; the forwarding template totalSize(Args&&...) is the better match for a non-const String and calls itself, modelled with fuel. The text of an argument is specified separately (Text); induction over the argument list, then C29/C73. Divergence by induction on the fuel.

*Theorems:* `StringArgs.C91_concat_partial`, `StringArgs.C91_string_diverges`, `StringArgs.C91_join_partial`, `StringArgs.C91_join_diverges`, `StringArgs.C91_unterminated`, `StringArgs.C91_concat_exact`, `StringArgs.C91_concat_cases`, `StringArgs.C91_join_exact`

*What holds and what does not:* Proved for totals below 65536 and no non-const String where the size template is chosen. A String that is not const as third or later argument of makeString, or as any argument of makeStringJoin, makes the call recurse for ever (negation proved). C91_concat_exact and C91_join_exact give the outcome for arguments of every kind and length.

### C92 Random UUIDs and UUIDs as values — partial

*Model:* `Model/UuidMore.lean`. *Proof:* The filling loop is modelled over an arbitrary engine (induction on the loop shows the result is the first 16 bytes of its stream); the linear congruential engine with modulus 2^31-1 is modelled as specified by the C++ standard. Injectivity of the generator by the inverse multiplier 1407677000. UUID variables are arrays in a store, swapped element by element as std::swap does; the specification speaks about whole variables.

*Theorems:* `Uuid.C92_random_bytes`, `Uuid.C92_random_words`, `Uuid.C92_random_zero_bytes`, `Uuid.C92_random_not_version4`, `Uuid.C92_random_count`, `Uuid.C92_random_collision`, `Uuid.C92_random_equal`, `Uuid.C92_random_not_nil`, `Uuid.C92_random_device`, `Uuid.C92_swap`, `Uuid.C92_moveAssign`, `Uuid.C92_copyAssign`, `Uuid.C92_construct`, `Uuid.C92_bytes`

*What holds and what does not:* Initialisation and the value operations are proved completely. Randomness fails: with the standard library of GCC on 64-bit Linux bytes 4-7 and 12-15 are always zero, the version of RFC 4122 is never set, there are at most 2147483646 different results and every 32-bit device value shares its result with another (negations proved).

### C93 Questions to an owning string — partial

*Model:* `Model/StringQueries.lean`. *Proof:* The delegating functions are modelled with the buffer of the string as the memory around its view, so that a read behind the buffer is undefined behaviour. The specification speaks about the text held (Has) and uses the specifications of C21-C26; the loops over the empty needle are done by induction.

*Theorems:* `Str.C93_made`, `Str.C93_equals`, `Str.C93_equals_cstring`, `Str.C93_cstring_partial`, `Str.C93_cstring_wraps`, `Str.C93_less_partial`, `Str.C93_less_empty`, `Str.C93_parts`, `Str.C93_find_char`, `Str.C93_find_partial`, `Str.C93_empty_needle`, `Str.C93_ends_partial`, `Str.C93_startsWith_empty`, `Str.C93_less_exact`, `Str.C93_startsWith_exact`, `Str.C93_empty_needle_exact`

*What holds and what does not:* Complete for equality with views and strings, characters, parts, hash, trimming and character search. Negations proved: looking for "" and startsWith(char) on an empty string read behind the buffer, '<' with an empty right side ends the program, a C string of 65536 characters equals the empty string. The _exact theorems give < , the first character and the search for an empty literal for all strings.

### C94 Hashing from byte readers — partial

*Model:* `Model/HashReader.lean`. *Proof:* update(ByteReader&) is modelled over an arbitrary virtual update(MemoryView), with the address of the view; the sequence of calls by a store of readers. The specification says what each call contributes to the message (contributions) and which readers end at their limit (finals). Induction over the calls, then C58-C60, C62 and C63; that every reachable reader is Sound is an induction over its calls.

*Theorems:* `Hash.C94_sound`, `Hash.C94_updateReader`, `Hash.C94_feed`, `Hash.C94_digest_partial`, `Hash.C94_sha3`, `Hash.C94_murmur_twice`, `Hash.C94_murmur_position`, `Hash.C94_feed_any`, `Hash.C94_digest_exact`

*What holds and what does not:* C94_feed holds for all calls; the digests are the published ones for pieces below 4 GiB (the 32-bit length argument of the update functions, C58-C60). Negations for Murmur3: a reader given twice replaces the hash by that of the empty message, and a reader position that is not a multiple of four is a misaligned access. C94_digest_exact gives the digest of the computation for every sequence of inputs.

### C95 System error codes and texts — proved

*Model:* `Model/SystemErrors.lean`, `Model/ErrorDomain.lean`. *Proof:* The enumerations are modelled as tables of names and values; the specification is the table of asm-generic/errno.h with the C names. The tables are compared completely by kernel evaluation and lifted to errors with arbitrary tags. message is modelled over an arbitrary strerror and allocator, using C87 and C29.

*Theorems:* `SystemErrors.C95_values`, `SystemErrors.C95_named`, `SystemErrors.C95_errno`, `SystemErrors.C95_message`

*Note:* The error numbers are those of asm-generic/errno.h (Linux except alpha, mips, parisc and sparc), transcribed into the specification. strerror is an assumption: it returns the address of a terminated text. The two tables are finite and checked completely by kernel evaluation; everything else is for all values. BasicError collides with these codes: see C76.

### C96 Decoders on arbitrary text — proved

*Model:* `Model/Base64.lean`, `Model/Base16.lean`. *Proof:* The specification takes alphabet indices to bits and bits to bytes (Rfc4648.six, octets), dropping an incomplete byte. C96_base64_any: induction over groups of four indices, with the three byte formulas compared to the bit string over all pairs of indices by kernel evaluation. C96_base64_rest shows that every memory is in one of three cases and gives the other two (no stopping byte: undefined; empty view: nodata). C96_base16_any and C96_base16_iterator: induction over the digit pairs; C96_base16_split shows that every text has the form assumed.

*Theorems:* `Base64.C96_base64_any`, `Base64.C96_base64_rest`, `Base64.C96_decodedSize`, `Base16.C96_base16_any`, `Base16.C96_base16_split`, `Base16.C96_base16_iterator`

*Note:* Outcome of every call, undefined calls included.

### C97 Memory handed between resources, readers and writers is freed exactly once — proved

*Model:* `Model/StreamOwner.lean`. *Proof:* Variables and blocks of memory; every operation is a step. By induction over programs: the number of variables owning a block is 1 while it lives and 0 afterwards (`C97_one_owner`), from which no double free (`C97_destroy`), no leak (`C97_scope_end`) and the use of owned memory (`C97_owning_reader`, `C97_owning_writer`: lists of calls equal those of `ByteReader`/`ByteWriter`) follow. `C97_ub_only_dangling` and `C97_no_lend` say where undefined behaviour can come from, `C97_lent_dangles` that it does come from there. `C97_write_then_read` follows bytes from a writer through `moveResource` into a reader.

*Theorems:* `Streams.C97_one_owner`, `Streams.C97_destroy`, `Streams.C97_scope_end`, `Streams.C97_blocks`, `Streams.C97_owning_reader`, `Streams.C97_owning_writer`, `Streams.C97_moved_from`, `Streams.C97_ub_only_dangling`, `Streams.C97_no_lend`, `Streams.C97_lent_dangles`, `Streams.C97_write_then_read`, `Streams.C97_dangling_reader`, `Streams.C97_dangling_writer`, `Streams.C97_made`, `Streams.C97_swap`

*Note:* Invariant over all operation sequences. C97_lent_dangles shows that the exception for streams made by reference is needed.

### C98 The text of an exception is freed exactly once and survives moving — partial

*Model:* `Model/ExceptionOwner.lean`, `Model/Exception.lean`. *Proof:* Variables and blocks of memory; every operation is a step; assignment is two exchanges one after the other, so that assigning to itself is covered. Invariant by induction over programs: what a variable points to is allocated and is not another variable's (`C98_never_twice`). `C98_lost_iff` says exactly which operation loses which block; from it `C98_no_leak_partial` (no assignment, no dropped writer) and the negation `C98_assign_leaks` (lost for every continuation). `C98_moved_from` is the second negation. Exceptions themselves cannot be assigned, so for them the partial theorem covers everything.

*Theorems:* `ExnOwner.C98_never_twice`, `ExnOwner.C98_lost_iff`, `ExnOwner.C98_no_leak_partial`, `ExnOwner.C98_assign_leaks`, `ExnOwner.C98_move_keeps_text`, `ExnOwner.C98_moved_from`, `ExnOwner.C98_assign`, `ExnOwner.C98_text_stays`, `ExnOwner.C98_made`

*What holds and what does not:* Double frees, dangling texts and text preservation are proved for all programs. Leak freedom holds without assignment of error texts and dropped writers (C98_no_leak_partial; exceptions cannot be assigned); otherwise the negation is proved (C98_assign_leaks, C98_lost_iff). A moved-from text keeps its size (C98_moved_from).

### C99 Memory is kept in RAM exactly as long as a Lock object for it lives — partial

*Model:* `Model/MemoryLock.lean`. *Proof:* The pages locked and the Lock objects; mlock and munlock as the manual says (per page, not nesting). Which page a byte is on is specified by the bytes it has (Holds), not by the division used in the model (touches_iff). Invariants by induction over programs: locked pages are covered (full), and covered pages are locked while no two live objects share a page (partial, the negation is C99_shared_page for every world with a shared page).

*Theorems:* `MemLock.C99_locked_covered`, `MemLock.C99_all_released`, `MemLock.C99_exactly_partial`, `MemLock.C99_shared_page`, `MemLock.C99_lock`, `MemLock.C99_moved_from`, `MemLock.C99_page`, `MemLock.C99_iff`

*What holds and what does not:* Full: no page stays locked without a live object, and all are released at the end. That covered pages are locked holds while no two live locks share a page; the negation for shared pages is C99_shared_page. mlock and munlock are assumed to behave as mlock(2) says. C99_page says for each page when it is locked and C99_iff exactly which histories keep the property.

### C100 Characters keep their bytes through copying, swapping and assignment, and c_str is these bytes — partial

*Model:* `Model/CharObject.lean`, `Model/Char.lean`. *Proof:* The object with its fifth byte, which may be indeterminate; a store of variables. Refinement by induction over programs: the values are those of a specification that knows only lists of values, the fifth byte is decided by the constructor alone (`C100_values`). `C100_cstr` says exactly when reading the C string is defined. Partial for fewer than four bytes; the negation holds for every copied character of four bytes.

*Theorems:* `CharObj.C100_values`, `CharObj.C100_cstr`, `CharObj.C100_cstr_partial`, `CharObj.C100_four_bytes`

*What holds and what does not:* Values proved in full. c_str is characterised exactly (C100_cstr); it is the bytes for fewer than four bytes, and undefined for every copy of a four byte character (C100_four_bytes).

### C101 Views refer only to memory they were made for, and memory given as constant is not written — partial

*Model:* `Model/ViewObject.lean`, `Model/MemoryView.lean`. *Proof:* Memory as a map from addresses, variables with their static type. One invariant over all programs, parameterised by the ranges allowed for each type: with all given ranges it gives `C101_inside`, with the mutable ones `C101_constant_partial`. `C101_write`, `C101_read`, `C101_fill`, `C101_equals` are refinements: the functions on bytes of Model/MemoryView are what the address level does, with any overlap and with the address shortcut. `C101_moves` counts views. Negation: `C101_constant_written`.

*Theorems:* `ViewObj.C101_inside`, `ViewObj.C101_constant_partial`, `ViewObj.C101_constant_written`, `ViewObj.C101_equals`, `ViewObj.C101_write`, `ViewObj.C101_read`, `ViewObj.C101_fill`, `ViewObj.C101_moves`, `ViewObj.C101_moved_from`, `ViewObj.C101_slice_inside`

*What holds and what does not:* Everything proved in full except that constant memory is not written: true without casts and without exchanges between MemoryView and MutableMemoryView; false with them (C101_constant_written: v = mv(m) or swap(v, m) for a MemoryView v and MutableMemoryView m).

### C102 Iterating over the environment while it is changed — partial

*Model:* `Model/EnvIterate.lean`, `Model/Env.lean`. *Proof:* The array environ with the null pointers behind the entries; the loop over iterators with an arbitrary callback on the environment. `C102_stable_partial` by induction over the rounds for every callback that leaves what is unvisited; `C102_set_new` is an instance. The failures are exact for all environments: `C102_unset_skips` (entries at even positions are visited and removed, those at odd positions stay), `C102_clear_undefined`, `C102_own_name`.

*Theorems:* `EnvIter.C102_stable_partial`, `EnvIter.C102_set_new`, `EnvIter.C102_own_name`, `EnvIter.C102_unset_skips`, `EnvIter.C102_clear_undefined`, `EnvIter.C102_increment`, `EnvIter.C102_add_after_removal_undefined`

*What holds and what does not:* Proved for callbacks that leave unvisited entries in place. Removing the visited variables skips every second one, clearing is undefined, and the name given to the callback cannot be used to change the variable (all proved for every environment).

### C103 Both variants of SHA-256 compute the same digest — proved

*Model:* `Model/Sha2Smaller.lean`, `Model/Sha2.lean`, `Model/Hashing.lean`. *Proof:* Invariant over the 64 steps of the loop: the reader stands at the next word, the array A, rotated in each step, holds the working variables of the standard in order, and W holds the schedule so far. The block function is then the compression function of the specification, and with C60 equal to the unrolled variant; whole messages by the lemmas shared by all digests.

*Theorems:* `Hash.Sha2.Smaller.C103_block`, `Hash.Sha2.Smaller.C103_same_digest`, `Hash.Sha2.Smaller.C103_sha256`

*Note:* Both variants shown equal for every state and block and every division of a message into pieces of any length; equality with the standard for pieces below 4 GiB as in C60.

### C104 Objects are made and used only at aligned addresses — partial

*Model:* `Model/Alignment.lean`. *Proof:* Addresses modulo the alignment: sizes are multiples of the alignment and the alignment divides 2^64, so all offsets the code computes (also those that wrap) are multiples of it; invariant over slices and over all sequences of vector operations. Where the memory itself is not aligned the first object made is undefined behaviour (negations, and an exact condition for the error-domain registry).

*Theorems:* `Align.C104_views`, `Align.C104_vector_partial`, `Align.C104_heap`, `Align.C104_misaligned`, `Align.C104_dataAs`, `Align.C104_registry`, `Align.C104_put`

*What holds and what does not:* Proved for memory aligned for the element type, in particular heap memory and alignments up to 16. Missing: memory that is not aligned, where the code is shown to have undefined behaviour; the registry of error domains is defined exactly if the linker puts two byte arrays at multiples of 8. C104_put: what a dictionary in aligned buffers answers.

### C105 String builder announces the room its appends need — partial

*Model:* `Model/StringBuilderMeasure.lean`, `Model/StringBuilder.lean`. *Proof:* Announced sizes are compared with the decimal notation specification (Spec/Decimal, IsSigned) and the item texts of C32. `C105_complete_iff_partial` follows by induction on the items through the accumulation relation of C32: with exactly the announced room everything fits unless the last non-empty text is a number, because snprintf needs a byte for its terminating zero.

*Theorems:* `StringBuilder.C105_unsigned`, `StringBuilder.C105_signed`, `StringBuilder.C105_item`, `StringBuilder.C105_literal`, `StringBuilder.C105_complete_iff_partial`, `StringBuilder.C105_last_number_lost`, `StringBuilder.C105_remaining_partial`, `StringBuilder.C105_remaining_wraps`, `StringBuilder.C105_after_build`

*What holds and what does not:* Announced sizes are exact. For buffers below 65536 bytes it is decided exactly when a builder holds everything: one byte more than announced always suffices, and the announced size itself does unless a number comes last, which is then lost (negation proved for every number). remaining() is 0 for a buffer of 65536 bytes.

### C106 Encoding and decoding in pieces — partial

*Model:* `Model/EncodePieces.lean`, `Model/Base16.lean`, `Model/Base64.lean`. *Proof:* Calls in turn are a fold over the destination. Base16 and the whole-group case of base64 by splitting the list of writes; the converse by counting the characters before the first padding; the loss by C12_round_trip_iff with the rest of the text as the memory behind it.

*Theorems:* `Coder.C106_base16`, `Coder.C106_base16_decode`, `Coder.C106_base16_round_trip`, `Coder.C106_base64`, `Coder.C106_base64_iff`, `Coder.C106_base64_dropped`

*What holds and what does not:* Full for base16 encoding, and for base16 decoding of pieces of even length (an odd piece is refused). For base64 it holds exactly when each piece but the last non-empty one has a length divisible by three (C106_base64_iff); otherwise the text has padding in the middle and the decoder drops everything after it and reports success (C106_base64_dropped).

### C107 Records survive ByteWriter and ByteReader — proved

*Model:* `Model/Record.lean`, `Model/Endian.lean`, `Model/ByteWriter.lean`, `Model/ByteReader.lean`. *Proof:* The bytes of a field are specified by digit weights (IsLittleEndian, IsBigEndian) and shown unique; writing is a sequence of writes (Lemmas/Chunks), reading by induction on the fields with the reader standing where the field begins. Truncation and lack of room by the same induction, up to the first field that does not fit.

*Theorems:* `Record.C107_written`, `Record.C107_no_room`, `Record.C107_read`, `Record.C107_truncated`, `Record.C107_round_trip`, `Record.C107_injective`

*Note:* Field lists and byte strings of any length; total size below 2^64. Buffers do not overlap. Floating-point fields are host-order fields of 4 or 8 bytes.

### C108 String functions agree with each other — proved

*Model:* `Model/StringView.lean`, `Model/String.lean`. *Proof:* Laws between functions, derived from what each of them is specified to do (C21, C24-C27, C29-C31). The exact condition for pieces to come back from a join is `Recoverable`: each piece but the last ends where the delimiter first occurs in the piece followed by the delimiter.

*Theorems:* `StringView.C108_found_at_ends`, `StringView.C108_first_and_last`, `StringView.C108_search_again`, `StringView.C108_char_search`, `StringView.C108_substring_substring`, `StringView.C108_cut`, `StringView.C108_substring_found`, `StringView.C108_trim`, `StringView.C108_hash_append`, `Str.C108_join_of_split`, `Str.C108_split_of_join`, `Str.C108_splitChar_of_join`, `Str.C108_replace_is_split_join`, `Str.C108_replace_unchanged_iff`, `Str.C108_replaced_character`, `Str.C108_pattern_may_reappear`, `Str.C108_concat`

*Note:* Non-empty needles, delimiters and patterns (C24, C27, C31 for empty ones); results below 65536 characters where a string is made (C29-C31 beyond).

### C109 Path operations agree with each other — proved

*Model:* `Model/Path.lean`. *Proof:* Joining and cutting are shown to be concatenation and take/drop of the components when memory is there, from which the laws follow; texts through C48, relations through C52 and C53. `normalize` is a fold over the components (`norm`); the left law is its idempotence (C51), the right law is an equivalence with `StaysBelow 1`, its converse by a left part deeper than the right part can climb.

*Theorems:* `Path.C109_join_assoc`, `Path.C109_join_none`, `Path.C109_join_cancel`, `Path.C109_join_parts`, `Path.C109_join_text`, `Path.C109_subpath`, `Path.C109_relations`, `Path.C109_normalize_left`, `Path.C109_normalize_right_iff`

*Note:* Where memory is needed the laws are for a memory manager that grants it (Plenty); C109_join_cancel needs only that granted memory has the size asked for. startsWith, endsWith and text need texts shorter than 65536 characters.

### C110 Error domains registered while the program starts — partial

*Model:* `Model/Startup.lean`, `Model/ErrorDomain.lean`. *Proof:* Dynamic initialisers as a list in any order; the map does not exist before its own initialiser. Induction over the list, with C66_every_history for what is found afterwards. The condition on the order is an equivalence; a second reading, where zeros are taken for an empty map, is decided for every order too.

*Theorems:* `Startup.C110_start_partial`, `Startup.C110_order`, `Startup.C110_zeroed`, `Startup.C110_lost`

*What holds and what does not:* Proved when the map's initialiser runs first. C++ leaves the order open: C110_order shows the start is defined exactly then, C110_zeroed that where zeros are taken for a map earlier registrations are lost without notice, C110_lost gives the library's own two initialisers.

### C111 The dial string program prints the parts of its arguments — partial

*Model:* `Model/DsParser.lean`, `Model/Atom.lean`, `Model/Output.lean`. *Proof:* What a text means as a dial string is specified by splitting and trimming relations (Spec/DsParser), shown total. The program is run on all argument lists by induction over the loop; parsing through C41, atoms through C40_exact, error output through C82_error_exact.

*Theorems:* `DsParser.C111_exact`, `DsParser.C111_every_argument`, `DsParser.C111_program_partial`, `DsParser.C111_non_ascii`, `DsParser.C111_long_argument`, `DsParser.C111_no_name`

*What holds and what does not:* C111_exact decides the output for every argument list. The claim fails for protocols with characters above 127 (shown differently), for arguments of 65536 characters and more (cut), and without argv[0] (undefined).

### C112 Texts are ordered like the values they stand for — partial

*Model:* `Model/StringView.lean`, `Model/Base16.lean`, `Model/Uuid.lean`, `Model/Atom.lean`. *Proof:* Comparison of strings is shortlex (C22). Decimal notations in shortlex order have values in order because a number with fewer digits is below the power of ten the longer one reaches (Spec/Decimal); hexadecimal digits are in the order of their values; the rest by the order lemmas of C39 and C40.

*Theorems:* `StringView.C112_decimal`, `StringView.C112_hex`, `StringView.C112_uuid`, `StringView.C112_atom_partial`, `StringView.C112_atom_length`, `StringView.C112_base64`, `StringView.C112_version`, `StringView.C112_atom_exact`, `StringView.C112_version_partial`

*What holds and what does not:* Numbers, base16 and UUIDs completely. Atoms only for names of equal length; negations for atoms of different length, base64 and versions. Atoms of any lengths: dictionary order, with exactly when that is the string order. Versions of equally wide numbers compare as text like the versions.

### C113 Chains of results — proved

*Model:* `Model/Result.lean`, `Model/ResultVoid.lean`. *Proof:* The combinators of `Result<void, E>` with what they leave in the object, and chains of combinators, in `Model/ResultVoid`; the reference in `Spec/Railway` is a walk on two tracks. Induction over the chain with a case split per combinator.

*Theorems:* `Res.C113_chain`, `Res.C113_append`, `Res.C113_at_most_once`, `Res.C113_error_skips`, `Res.C113_good_skips`, `Res.C113_origin`, `Res.C113_void_after`, `Res.C113_mapError`, `Res.C113_lvalue_differs`

*Note:* Every chain agrees with a two-track reference; what each combinator of Result<void, E> leaves in the object. Handlers that throw are not modelled; the orElse overload that cannot be instantiated is left out.

### C114 Work on separate parts of a memory block does not interfere — proved

*Model:* `Model/SharedMemory.lean`, `Model/MemoryAccess.lean`. *Proof:* Each action is shown to change exactly what its view shows, as the same action does on a block of its own (`step_local`); induction over the program.

*Theorems:* `Shared.C114_independent`, `Shared.C114_order`, `Shared.C114_cut`, `Shared.C114_overlap`, `Shared.C114_seen`

*Note:* Full for blocks below 2^63 bytes. C114_overlap shows that the views must not overlap.

### C115 Memory managers and the memory of the machine — proved

*Model:* `Model/SystemMemory.lean`. *Proof:* The constructor as a chain of results with the answers of sysconf as parameter; exact characterisation of success and of each refusal, with the order of the two queries as parameter; the function-local static as a state machine, by induction on the history.

*Theorems:* `SysMem.C115_queries`, `SysMem.C115_create_exact`, `SysMem.C115_never_more`, `SysMem.C115_create`, `SysMem.C115_product_wraps`, `SysMem.C115_refusals`, `SysMem.C115_system_manager`

*Note:* sysconf is a parameter; its two answers are taken at one moment. The product is computed modulo 2^64 (C115_product_wraps: a machine reporting exactly 2^64 bytes gets no manager).

### C116 Calls of noexcept functions that end the program — proved

*Model:* `Model/StringView.lean`, `Model/Path.lean`, `Model/ByteReader.lean`, `Model/ViewObject.lean`, `Model/Optional.lean`, `Model/Result.lean`, `Model/Uuid.lean`, `Model/ErrorDomain.lean`, `Model/Env.lean`, `Model/SystemErrors.lean`. *Proof:* `terminate` is an outcome of its own in the model; for each function an equivalence between that outcome and a condition on the arguments, from the exact characterisations of the other properties.

*Theorems:* `Ends.C116_string_compare`, `Ends.C116_path_compare`, `Ends.C116_path`, `Ends.C116_reader`, `Ends.C116_slice`, `Ends.C116_optional_result`, `Ends.C116_random_uuid`, `Ends.C116_never`

*Note:* Exact conditions of std::terminate for each modelled noexcept function with a way to an exception; the never cases for every history and environment.

### C117 Memory functions of the C library are called as they require — partial

*Model:* `Model/MemoryCalls.lean`, `Model/ViewObject.lean`. *Proof:* Each function is modelled as the list of calls it makes, with addresses; the contract is in `Spec/MemoryContracts`. Case splits and linear arithmetic; `C117_effects` and `C117_streams` tie the recorded calls to the models of C101, C01 and C03.

*Theorems:* `MemCalls.C117_equals`, `MemCalls.C117_write`, `MemCalls.C117_read_fill`, `MemCalls.C117_reader`, `MemCalls.C117_writer`, `MemCalls.C117_compare`, `MemCalls.C117_errors`, `MemCalls.C117_uuid`, `MemCalls.C117_not_null_partial`, `MemCalls.C117_hash`, `MemCalls.C117_effects`, `MemCalls.C117_streams`, `MemCalls.C117_append`, `MemCalls.C117_uuid_all`

*What holds and what does not:* In full for views that are not null, for writes, UUIDs and hashing. Views of the null pointer break the contract: comparing an empty null view with an empty one that is not null, reading into or filling a null view, reading no bytes with a ByteReader, comparing two empty strings, appending an empty null text to an error text; for each function the condition is an equivalence.

### C118 A digest is the whole state of the hash — partial

*Model:* `Model/Hashing.lean`, `Model/Md5.lean`, `Model/Sha1.lean`, `Model/Sha2.lean`. *Proof:* The words of a digest are read back with the word functions of the standards (`leWord_flatMap`, `beWord_flatMap`, induction); the invariant of `update` holds of an object made from them and from the padded length, whatever its buffer (`inv_resume`), so the lemmas behind C58-C60 give the rest.

*Theorems:* `Hash.C118_md5_partial`, `Hash.C118_sha1_partial`, `Hash.C118_sha256_partial`, `Hash.C118_collision_md5_partial`, `Hash.C118_collision_sha1_partial`, `Hash.C118_collision_sha256_partial`, `Hash.C118_forge_md5_partial`, `Hash.C118_forge_sha1_partial`, `Hash.C118_forge_sha256_partial`, `Hash.C118_md5`, `Hash.C118_sha1`, `Hash.C118_sha256`, `Hash.C118_number`, `Hash.C118_forge`, `Hash.C118_collision`

*What holds and what does not:* For pieces of any size the digest can be extended from the number its padding records (C118_md5, C118_sha1, C118_sha256, C118_collision, C118_forge). Missing: with the length of the message in place of that number it holds exactly if no piece has lost a carry (C118_number); the _partial theorems state it for pieces below 4 GiB.

### C119 Murmur3 reaches every digest — proved

*Model:* `Model/Murmur3.lean`. *Proof:* Every step (multiplication by an odd constant, rotation, shift and exclusive or, addition) is given an inverse and shown to be a bijection (`Lemmas/Murmur`); a hash over blocks made of such steps is treated once for all (`Shape`), and C63_murmur32_exact, C63_murmur128_exact and C84_murmur128_exact carry the result to the code.

*Theorems:* `Hash.Murmur.Reach.C119_preimage32`, `Hash.Murmur.Reach.C119_preimage128`, `Hash.Murmur.Reach.C119_preimageX86`, `Hash.Murmur.Reach.C119_force32`, `Hash.Murmur.Reach.C119_force128`, `Hash.Murmur.Reach.C119_forceX86`

*Note:* Whole inputs below 2 GiB at an aligned address, where update is defined (C63_murmur32_exact, C63_murmur128_exact).

### C120 Versions keep numbers and labels together — partial

*Model:* `Model/VersionValue.lean`, `Model/StringOwner.lean`. *Proof:* Versions hold positions of string variables in the world of C86; simulation relation (each living version owns two different living strings, no string is without owner), by cases on the operation and induction on the program; the specification is a list of plain versions.

*Theorems:* `VersionValue.C120_values`, `VersionValue.C120_blocks`, `VersionValue.C120_labels`, `VersionValue.C120_together_false`, `VersionValue.C120_together_partial`, `VersionValue.C120_assign`, `VersionValue.C120_source_unchanged`, `VersionValue.C120_there_and_back`, `VersionValue.C120_swap`, `VersionValue.C120_conserved`, `VersionValue.C120_build_version`, `VersionValue.C120_build_exact`

*What holds and what does not:* Full: reading is always defined and follows the specification, ownership, labels conserved and kept in their place, swap (own and standard). The part 'numbers and labels stay together' is false for the source of a move assignment: numbers are copied but String move assignment swaps, so after a = mv(b) the object b is a mixture (2.0.0 and 1.0.0-rc1 give 2.0.0-rc1). Proved without move assignment, and C120_assign says exactly what the source becomes.

### C121 Type functions and casts of utils agree with the standard ones — partial

*Model:* `Model/TypeFunctions.lean`. *Proof:* Types as terms, specialisations as patterns; which one is chosen is computed by matching and partial ordering as the C++ standard says (`select`), then case analysis over the shape and qualifiers of the type; the standard functions are written separately from [meta.trans].

*Theorems:* `Ty.C121_decay_exact`, `Ty.C121_decay_false`, `Ty.C121_decay_partial`, `Ty.C121_decay_idempotent`, `Ty.C121_remove_const`, `Ty.C121_mv_exact`, `Ty.C121_mv_is_move`, `Ty.C121_ref_or_rvalue`, `Ty.C121_forward`, `Ty.C121_forward_rvalue`

*What holds and what does not:* Exact for every type. Decay differs from std::decay for functions (left as they are) and is ambiguous for const volatile types and arrays of volatile elements; mv equals std::move exactly for arguments that are neither const nor volatile nor arrays: const arguments do not compile, an array gives a reference to a temporary pointer that is gone when mv returns. fwd has no form for rvalues that are not const.

### C122 Array views made from pointers show exactly the elements given — partial

*Model:* `Model/TypedView.lean`, `Model/ViewObject.lean`. *Proof:* The byte counts as arithmetic modulo 2^64, signed pointer differences as integers; equivalences by linear arithmetic and lemmas on division.

*Theorems:* `Typed.C122_pointer_exact`, `Typed.C122_pointer_false`, `Typed.C122_pointer_partial`, `Typed.C122_array`, `Typed.C122_range_partial`, `Typed.C122_range_reversed`, `Typed.C122_round_trip`, `Typed.C122_empty`, `Typed.C122_values`

*What holds and what does not:* Exact for all arguments. Fails when sizeof(T) * length wraps around 64 bits (2^61 elements of 8 bytes are an empty view, even at the null pointer) and for reversed pointers (a view of more than 2^63 bytes); otherwise proved. empty() and size() == 0 disagree exactly for views with some but fewer bytes than an element.

### C123 Path functions lose no memory, whenever it runs out — partial

*Model:* `Model/PathMemory.lean`. *Proof:* The manager is a function that answers the k-th request as it likes. The path functions are modelled with every block they ask for and every destructor that runs; giving back a block that is not given out is undefined behaviour. For each function: from any heap whose blocks are counted, it never has undefined behaviour and adds exactly the blocks of its result (separation-style lemmas with a frame); values by simulation of Model/Path.lean. Programs by induction.

*Theorems:* `PathMem.C123_program`, `PathMem.C123_all_back`, `PathMem.C123_ended`, `PathMem.C123_parse`, `PathMem.C123_single`, `PathMem.C123_root`, `PathMem.C123_join`, `PathMem.C123_normalize_partial`, `PathMem.C123_getParent_partial`, `PathMem.C123_subpath_partial`, `PathMem.C123_toString`, `PathMem.C123_normalize_wrong`, `PathMem.C123_getParent_wrong`, `PathMem.C123_join_loses`, `PathMem.C123_moved`

*What holds and what does not:* Memory: in full, for all programs. Reporting: in full for parse, makePath and the root; proved false for normalize, getParent and subpath, which leave out components whose copy is refused (normalize then even removes the wrong one), and subpath ends the program without memory for its array. A join that fails has emptied the paths moved into it.

### C124 Exceptions of payloads leave the calls of Optional and Result — partial

*Model:* `Model/PayloadThrow.lean`, `Model/OptionalLifetime.lean`. *Proof:* Each call as the nesting of its noexcept specifications around the constructor that runs; equivalences over all traits by case analysis of the (finite) tables of traits and constructors, swaps by induction over the list of moves, programs by induction over the operations on top of the invariant of C57.

*Theorems:* `PayloadThrow.C124_transparent`, `PayloadThrow.C124_exact`, `PayloadThrow.C124_copy_ends`, `PayloadThrow.C124_swap`, `PayloadThrow.C124_exchange`, `PayloadThrow.C124_program`, `PayloadThrow.C124_ended`, `PayloadThrow.C124_alternative`

*What holds and what does not:* The property fails: the specifications of most constructors ask whether the payload's move constructor is noexcept, whichever constructor runs, so copying a payload that moves without exceptions ends the program (C124_copy_ends). C124_transparent says exactly which calls pass exceptions for every payload type, C124_exact when each of the others ends the program. Swap and move assignment never pass an exception on (C124_swap). For programs that use only the transparent calls the property holds (C124_program, with the self operations C57 excludes).

### C125 Programs with arrays and vectors are programs with lists — partial

*Model:* `Model/Containers.lean`, `Model/ArrayFactory.lean`, `Model/Vector.lean`. *Proof:* Simulation relation between cells of buffers and lists with a capacity for each variable (built on C44 and C81), by cases on the operation and induction on the program; conservation by counting the elements that satisfy a predicate; std::swap as the three operations it makes.

*Theorems:* `Containers.C125_refines_partial`, `Containers.C125_programs_partial`, `Containers.C125_moves`, `Containers.C125_std_swap`, `Containers.C125_array_null`

*What holds and what does not:* Proved for all programs whose sizes fit into 64 bits and that do not assign nullptr to an array with elements; for that the negation is proved (the array keeps its size and its destroyed elements). empty() of an array is whether it has no memory, not whether it has no elements, so the specification gives it as such (an array made by toArray() of an empty vector is not empty, C81_toArray_not_empty). A container compared with itself is equal whatever == of the elements says.

### C126 Chains of results of different types — partial

*Model:* `Model/ResultTypes.lean`. *Proof:* Overloads as data (ref-qualifier, enable_if condition, body) with overload resolution by best binding; each body with the types it returns, the constructors it calls and the conversions made in braces. Narrowing against the ranges of the types by arithmetic on powers of two; what compiles by cases on handler and object; chains by induction.

*Theorems:* `ResTy.C126_narrowing`, `ResTy.C126_type`, `ResTy.C126_overload`, `ResTy.C126_static`, `ResTy.C126_stage`, `ResTy.C126_chain`, `ResTy.C126_then`, `ResTy.C126_then_void`, `ResTy.C126_orElse`, `ResTy.C126_orElse_void`, `ResTy.C126_mapError`, `ResTy.C126_mapError_void`, `ResTy.C126_kinds`

*What holds and what does not:* Choice of overload, types of chains and conservation of values proved in full for all types and chains. Not every combinator takes every kind of handler: exactly which calls compile is proved for each of the six combinators, with the negation of the last sentence (C126_kinds). Handlers of Result<V, E>::mapError that return an Ok are not modelled.

### C127 Strings made from literals keep their characters — partial

*Model:* `Model/LiteralWorld.lean`. *Proof:* Programs as lists of statements over arrays with storage and life; every statement keeps arrays in place and views inside their arrays (induction), so a view of a literal reads the same in every later world; each statement keeps the promise of the type or is one of the two that break it.

*Theorems:* `Literal.C127_step`, `Literal.C127_kept_partial`, `Literal.C127_literals_partial`, `Literal.C127_exact`, `Literal.C127_dangles`

*What holds and what does not:* Proved for all programs in which no statement breaks the promise of the type, with the exact statements that break it (C127_step) and exactly which kept strings are safe (C127_exact). False in general: StringLiteral binds to any array of characters, and swap exchanges it with a StringView (C127_dangles).

### C128 Programs with hash objects compute the digests of the messages — partial

*Model:* `Model/HashProgram.lean`. *Proof:* A simulation between two worlds by induction on the program: each block hash object is related to a message by the list of pieces that made it (the invariant of C58-C60 is reused through `pad_updates`), so update appends to the message and digest outputs the published digest and appends the padding; a second simulation shows that the plain reading (no padding) gives the same digests as long as nothing is used after its digest.

*Theorems:* `Hash.Prog.C128_programs`, `Hash.Prog.C128_plain_partial`, `Hash.Prog.C128_names`, `Hash.Prog.C128_reuse`, `Hash.Prog.C128_slicing`

*What holds and what does not:* C128_programs gives exactly what every program computes (a digest appends the padding to the object's message; Murmur3 keeps the last input only; Sha3 is a stub). The statement itself holds for objects left alone after their digest (C128_plain_partial, with Murmur3 read as hash of the last input); C128_reuse is the negation for reuse, C128_slicing shows that assignment through the base class copies nothing. Limits of C58-C63: pieces below 4 GiB, Murmur3 on aligned input below 2 GiB on little endian machines.

### C129 Functions of the caller that throw — partial

*Model:* `Model/Callbacks.lean`. *Proof:* Functions of the caller as state transformers with an outcome; loops by index against structural visits, replacements and searches (induction on the part of the array still ahead); the three splits against their pure versions (C27), whose accumulators are shown to be prefixes; negations by evaluation for noexcept functions that call functions that throw.

*Theorems:* `Calls.C129_visit`, `Calls.C129_forEachConst`, `Calls.C129_forEach`, `Calls.C129_forEachIndexed`, `Calls.C129_copy_throws`, `Calls.C129_set`, `Calls.C129_fill`, `Calls.C129_indexOf`, `Calls.C129_equals`, `Calls.C129_split`, `Calls.C129_split3`, `Calls.C129_splitChar`, `Calls.C129_next`, `Calls.C129_payload`, `Calls.C129_fill_ends`, `Calls.C129_compare_ends`, `Calls.C129_copies`

*What holds and what does not:* Order, arguments, effects and contents proved for all. That exceptions reach the caller holds for forEach, set, split, Optional and Result; it is refuted for fill(f), indexOf, contains, equals and filtered ranges, which are declared noexcept and end the program (C129_fill_ends, C129_compare_ends).

### C130 Error domains that end — partial

*Model:* `Model/DomainLife.lean`, `Model/ErrorDomain.lean`. *Proof:* Programs that make, end, move and register domain objects at addresses; the registry keeps the first 128 registrations by induction on the program (on C66), the object at an address is told from the operations on it; definedness by induction when registered objects stay, negations by concrete programs and an invariant (an empty address stays empty).

*Theorems:* `DomainLife.C130_lookup`, `DomainLife.C130_told`, `DomainLife.C130_alive_partial`, `DomainLife.C130_dangling`, `DomainLife.C130_no_cure`, `DomainLife.C130_reuse`, `DomainLife.C130_move`, `DomainLife.C130_unknown_partial`

*What holds and what does not:* Exact behaviour for every program (C130_lookup, C130_told). The property holds when registered domains are neither ended nor moved from; otherwise refuted: C130_dangling, C130_no_cure (nothing registered later helps), C130_reuse, C130_move.

### C131 Strings, versions and builders lose no memory, whenever it runs out — proved

*Model:* `Model/StringMemory.lean`. *Proof:* the heap of C123 (blocks given out, given back; giving back a block that is not out is undefined); each function is rewritten with its allocations and the destructors of its locals and proved to have the values of the pure models (`Exact`); one invariant (blocks out = blocks of the variables) is kept by every statement, by induction for every program; undefinedness is characterised exactly

*Theorems:* `StrMem.C131_makers`, `StrMem.C131_replace`, `StrMem.C131_parse`, `StrMem.C131_print`, `StrMem.C131_step`, `StrMem.C131_program`, `StrMem.C131_all_back`, `StrMem.C131_moved`

*Note:* All string makers, replace, Version::parse and toString, builders, moves, assignments, swaps and destructors over a heap whose manager may refuse any request; values are those of the models of C23-C38.

### C132 Containers of strings and of containers lose no memory — partial

*Model:* `Model/NestedMemory.lean`. *Proof:* objects are trees over the heap of C123; destructors are mutually recursive over trees and proved to give back exactly the blocks of the tree (`drop_owns`), and to be undefined when one of these is not out (`drop_needs`); one invariant for all statements, by induction for all programs; `array = nullptr` is shown to break it in every state with owning elements

*Theorems:* `Nested.C132_step_partial`, `Nested.C132_program_partial`, `Nested.C132_all_back`, `Nested.C132_array_null`, `Nested.C132_put_loses`, `Nested.C132_push`, `Nested.C132_put`, `Nested.C132_find`, `Nested.C132_elements`

*What holds and what does not:* Proved for all programs of trees of strings, vectors, arrays and dictionaries with a manager that may refuse any request; undefined statements are characterised exactly. For array = nullptr with elements that own memory the negation is proved for every such state (the destructor gives a block back twice); a failed Dictionary::put is proved to take key (and value) away from the caller.

### C133 Views of strings and references to elements stay valid while their owners are moved — partial

*Model:* `Model/NestedMemory.lean`. *Proof:* the programs of C132; every block is given a use (characters of a string, or elements) and each statement is shown to leave the use of a block as it was or to use a new block (`step_back`, no invariant needed); with the uniqueness of owners (C132) the content of a block is fixed as long as it is out; block numbers are never used twice. Elements: each statement is followed forward, the sequence in a block is extended at most at its end (`step_grown`) or changed in one place

*Theorems:* `Nested.C133_views_partial`, `Nested.C133_blocks_partial`, `Nested.C133_moves_keep`, `Nested.C133_elements_stay`, `Nested.C133_others_stay`, `Nested.C133_destroyed`, `Nested.C133_put_dangles`

*What holds and what does not:* Partial: for programs that do not assign nullptr to an array whose elements own memory (C132_array_null), and put, when it fails, destroys the caller's key and so invalidates views of it (C133_put_dangles). For all other statements and programs, at any depth of nesting: a block shows the same characters as long as it is out (C133_views_partial), only statements that destroy give blocks back (C133_moves_keep), the elements of a container stay in place, with others added behind them (C133_elements_stay), and exchanging one element leaves the others (C133_others_stay).

### C134 Comparing nested values is comparing their parts — proved

*Model:* `Model/Compare.lean`. *Proof:* A type is a term of a grammar (`Ty`), its values a type computed from it, and `==`/`!=` are defined by recursion over the type from the operators of the leaves, as the templates are instantiated. The questions `&a == &b` and "same first address" are answered by an arbitrary function (`Ids`) asked with the place in the value; the only assumption is that the same object has the same value (`Ids.Real`). `Equal` (Spec/Compare.lean) says that the parts are equal place by place and knows nothing of objects. Proved by induction over the type: `==` is `Equal`, `!=` its opposite, both for the mixed operators, and `indexOf` finds the first equal element. The reflexivity of `==` of the caller's types is needed: with a value that is not equal to itself the answer depends on identity (`C134_irreflexive_depends`).

*Theorems:* `Cmp.C134_equal`, `Cmp.C134_different`, `Cmp.C134_equivalence`, `Cmp.C134_exact`, `Cmp.C134_optional`, `Cmp.C134_sequences`, `Cmp.C134_result`, `Cmp.C134_search`, `Cmp.C134_irreflexive_depends`, `Cmp.C134_equal_not_same`, `Cmp.C134_uuid_text`

*Note:* Every nesting of the comparable types; types of the caller are required to have a reflexive == (a negative theorem shows why), != is claimed where the code defines it.

### C135 Iterator variables are positions — proved

*Model:* `Model/Iterators.lean`. *Proof:* A class of iterators is the record of its operations; a program works on variables of one class for one container. The specification is a machine whose variables hold natural numbers, or nothing known after a move. `Lawful` relates states to positions (a simulation), and any allowed program is carried over by induction on its length. Each class is shown lawful: the decoding iterator by the run of digit pairs still ahead, the span by the chunks still encoded, the filtered range by the elements that still match (distinct positions have remaining sequences of different length).

*Theorems:* `Iterators.C135_encode`, `Iterators.C135_decode`, `Iterators.C135_span`, `Iterators.C135_dictionary`, `Iterators.C135_env`, `Iterators.C135_path`, `Iterators.C135_range`, `Iterators.C135_loop`, `Iterators.C135_again`, `Iterators.C135_moved_from_equal`, `Iterators.C135_foreign_equal`, `Iterators.C135_exchanged`

*Note:* Full for programs over one container. Boundaries, proved: a moved-from Path iterator still compares equal to its successor but throws when dereferenced; iterators of different containers may compare equal; move assignment exchanges. VariableSpan::Iterator has no usable move assignment (it calls a member swap that does not exist) and RangeView::Iter no ==; programs for them do without.

### C136 Results do not show what memory held before — partial

*Model:* `Model/String.lean`, `Model/Path.lean`, `Model/PathMore.lean`, `Model/Version.lean`, `Model/Uuid.lean`, `Model/Hashing.lean`, `Model/ErrorDomain.lean`, `Model/SystemErrors.lean`. *Proof:* `Hidden f` (Spec/OldMemory.lean): two memory managers that give the same errors, null pointers and sizes with any two contents make `f` give the same result (a two-run property). Where the exact result is known (C29, C30, C31, C73) it is `x` followed by the old content from `x.length` on, so nothing is shown if and only if `x` fills the memory (`tail_iff`); the condition is restated on the arguments. Paths and versions use the memory only through the views of copies, carried through their loops by induction; builders by the uniqueness of accumulation (C32); UUIDs by the token analysis of C38 and a count of dashes

*Theorems:* `OldMemory.C136_make`, `OldMemory.C136_replace_char`, `OldMemory.C136_concat_iff`, `OldMemory.C136_concat_partial`, `OldMemory.C136_concat_leak`, `OldMemory.C136_join_iff`, `OldMemory.C136_join_leak`, `OldMemory.C136_join_args_iff`, `OldMemory.C136_join_args_leak`, `OldMemory.C136_replace_iff`, `OldMemory.C136_replace_leak`, `OldMemory.C136_builder`, `OldMemory.C136_version_text`, `OldMemory.C136_version_parse`, `OldMemory.C136_paths`, `OldMemory.C136_path_text_iff`, `OldMemory.C136_path_text_leak`, `OldMemory.C136_uuid_text`, `OldMemory.C136_uuid_parse_iff`, `OldMemory.C136_uuid_parse_leak`, `OldMemory.C136_hashes`, `OldMemory.C136_error_text_partial`, `OldMemory.C136_error_text_leak`, `OldMemory.C136_system_message`

*What holds and what does not:* Independence of old memory, as an equality of results for two memory managers that differ in content only. Full for copies, replaced characters, builders, versions, all path functions but toString, UUID texts, hashes and system messages. For concatenation, joins, replacements, the text of a path and reading a UUID the exact condition is proved as an equivalence, with concrete leaks: joining an empty list and the text of the empty path show 65535 bytes, 36 dashes read as a UUID show the stack.

### C137 Chains of codecs are undone in reverse order — partial

*Model:* `Model/Pipeline.lean`. *Proof:* The stages are the models of the coders (C09, C12, C13) with buffers of the announced sizes; a chain is a list of codecs. By induction over the chain: going there and back through one more stage is the shorter chain on the text of the first stage, followed by one decoder (`thereAndBack_cons`), and the single stages are decided by C09 and C12_round_trip_iff. The condition `Unpadded` and the sizes are computed from the number of bytes alone

*Theorems:* `Pipeline.C137_encode`, `Pipeline.C137_terminated_partial`, `Pipeline.C137_exact`, `Pipeline.C137_empty`, `Pipeline.C137_hex`

*What holds and what does not:* Encoding: full. Decoding: undone for every non-empty byte string when a zero byte follows each text; exactly characterised when nothing follows (undefined exactly if some Base64 stage gets a multiple of three bytes) and for no bytes (an error exactly if there is a Base64 stage). Chains of Base16: full.

### C138 Digest objects own their bytes, whenever memory runs out — partial

*Model:* `Model/DigestObjects.lean`. *Proof:* A world of hash objects (Model/HashProgram), digest variables with their blocks, a heap that may refuse any request, and what the program sees. By induction over the program it agrees with a world of messages and byte strings (Spec/DigestObjects): one lemma per statement, with the invariant that the blocks given out are exactly those of the digests alive and that a digest without a block is empty; equality of two digests that share a block follows from each block being given out once. That asking again is wrong for MD5, SHA-1 and SHA-256 is a theorem with a program of three statements for every machine.

*Theorems:* `Hash.Digests.C138_programs`, `Hash.Digests.C138_all_returned`, `Hash.Digests.C138_granted`, `Hash.Digests.C138_again`, `Hash.Digests.C138_again_partial`, `Hash.Digests.C138_again_wrong`

*What holds and what does not:* All but the last part in full: values, comparisons and memory for every program and every pattern of refusals (pieces within the limits of C128). Asking again after a refusal gives the right digest only for Murmur3 and the stub of SHA-3; with MD5, SHA-1 and SHA-256 the failed call has already padded the message, so the next call gives a wrong digest without telling (C138_again_wrong).

### C139 forEach accepts the callbacks that can be given the elements — partial

*Model:* `Model/Callable.lean`. *Proof:* C++ expressions are a type number, `const` and a value category; a callback is its parameters, result and operator qualifier. `isCallable` and the `enable_if_t` of every `forEach` are computed from what parameters bind to, overload resolution and the bodies are explicit, an error in a body is an outcome of its own. What a callback can be given is specified separately (Spec/Callable). Outcomes depend on finitely many cases (lemmas: kinds of other types, types of other parameters, results, qualifiers), which are checked exhaustively by the kernel (Lemmas/CallableTables) and lifted to all types and callbacks.

*Theorems:* `Callable.C139_invocable`, `Callable.C139_invocable_value`, `Callable.C139_invocable_value_false`, `Callable.C139_array`, `Callable.C139_array_partial`, `Callable.C139_array_false`, `Callable.C139_array_error`, `Callable.C139_view`, `Callable.C139_array_indexed`, `Callable.C139_view_indexed`, `Callable.C139_indexed_false`, `Callable.C139_other_count`, `Callable.C139_pack`, `Callable.C139_string`, `Callable.C139_path`, `Callable.C139_env`, `Callable.C139_env_two`, `Callable.C139_env_false`

*What holds and what does not:* Exact for every callback of the model. The claim is false: callbacks that return references are refused, callbacks with an index are given copies (and elements that cannot be copied are an error), T&& callbacks fail inside the library, generic packs are ambiguous. Conversions of arguments to other parameter types and classes with several call operators are not modelled.

### C140 Strings and paths ask for the memory of their results and no more — partial

*Model:* `Model/PathMemory.lean`, `Model/StringMemory.lean`. *Proof:* `Asks h f sizes Q` (Verif/Spec/Requests.lean) says that, when they are granted, `f` makes exactly the requests for blocks of these sizes in this order: it makes so many, none is refused, and another memory manager that answers these requests in the same way, and all others in any way, leads to the same run. The rule for one function after another (`Asks.bind`) gives the lists of all functions from that of `allocate`, by induction over components, pieces and arguments. The sizes are stated with the splitting of the text (`IsSplit`), the components a walk over "." and ".." copies, and the arguments of a join that are not rvalues. For refused requests `AsksAtMost` bounds their number for every manager. Partial because `parse` of a text with a delimiter at its end, `normalize` of a path with "." or ".." and `Version::toString` ask for more than they return; for these the lists are exact too, and the equality with the blocks of the result is proved under the condition.

*Theorems:* `Requests.C140_string`, `Requests.C140_concat`, `Requests.C140_join`, `Requests.C140_joinArgs`, `Requests.C140_replaceChar`, `Requests.C140_replace`, `Requests.C140_print`, `Requests.C140_labels`, `Requests.C140_version`, `Requests.C140_single`, `Requests.C140_root`, `Requests.C140_parse`, `Requests.C140_normalize`, `Requests.C140_getParent`, `Requests.C140_subpath`, `Requests.C140_toString`, `Requests.C140_joinPaths`, `Requests.C140_parse_partial`, `Requests.C140_normalize_partial`, `Requests.C140_normalize_extra`, `Requests.C140_parse_extra`, `Requests.C140_join_empty`, `Requests.C140_strings_bound`, `Requests.C140_parse_bound`, `Requests.C140_paths_bound`, `Requests.C140_paths_nothing`, `Requests.C140_strings_nothing`

*What holds and what does not:* Exact list of requests for every function, and bounds for every refusing manager. Missing: parse of a text that ends with a delimiter, normalize with . or .. and Version::toString ask for more than they return (exact lists and witnesses proved), so the property holds for them only under the stated conditions.

### C141 Results are the same on every machine — partial

*Model:* `Model/Machine.lean`, `Model/Hash*.lean`, `Model/ByteReader.lean`, `Model/ByteWriter.lean`, `Model/StringBuilder.lean`, `Model/Murmur.lean`. *Proof:* The functions that promote a `char` or reinterpret the bytes of an integer are modelled a second time with the machine (signedness of `char`, byte order) as an argument; `C141_reference` proves that on x86 they are the models used everywhere else, function by function. For each of them the inputs on which two machines agree are characterised exactly (by the byte that is looked at, the bytes in front of it, the words that are palindromes) or the difference is computed (the hash codes differ by 256 times the hash code of the marks of the bytes from 128 on, an identity of 64 bit arithmetic proved by induction). The digests, `readLE/BE`, `writeLE/BE` and the search in a builder are proved equal on all machines; Murmur3 follows from its exactness theorem and injectivity on one block.

*Theorems:* `Machine.C141_reference`, `Machine.C141_compare_iff`, `Machine.C141_compare_unsigned`, `Machine.C141_path_partial`, `Machine.C141_path_negation`, `Machine.C141_hash_difference`, `Machine.C141_hash_ascii`, `Machine.C141_hash_negation`, `Machine.C141_replace_unsigned`, `Machine.C141_replace_iff`, `Machine.C141_atom_iff`, `Machine.C141_atom_unsigned`, `Machine.C141_trim_little`, `Machine.C141_trim_big`, `Machine.C141_dial_partial`, `Machine.C141_dial_negation`, `Machine.C141_digests`, `Machine.C141_write`, `Machine.C141_read`, `Machine.C141_write_native`, `Machine.C141_uuid_words`, `Machine.C141_builder_search`, `Machine.C141_murmur_short`, `Machine.C141_murmur_block`

*What holds and what does not:* Holds for digests, readLE/BE, writeLE/BE and the search in a builder. Missing: it is false for compareTo, hashCode, replace(char), atoms, dial strings, trim on big endian, makeUUID of words, native writes and Murmur3; proved for each of these: on which inputs machines agree (exactly, except for paths, dial strings and hash codes: ASCII suffices, witnesses otherwise), and that with unsigned char the results are the right ones.

### C142 Optionals are made and assigned with the content of their argument — partial

*Model:* `Model/OptionalConvert.lean`. *Proof:* Types are payload types and optionals of them to any depth; expressions have a type, `const` and a value category. Overload resolution is modelled by candidates, viability and ranking, for the constructors (with the deleted copy constructor the compiler declares) and for the assignment operators (with conversion sequences); the choice is computed, not assumed. The constructors recurse through `construct` and `ctor`. The expected content is stated with the depth only (Spec/OptionalConvert): by induction over the depth the results are given as equations for every type, value and kind of argument, including those that do not compile.

*Theorems:* `OptConv.C142_make`, `OptConv.C142_make_const`, `OptConv.C142_deeper`, `OptConv.C142_const_rvalue`, `OptConv.C142_const_value`, `OptConv.C142_prvalue`, `OptConv.C142_in_place`, `OptConv.C142_flattens`, `OptConv.C142_assign_none`, `OptConv.C142_assign_same`, `OptConv.C142_assign_move`, `OptConv.C142_assign_copy`, `OptConv.C142_assign_copy_value`, `OptConv.C142_assign_differs`, `OptConv.C142_assign_convert`, `OptConv.C142_assign_optional`, `OptConv.C142_assign_ambiguous`, `OptConv.C142_assign_braces`

*What holds and what does not:* Result, what is left of the argument and what compiles are given exactly for every type, value and kind of argument. The property holds for making from arguments that are not const and not nested deeper. It is false otherwise: const optionals of the same type cannot be copied, lvalues of the same type not assigned, bool payloads take whether the argument has content, an empty optional disappears in an optional of optionals, {} is 0 for scalars (all proved in general).

### C143 An optional of a reference stands for the object it was made from — partial

*Model:* `Model/OptionalRef.lean`. *Proof:* Which expressions an `Optional<X&>` can be made or assigned from is computed with the overload resolution of Model/OptionalConvert and the constructors of `reference_wrapper`; the tables are finite and proved as equivalences. Programs have objects, optionals of objects and optionals of references (pointers to a variable or to a payload). By induction over the program a reference stays with its object; a program equals the one with the object written in place of the optional; undefined statements are characterised exactly.

*Theorems:* `OptRef.C143_compiles`, `OptRef.C143_const`, `OptRef.C143_assign`, `OptRef.C143_stays`, `OptRef.C143_alias`, `OptRef.C143_substitution`, `OptRef.C143_undefined`, `OptRef.C143_payload`, `OptRef.C143_safe`, `OptRef.C143_equal`, `OptRef.C143_ended`

*What holds and what does not:* Binding, aliasing, substitution and the undefined statements are proved for all programs. False parts, with exact tables: a const object cannot be referred to (also not by Optional<X const&>), const is dropped between the two, an object cannot be assigned, and a reference into an Optional<X> changes its value on swap and dangles after emptying it.

### C144 Which constructor a result takes — partial

*Model:* `Model/ResultConvert.lean`. *Proof:* The constructors of `Result<V, E>` and `Result<void, E>` are candidates with conversion sequences (ranks of the C++ standard) and overload resolution picks one; types and conversions are arbitrary. Each kind of argument is proved as an equivalence with a relation `Gives` and a cost order that do not mention the candidates. Proved by cases on the conversions.

*Theorems:* `ResConv.C144_ok`, `ResConv.C144_err`, `ResConv.C144_value`, `ResConv.C144_error`, `ResConv.C144_value_lvalue`, `ResConv.C144_error_lvalue`, `ResConv.C144_third`, `ResConv.C144_same`, `ResConv.C144_result`, `ResConv.C144_tagged`, `ResConv.C144_assign`, `ResConv.C144_void`, `ResConv.C144_sides_partial`

*What holds and what does not:* The code violates the full statement: a variable or constant of the value type does not make a success (C144_value_lvalue, C144_error_lvalue; exact in C144_sides_partial). Reference types and nested results are not in the model.

### C145 Named results and optionals can be used again — partial

*Model:* `Model/Reuse.lean`. *Proof:* A call on a variable, a constant or something given away is resolved to its overload; each body says whether the member is given as an lvalue, a const lvalue or an rvalue, and the parameter of the caller's function what is left of it. The calls that keep every state are characterised exactly (`Keeping`, written as a table); sequences of calls by induction.

*Theorems:* `Reuse.C145_answer`, `Reuse.C145_left`, `Reuse.C145_keeps_iff`, `Reuse.C145_named_as_given`, `Reuse.C145_compiles`, `Reuse.C145_program_partial`, `Reuse.C145_until_moved`, `Reuse.C145_optional`, `Reuse.C145_optional_keeps_iff`, `Reuse.C145_optional_compiles`, `Reuse.C145_optional_program_partial`

*What holds and what does not:* False for the code: then (plain and void answers), orElse and flatMap move out of variables (C145_named_as_given). The keeping calls are characterised exactly (C145_keeps_iff, C145_optional_keeps_iff) and programs of them proved in full; C145_until_moved covers programs of any calls up to the first one that moves.

### C146 Numbers keep their value in every call that takes them — partial

*Model:* `Model/Overloads.lean`. *Proof:* Overload resolution among arithmetic parameters by rank (same type, promotion, conversion) over targets that differ in what int32_t and int64_t name, in the size of long and wchar_t and in signs. The table of all targets, functions and types is evaluated by the kernel and lifted by membership lemmas; values, records and bytes are then proved for all numbers from C107, C105 and C71.

*Theorems:* `Over.C146_accepts`, `Over.C146_value_kept`, `Over.C146_width_partial`, `Over.C146_char_four_bytes`, `Over.C146_round_trip`, `Over.C146_same_bytes`, `Over.C146_append`, `Over.C146_code_point_printed`, `Over.C146_measure_one`, `Over.C146_char`, `Over.C146_order`

*What holds and what does not:* Values and round trips in full for every target. The width is that of the type except for exactly bool, char16_t, a two-byte wchar_t and, in writeLE and writeBE, char, which take four bytes (C146_char_four_bytes); append of a char32_t prints its number and measure takes every number for a character (C146_code_point_printed, C146_measure_one).

### C147 Loops over containers that their bodies change — proved

*Model:* `Model/Loops.lean`. *Proof:* A language of statements with loops on top of the programs of C132: the loop takes the block and the number of elements when it begins, and each round reads the object at its place in memory at that time. By induction over statements, what a careful body leaves behind keeps the blocks and the first n elements of every loop around it (Sound), using C133 for the single statements and new cases for destroying ones. The loop is then equal to its unrolling over the elements of the beginning. The three failures are computed for all vectors.

*Theorems:* `Nested.C147_safe`, `Nested.C147_statements`, `Nested.C147_each`, `Nested.C147_entries`, `Nested.C147_gentle`, `Nested.C147_pop`, `Nested.C147_clear`, `Nested.C147_destroy`

*Note:* Programs with loops over the containers of C132, nested to any depth, with bodies that may depend on everything. A loop is the body once for each element of the beginning (C147_each, C147_entries) if what its statements destroy are not these elements; it never reads an object that is gone (C147_safe; C147_gentle without hypotheses about the execution); a program with loops is the sequence of its statements (C147_statements). pop_back, clear and destruction of the container itself in the body are undefined exactly from two elements on. A loop over a dictionary made of vectors of different lengths, and nullptr assigned to an array that owns memory, are outside (see C83, C132).

### C148 String functions look only at the characters they need — proved

*Model:* `Model/Reads.lean`. *Proof:* The functions of Verif.Model.StringView with the list of their accesses; leaving out the accesses gives these functions back (C148_same). The accesses are computed exactly from specifications without loops (agree, attempt, candidate, along) by induction over the loops; bounds and the worst case follow by counting. That the answers depend on nothing else is a separate induction over pairs of texts that agree where the first call looks, which would fail if an access were missing from the list.

*Theorems:* `Reads.C148_same`, `Reads.C148_equals`, `Reads.C148_ends`, `Reads.C148_char`, `Reads.C148_search`, `Reads.C148_bound`, `Reads.C148_worst`, `Reads.C148_trim`, `Reads.C148_split`, `Reads.C148_determined`

*Note:* Accesses recorded for the functions of StringView; searching for the empty text, which reads behind it, is left to C24. The reads of strncmp and of the three-argument split are not recorded.

### C149 A result of a reference stands for the object it was made from — proved

*Model:* `Model/ResultRef.lean`. *Proof:* Objects, memory of vectors, vectors and results as maps from numbers; a result of a reference is an error or a place (a variable, or a place in memory). Statements that use a place whose object has ended are undefined. The specification says which statements end the object at a place (Ends), which give it a value (written) and which results a statement makes (targets), without the model. Sane states are kept by every statement; by cases over the statements the three specifications are exact, and C149_reading follows by induction over the program. put and find are followed through the two vectors of the dictionary.

*Theorems:* `ResRef.C149_sane`, `ResRef.C149_sane_init`, `ResRef.C149_ends_iff`, `ResRef.C149_value`, `ResRef.C149_targets`, `ResRef.C149_reading`, `ResRef.C149_push`, `ResRef.C149_dangling`, `ResRef.C149_undefined`, `ResRef.C149_moved`, `ResRef.C149_functions`, `ResRef.C149_reused`, `ResRef.C149_put_find`, `ResRef.C149_put_twice`, `ResRef.C149_functions_error`, `ResRef.C149_put_failed`

*Note:* Programs over objects, vectors, dictionaries and results of references. Values are numbers, requests for memory are granted. C149_reused and C149_put_twice record what a caller may not expect: an old result shows the next element put in its place, and a result of put for a key that was there refers to a value find does not give.

### C150 The comments of the headers — partial

*Model:* `Model/Spec/Docs.lean (the comments); StringView.lean`, `Model/StringViewMake.lean`, `Model/Vector.lean`, `Model/ArrayFactory.lean`, `Model/Path.lean`, `Model/the hashes`. *Proof:* Each comment is a definition of its own; the theorems say for which arguments the model satisfies it (`_iff`), or that it never does. The hash code is compared with the sum over the integers by `Int.bmod`.

*Theorems:* `Docs.C150_substring_iff`, `Docs.C150_hash`, `Docs.C150_hash_low`, `Docs.C150_hash_iff`, `Docs.C150_hash_not_int`, `Docs.C150_hash_empty`, `Docs.C150_compare_iff`, `Docs.C150_compare_not_lexicographic`, `Docs.C150_length_iff`, `Docs.C150_cstring_iff`, `Docs.C150_index_never_throws`, `Docs.C150_capacity_iff`, `Docs.C150_array_empty_iff`, `Docs.C150_basename_iff`, `Docs.C150_parent_null_iff`, `Docs.C150_parent_of_root`, `Docs.C150_empty_iff`, `Docs.C150_digest_length_not_bytes`

*What holds and what does not:* The comments are not true for all arguments. For each of them the exact condition under which it is, or the negation, is proved. C150_compare_iff is for characters 1 to 127 (C22_exact has the others).

### C151 Loops by index over containers that their bodies change — proved

*Model:* `Model/IndexLoops.lean`. *Proof:* Loops by index in the world of nested containers of C132: the loop asks for the size in every round and the body is a function from the round and the state to statements. Every statement that leaves the variable its container keeps the capacity and at most that many elements (`step_keeps`), so the number of rounds is bounded by the capacity; with `push_back` alone the old elements stay a prefix (`step_adds`), so the rounds see what is there in the end. Safety by C132_step_partial in every round. The exact courses of bodies that pop or push, and `drain` = `clear`, by induction on the fuel and on the elements.

*Theorems:* `Nested.C151_ends`, `Nested.C151_array`, `Nested.C151_adds`, `Nested.C151_safe`, `Nested.C151_pop`, `Nested.C151_push`, `Nested.C151_drain`, `Nested.C151_fits`, `Nested.C151_program`, `Nested.C151_gone`

*Note:* Loops by index in the world of C132 and C147. A vector never takes more memory, so push fails when it is full and the loop ends.

### C152 Elements whose destructors throw — partial

*Model:* `Model/DtorThrow.lean`. *Proof:* Destructor calls until one throws, with the exception specifications of the calls around them (a `noexcept` function or stack unwinding turn an exception into std::terminate) and a log of constructor and destructor calls. Invariant: the log is legal and the objects alive are, with multiplicity, those owned by variables; every statement keeps it by counting (`sound_step`), except for the two `Hazard`s, for which the negation is proved. Repeated clear() by induction on the number of throwing elements.

*Theorems:* `DtorThrow.C152_pop`, `DtorThrow.C152_clear_good`, `DtorThrow.C152_clear_throws`, `DtorThrow.C152_clear_again`, `DtorThrow.C152_end`, `DtorThrow.C152_null`, `DtorThrow.C152_null_twice`, `DtorThrow.C152_guard`, `DtorThrow.C152_optional`, `DtorThrow.C152_step_partial`, `DtorThrow.C152_program_partial`, `DtorThrow.C152_lets_out`, `DtorThrow.C152_hazard`, `DtorThrow.C152_push`

*What holds and what does not:* The statement on ownership is violated by = nullptr of a vector with a throwing destructor (C152_null, C152_null_twice: the position is reset only after all destructors), of any array with elements, and by ArrayView::emplace when a destructor or the constructor throws (C152_hazard); everything else is proved for all programs. Result is not covered.

### C153 Threads that use different objects of the library do not disturb one another — partial

*Model:* `Model/Threads.lean`. *Proof:* A call is the sequence of its accesses to the shared objects (one at a time, read by read), a thread a list of calls, an execution any interleaving; happens-before and data races as in the C++ standard (Spec/Threads.lean). Without a mutex nothing synchronises two threads, so a granted or freed result (which needs a write of the count) in two threads is a race. Under a mutex: accesses happen only between acquisition and release of the same thread, and every release happens before the next acquisition. Linearisation: the state that the holder of the mutex will leave (`settled`) changes only at acquisitions, by exactly what the call does alone. Apart: each thread stays within its own set of objects, so that its view of the state is the one it would have alone.

*Theorems:* `Threads.C153_race`, `Threads.C153_lost`, `Threads.C153_below`, `Threads.C153_guarded_partial`, `Threads.C153_serial_partial`, `Threads.C153_count_partial`, `Threads.C153_apart_partial`, `Threads.C153_disturbs_partial`, `Threads.C153_wrong_domain`

*What holds and what does not:* The property fails as stated: C153_race shows a data race in every execution in which two threads took or gave back memory without a mutex, C153_lost and C153_below an interleaving that loses bytes from the count and then takes it below zero. It holds under one mutex (no race: C153_guarded_partial; linearisable: C153_serial_partial; exact count: C153_count_partial) and where no call of one thread may change what another uses (C153_apart_partial, with C153_disturbs_partial for which calls these are). Missing: objects that threads share by themselves, the construction of the function-local static, and executions after a race, which are undefined.

### C154 Encoding and decoding within one buffer — partial

*Model:* `Model/InPlace.lean`. *Proof:* The coders with the input read from the writer's buffer as it is at each step, against the models with the input as a list of its own (C09 to C16): a write leaves all bytes outside of its place (write_frame), so the bytes still to be read stay those of the input as long as the place is before or behind them, by induction on what is left. Negation for Base16: in a buffer of zeros the first byte read again is the character 0, whose code differs; witnesses by evaluation for the others. C154_round_trip16 and C154_round_trip64 put encoding from the end of a buffer to its front and decoding in place together.

*Theorems:* `InPlace.C154_encode16_partial`, `InPlace.C154_decode16_partial`, `InPlace.C154_encode64_partial`, `InPlace.C154_decode64_partial`, `InPlace.C154_encode16_overtaken`, `InPlace.C154_overtaken`, `InPlace.C154_round_trip16`, `InPlace.C154_round_trip64`, `InPlace.C154_outside`

*What holds and what does not:* Holds where the output does not overtake the input (the partial theorems, for all buffers and places); for Base16 encoding the condition is exact (C154_encode16_overtaken), for the other coders C154_overtaken gives witnesses that fail outside of it. Inputs that start before the buffer and reach into it are not modelled.

### C155 A writer and a reader over the same memory are a queue — proved

*Model:* `Model/Channel.lean`. *Proof:* One memory with the positions and limits of a writer and a reader; each call runs the model of ByteWriter or ByteReader on the memory as it then is. Spec/Channel.lean has the queue. Rep ties them: the bytes of the queue lie from the reader position to the writer position. Each call preserves Rep and gives the reply of the queue (C155_queue, by induction on the program), also the failing writes that change bytes behind the position (write_cases) and the compaction, which moves bytes onto themselves. C155_fifo is a statement about the replies alone, C155_pump and C155_room follow from the queue.

*Theorems:* `Channel.C155_queue`, `Channel.C155_fifo`, `Channel.C155_pump`, `Channel.C155_room`

*Note:* Refinement of the shared memory with two positions to a queue of bytes; hypotheses: the memory is smaller than 2^64 bytes, and for C155_fifo no bytes are skipped (skipped bytes are not in any reply).

### C156 Values of the library as keys of ordered containers and in sorted arrays — partial

*Model:* `Model/Ordered.lean`. *Proof:* For any comparison: specifications of the walk down the tree (lower bound, find, unique insertion) by induction on the tree, with the split of the keys in order into those before and those not before the key; then by induction on the insertions, where balancing is any change of shape that keeps the order of iteration. The binary search by strong induction on the length. The four comparisons are then shown to be strict weak orders (from C34, C39, C71, C22), or, for operator< of versions, the walks are followed for every tree: what is not less is greater, so nothing is found or refused.

*Theorems:* `Ordered.C156_container`, `Ordered.C156_binarySearch`, `Ordered.C156_uuid`, `Ordered.C156_char`, `Ordered.C156_version_greater`, `Ordered.C156_version_less_negation`, `Ordered.C156_string_partial`, `Ordered.C156_string_empty_negation`, `Ordered.C156_string_negation`, `Sorting.C156_path_partial`, `Sorting.C156_path_mixed`

*What holds and what does not:* Full for UUIDs and characters, and for versions compared with operator>, where versions that differ only in their labels are one key. False for versions compared with operator<: no version is ever found and none is ever refused (proved for every tree and every array). Strings: proved for non-empty ones of characters 1..127; negations proved for the empty string (the program ends), for NUL and for bytes from 128 on (different strings are one key). The tree and the binary search are those of libstdc++, read as text. Paths, compared with compareTo: proved for relative ones or absolute ones with names as components. To put a relative path into a set whose root is absolute ends the program.

### C157 Sorting arrays of values of the library — partial

*Model:* `Model/Sorting.lean`. *Proof:* The insertion sorts of libstdc++, guarded and unguarded, by induction over the elements. The partition: the upward loop is stopped by an element that the median of three leaves behind the pivot, later by the one just exchanged; the downward loop by the pivot itself. Introsort by induction on the depth limit, with the invariant that the smallest element of every range of more than 16 is among its first 16, which is what the last, unguarded insertion sort needs. The heap sort (HeapSort.lean): the hole goes down and up again with the invariant that all edges of the heap without the hole hold and so does the one that bridges it; `__sort_heap` by induction on the length. Paths (PathOrder.lean) with the order of C54. With operator< of versions and equal numbers the upward loop does not stop within the array.

*Theorems:* `Sorting.C157_sort`, `Sorting.C157_sort_small`, `Sorting.C157_values`, `Sorting.C157_heapSort`, `Sorting.C157_std_sort`, `Sorting.C157_std_values`, `Sorting.C157_std_string_partial`, `Sorting.C157_unguarded`, `Sorting.C157_string_partial`, `Sorting.C157_versions_partial`, `Sorting.C157_versions_negation`, `Sorting.C157_path_partial`, `Sorting.C157_path_mixed`

*What holds and what does not:* Proved for UUIDs, characters and versions with operator>, for arrays of every length; for strings that are not empty and of characters 1..127. False for versions with operator<: 17 or more with the same numbers are read past the end (proved for all such arrays); up to 16 are sorted. std::sort is that of libstdc++, read as text, with the heap sort it falls back to. Paths, compared with compareTo: proved for relative ones or absolute ones with names as components; to sort both kinds together ends the program.

### C158 References returned by filter and orElse of an optional — partial

*Model:* `Model/OptionalAlias.lean`. *Proof:* A program of steps over numbered objects; references are never changed and objects keep their numbers, by induction on the steps. What a reference gives at the time of reading follows, and with it the cases in which the statement fails.

*Theorems:* `OptAlias.C158_filter`, `OptAlias.C158_filter_partial`, `OptAlias.C158_filter_changed`, `OptAlias.C158_filter_temporary`, `OptAlias.C158_orElse`, `OptAlias.C158_orElse_partial`, `OptAlias.C158_orElse_temporary`, `OptAlias.C158_orElse_changed`

*What holds and what does not:* What the references stand for is proved for every program (C158_filter, C158_orElse). The statement holds while the optional and the other value are neither changed nor gone. False otherwise: after an assignment or a move the result of filter holds an element that the predicate refused; on a temporary with an accepted element, and for orElse of an empty optional with a temporary value, the result cannot be read. Proved for all states, predicates and elements.

### C159 Strings as keys of hash tables — proved

*Model:* `Model/HashTable.lean`. *Proof:* Invariant by induction on the operations: every chain has no key twice and only keys of its own bucket; finding a key is then membership in its chain. Against a set that is computed from the operations alone.

*Theorems:* `HashTable.C159_table`, `HashTable.C159_insert`, `HashTable.C159_flood`

*Note:* Full, for every program and every string. The table is that of libstdc++, read as text; when it grows is left open. C159_flood: any number of keys share a bucket whatever the number of buckets.


## 4. Disagreements between the code and the properties

All of these are theorems (named in section 3), not observations from running the code.

Undefined behaviour or memory errors
* `ByteWriter::write` copies before it checks the limit, so a write beyond the limit changes the buffer and then fails (C03, C04).
* Base-16 decoding indexes a 128-entry table with bytes up to 255 (C10, C11); base-64 decoding of unpadded text reads past the
  end of the view (C12, C14).
* String search for the empty needle, `startsWith(char)` on an empty view, version parsing and environment names read memory behind the
  view (C24, C36, C65, C72, C93); `StringView::operator[]` is documented to throw but is unchecked (C87).
* `UUID::parse` writes out of bounds for 36 digits and returns uninitialised bytes for 36 dashes (C38).
* `Array = nullptr` and a throwing `ArrayView::emplace` destroy elements twice (C45); `emplaceAll` with too many values writes
  out of bounds (C46); `makeVector(2^61)` of 8-byte elements has capacity 0 (C44).
* A `Result` swapped with or move-assigned to itself (C56, C57), and `opt = mv(*opt)` (C57).
* Murmur3 on misaligned or very long input (C63); `Char` from more than five bytes and classification of wide characters
  (C71, C74); a Murmur3 hash fed from a reader at an odd position (C94); `IOException(code, text)` with a long text overruns its heap buffer, and a failed `calloc` is written through
  (C67).
* `MemoryView` move assignment and swap accept a `MutableMemoryView`, which then refers to constant memory and can write it (C101).
* Removing variables while iterating over the environment skips every second one; the name handed to the callback is refused by `set` and `unset`; clearing is undefined (C102).
* Objects are placed without looking at the address: `dataAs`, `construct`, array views and vectors over memory that is not aligned for the type are undefined; the error-domain registry keeps 8-byte words in static arrays of bytes (C104).
* `Char::c_str` of a copied four byte character is not terminated (C100).
* A moved-from exception has a null text with its old size; reading it is undefined. Assigning an error text loses the memory of the
  old one, and a `StringWriter` that is not built loses its buffer (C98).
* The error-domain map and the registration of the system domain are initialised in different translation units: in one of the two
  orders the registration runs on a map that does not exist yet; where that happens to work the domain is lost (C110).
* Iterating a dictionary after a `put` whose key constructor threw: there is one more value than keys (C83).

Termination of the program or of a loop
* Reader: after the limit is lowered below the position, `remaining()` wraps; reads pass the limit or abort (C01, C02).
* Comparing with an empty string terminates (C22); so does asking a normalised `a/..` for its properties (C51).
* `split` with an empty delimiter (C28), `replace` of an empty pattern (C31) and iteration over 65536 environment entries (C65)
  never end. `makePath` with an rvalue `String` (C90) and `makeString`/`makeStringJoin` with a non-const `String` (C91) recurse for
  ever: the forwarding template is the better match for itself.
* `==` of two results is `noexcept`, so a comparison of payloads that throws terminates (C89); `<` with an empty right side
  terminates (C93).

Wrong results
* Lengths are 16 bits: concatenation, joining, replacing, splitting, builders, paths (C27, C29-C32, C48-C50, C73).
* `Version::operator<` is the negation of `operator>` (C34); `a.b.c` and `4294967296.0.0` are accepted as versions (C36).
* Atoms of non-ASCII names collide (C40). Texts of versions, base64 texts and names of different length are not ordered like versions,
  bytes and atoms (C112). `StringBuilder::indexOf` misses the last character (C33).
* A string builder over exactly the announced size loses a number appended last (C105).
* Base64 written piece by piece has padding in the middle unless every piece but the last is a multiple of three bytes; the decoder then drops everything after it and reports success (C106).
* Re-putting a key in a `Dictionary` keeps the old value (C47); a repeated error domain id likewise (C66).
* Normalising `/../a` loses absoluteness (C51); path comparison can be zero for different paths (C54).
* `Optional::map` with a function returning an `Optional` flattens (C55); `flatMap` on an lvalue moves the payload out (C55).
* Digest length counters are wrong for single updates of 4 GiB or more (C58-C60); a second `digest()` differs (C61); Murmur3 keeps
  only the last update (C62); `Sha3` is a stub; `MessageDigest::toString` is always empty (C64).
* Environment iteration cuts values at a second `=`; `Env::clear` reports success and failure the wrong way round (C65).
* `RangeView::begin` does not skip a first element that does not match (C68).
* Of two `MemoryView::Lock` objects for memory on one page, destroying one unlocks the page for the other (C99).
* Moving or swapping memory managers leaves blocks accounted to the wrong one (C19).
* `dataAs<T>` and `sliceFor` multiply without checking for overflow, so a huge count is accepted (C80).
* `makeArray`/`makeVector` with a huge size wrap; copying a view with left-over bytes writes nothing and the error is dropped;
  the array made from a vector without elements is not `empty()` (C81).
* A dial string `" a"` does not survive printing and reading; `Optional` holding `None` prints like an empty one (C82).
* C strings and memory of 65536 characters and more are shown cut (C87), so such a C string can equal the empty string (C93);
  `substring(from, len)` takes `len` as the end (C87).
* `assertNull(ptr)` fails with the text of `assertNotNull(ptr)`; a long tag is lost (C88).
* Iterators of different paths are equal when their indices are; the rvalue `forEach` leaves empty components; text queries of
  paths answer for the empty text without memory or from 65536 characters on (C90).
* Random UUIDs: with libstdc++ on 64-bit Linux bytes 4-7 and 12-15 are always zero, the version is never set, and at most
  2147483646 different values exist (C92).
* Giving a reader to a Murmur3 hash a second time replaces the hash by that of the empty message (C94).
* `Dictionary::capacity` reports only the room for values (C83). The 32-bit and 64-bit targets disagree about Murmur3 (C84).
* `Path::startsWith` and `endsWith` compare text lengths modulo 65536: a path whose text has 65536 characters does not start with
  its own first component (C52).
* On big-endian hosts the underscore is no symbol and `\n` is no new line (C74).
* `StringBuilder::indexOf` counts with a 16-bit index: in a builder of more than 65535 bytes a missing character makes the
  search run for ever (C33). `IllegalArgumentException` with a name of 65515 to 65532 characters writes outside its buffer (C67).
* `mapError` on a named `Result<void, E>` takes the error out of it, that of `Result<V, E>` does not (C113).
* `makeArray(memory, n)` with memory too small for n elements succeeds and reports n elements (C81). The constructor of
  `MemoryManager` multiplies page size and page count modulo 2^64 (C115).
* Comparing a non-empty string with an empty one ends the program, and so can comparing two paths (C116).
* Null pointers reach `memcmp`, `memmove`, `memset`, `memcpy` and `strncmp` with a length of zero when views of the null pointer are
  compared, read or filled (C117). The other properties take such calls to do nothing.
* Move assignment of a `Version` copies the numbers and swaps the labels: the source becomes a version nobody made (C120).
* `Decay` is ambiguous for const volatile types and volatile arrays and leaves functions alone; `mv` of an array gives a dangling
  reference (C121).
* `arrayView(ptr, length)` multiplies modulo 2^64, `arrayView(begin, end)` accepts reversed pointers (C122).
* Without memory `Path::normalize`, `getParent` and `subpath` silently leave out components; `normalize` of "a/b/.." then gives
  the path without components instead of "a". A failing `makePath(mv(p), ...)` has already emptied `p` (C123).
* `Optional(CanBeT&&)`, `Optional(InPlace, ...)`, `Result(okTag, ...)`, `Result<void, E>(ErrTag, E const&)` and others are
  `noexcept` when the *move* constructor of the payload is, also when they copy or convert: a throwing copy of a string-like
  payload ends the program; `Result(Result<DV, E>&&)` is `noexcept` always (C124).
* `exchange` loses the old value when the assignment throws (C124).
* `array = nullptr` destroys the elements but keeps the size: the array still shows its destroyed elements (C125, C45).
* Not instantiable (found while reading, no theorem): `Array::slice`, non-const `Array::data`, `ArrayView::operator bool`, move
  assignment of the iterators of `VariableSpan` and `Dictionary` (calls a `swap` that does not exist), copying a const `Optional`
  of the same type.
* `then` of a constant `Result<V, E>` takes no handler that returns a plain value or nothing (result.hpp:455, 468 are not `const`); that of a constant `Result<void, E>` does. `mapError` of `Result<V, E>` does not compile with a handler returning an `Err`, although `error_result_wrapper` (result.hpp:182) provides for it. `orElse` of `Result<V, E>` does not compile with a handler returning nothing (result.hpp:503). C126.
* `StringLiteral` is meant for literals of the source, and `makeString(StringLiteral)`, `makeError(.., tag)` and `Version` rely on it by keeping the pointer; but its constructor (stringView.hpp:458) takes any `char` array, also one on the stack, and the inherited `swap` (stringView.hpp:91, 466) exchanges a literal with any view. C127.
* The hashing classes can be assigned through references to `HashingAlgorithm`, which compiles and copies nothing (C128_slicing); an MD5, SHA-1 or
  SHA-256 object that is fed again after a digest continues behind the padding, so its next digest is not that of the bytes given (C128_reuse).
* `ArrayView::fill(f)`, `indexOf`, `contains`, `equals` and `RangeView` iterators are `noexcept` but call functions of the caller: an
  exception of one ends the program (C129_fill_ends, C129_compare_ends).
* An error domain that is registered and then ends leaves a dangling pointer in the registry: there is no way to take it out, and
  `findErrorDomain` and `Error::toString` for its id are undefined from then on (C130_dangling, C130_no_cure, C130_reuse, C130_move).
* `array = nullptr` for an array of strings (or containers) gives the memory of the elements back and keeps the elements: the destructor gives it back again (C132). `Dictionary::put` that fails for lack of room has already taken the key, and if only the keys are full also the value: both are destroyed (C132).
* A failed `Dictionary::put` (dictionary.hpp:145-176) destroys the key that was moved into it: a `StringView` of the key taken before the call dangles
  although the call reports an error (`C133_put_dangles`).
* Containers and optionals answer `==` at once when both operands are the same object or begin at the same address. With elements that do not equal themselves (NaN) a container equals itself but not a copy of itself (`Cmp.C134_irreflexive_depends`).
* `VariableSpan::Iterator::operator=(Iterator&&)` (variableSpan.hpp:102-104) calls a member `swap` that the class does not have: assigning an rvalue, and `std::swap`, do not compile. Iterators of a span that is not constant cannot be set to `begin()` again (C135).
* A `Path::Iterator` that was moved from keeps its index and loses its view: it still compares equal to its successor, and throws when it is dereferenced (C135_moved_from_equal).
* Old memory is shown to the caller by `makeStringJoin` of an empty list, `Path().toString()` (65535 bytes), `makeString(a, b, ...)`, `makeStringJoin(by, a, b, ...)` and `makeStringReplace` from 65536 characters on, `Error::toString` with a tag of 65535 characters, and `UUID::parse` of a text with more than five dashes; the conditions are proved as equivalences (C136).
* A chain of encoders is not undone by its decoders when a Base64 stage gets a multiple of three bytes and nothing stops the decoder behind the text, nor for no bytes (C137).
* C138: `digest()` of MD5, SHA-1 and SHA-256 changes the hash object before it asks for the memory of the result. When that throws, calling `digest()` again gives a wrong digest.
* C139: `isCallable` is false for callbacks that return references (there is no pointer to a reference), so `forEach` refuses a callback like `[](T& x) -> T&`. `forEach` with an index gives copies even to a callback that takes `T&`, and does not compile for elements that can only be moved. Callbacks that take `T&&` are let in and fail inside the library. `[](auto&&...)` is ambiguous for arrays, `[](auto, auto)` for `Env`. `isCallable_v` cannot be used at all.
* C140: `Path::normalize` asks for an array with room for all components and copies components that a later `..` takes away; `Path::parse` asks for one array element too many when the text ends with a delimiter, and after a refused array it still asks for the first component; `Version::toString` asks for one byte more than the text; `makeStringJoin` of no strings asks for `65536 - by.size()` bytes.
* C141: results depend on the machine. Where `char` is unsigned, `StringView::compareTo` of texts of unequal lengths, `Path::compareTo`, `hashCode`, `makeStringReplace(char)` and atoms (so also dial strings) give other results for texts with bytes from 128 on; there they are right where they are wrong on x86 (the order is shortlex, `replace` replaces, atoms print as what was parsed). On big endian machines `trim()` is undefined for every text that does not begin and end with NUL, because the value handed to `isspace` is the character times 2^24; a dial string with a colon is thereby undefined too. `makeUUID` of words, `write` of integers and Murmur3 of at least one block give other bytes unless they are palindromes.
* C142: an `Optional` cannot be copied from a const one of its own type (the copy constructor is deleted because a move assignment is declared), and cannot be assigned from an lvalue of its own type. An empty `Optional<T>` makes an empty `Optional<Optional<T>>`; assigning it by moving makes one that holds an empty optional. `Optional<bool>` from an `Optional<Optional<T>>`, or from a const xvalue of any optional, holds whether the argument has content. `opt = {}` sets a scalar to 0 instead of emptying it, and is ambiguous for classes with a default constructor; values that need a constructor to become the payload cannot be assigned.
* C143: an `Optional<X const&>` stores a `reference_wrapper<X>`, so it cannot be made from a const object, and it converts to an `Optional<X&>`. `opt = x` for an `Optional<X&>` does not compile (the body moves the reference). An `Optional<X&>` made from an `Optional<X>` refers into it: it shows another value after a swap and dangles after `= none`.
* C144: `Result(RefOrRValue<V>)` takes `V&&` only. A variable or constant of the value type is refused, and if the value type converts implicitly to the error type (`Result<int, long>`) the compiler takes the constructor for errors: `return n;` with a const `n` makes a failure. The same of errors the other way round. `Ok`/`Err` wrappers that are named are refused, except by `Result<void, E>`.
* C145: `Result::then` with a function that answers a value or nothing, and `Result::orElse`, are not ref-qualified and move the content out of a variable they are called on; so does `Optional::flatMap` (`&` overload). The same call made twice gives two different answers. `then` with a function that answers a `Result`, and `mapError`, do not.
* C146: `writeLE('a')` and `writeBE('a')` write four bytes because there is no overload for `char` and `char` is promoted to `int` (`write('a')`
  writes one); `bool` and `char16_t` take four bytes everywhere. `append` of a `char32_t` prints the code point as a number. A signed number
  cannot be appended at all (ambiguous). `size_t` is not taken by any of them where `uint64_t` is `unsigned long long` and `size_t` is
  `unsigned long` (macOS). `measure(42u)` is 1.
* C147: `pop_back`, `clear`, `= nullptr` or the destruction of a container in a loop over it reads destroyed objects as soon as there were two elements; the notes at vector.hpp:241 and 257 say that all iterators become invalid, in fact only those to removed elements and the end the loop keeps do.
* C148: no disagreement, but worth knowing: `equals` stops at the first difference, so the time of a comparison tells how many characters agree (do not compare secrets with it); `lastIndexOf` looks at every position from the first on even when the text is at the end; searching takes time proportional to the product of both sizes.
* C149: an old result of `emplace_back` shows the element put in the same place later (C149_reused), and the result of `put` for a key that is there
  refers to a value `find` does not give (C149_put_twice). Read off the source, not modelled: `Result<X&, E> r = Ok(x)` does not compile, as `Ok`
  decays its argument; a `const` result gives a mutable reference; a generic lambda given to `then` receives a `reference_wrapper`.
* C150, comments and code: `String::substring(from, len)` takes an end, not a length; `hashCode` is computed in 64 bits, not in `int`;
  `compareTo` is not lexicographic; `length()` counts bytes; `StringView::operator[]` does not throw; the invariant of `Vector` multiplies where the
  code divides; the parent of the root is the root; the base name of the root is "/"; `getDigestLength` is in bits.
* C152, throwing destructors: `Vector::operator=(nullptr)` destroys elements in a loop and resets the size afterwards; when a destructor throws, the vector keeps destroyed elements and destroys them again (C152_null_twice). `Array::operator=(nullptr)` never resets the size. `ArrayView::emplace` leaves a destroyed element behind when the old destructor or the new constructor throws. The `noexcept(false)` of the guards' destructors has no effect (C152_guard), and the destructors of `Vector` and `Array` are implicitly `noexcept`, so an exception that `clear()` lets out ends the program there.
* C153: the memory manager and the registry of error domains are shared by all threads and not protected (memoryManager.cpp:83-138, errorDomain.cpp:42-65): two threads that create and destroy strings of their own race, in every execution (`C153_race`), and may lose bytes from the count so that it later wraps below zero and `limit()` exceeds the capacity (`C153_lost`, `C153_below`). Two threads that register error domains may leave the name of one with the domain of the other, and the name of the other with a place that was never written (`C153_wrong_domain`).
* C154: encoders given bytes of the buffer they write to encode their own output where it overtakes the input (`C154_encode16_overtaken`, `C154_overtaken`); nothing in the interface excludes it.
* C156: `operator<` of `Version` is reflexive, so ordered containers with the default comparison do not work with versions: `find` never finds a version, in any
  tree, and `insert` never refuses one; `std::binary_search` is false for every array. Sets of strings end the program when the empty string meets another one, and take
  different strings for the same when they have NUL or bytes from 128 on ("b" and "a" followed by a character that is not ASCII).
* C157: `std::sort` of 17 or more versions with the same numbers reads behind the array, because `operator<` holds for equal versions. Up to 16 versions are sorted.
* C156, C157: paths, relative ones and absolute ones together, cannot be sorted or be keys of one set with `compareTo`: the empty first component of an absolute path ends the program when a relative path is compared with it.
* C158: `Optional::filter` and `Optional::orElse` return references: to the optional (which may be a temporary, or be assigned later) and to the argument (which may be a temporary). The result of `filter` can come to hold an element that the predicate refused, and both can dangle.
* C75: `FixedSizeDigest<Size>::getDigestLength()` is 8 Size modulo 2^32.
* `BasicError::Overflow` converts to `false`; `InvalidInput == PERM` (C76).

## 5. Mutation tests

`seeded/LOG.jsonl` has one line per wrong program tried: a definition of the model was changed in a scratch copy, everything was
built, and the theorems that no longer compile are listed. `blocked` lists modules that could not be checked because they import a module
that failed. Where no property theorem ruled out a change, theorems were added; they are named under `tightened`.

## 5a. The model against the project's own unit tests

The modules under `lean/Verif/Conformance` put the expectations of the unit tests in /repo/test to the model: the input of a test is given
to the definitions of the model and the result is compared with what the test expects of the library, by `#guard`, so that a disagreement
fails the build. They cover the tests of string views, strings, string builders, base16, base64, byte readers and writers, characters,
atoms, dial strings, UUIDs, versions, the environment, paths, all hashes, vectors, arrays, array views, dictionaries, variable spans,
memory managers, resources and views, optionals, results and errors. The model meets all of them. These are tests of the model's
faithfulness to the code, not proofs, and no claim rests on them.

## 6. Trusted base

* **Lean 4.33.0 kernel.** No axioms are added; no `sorry`, `native_decide` or `bv_decide`.
* **Mathlib** is used only where a module imports it by name.
* **The reading of the C++ text.** Nothing in /repo is executed. The semantics assumed: 64-bit `size_t`, 32-bit `int`, 8-bit
  signed `char`, two's complement, GCC/Clang union punning (`Char`), destructors that do not throw.
* **External calls** by their documented contracts: `memcpy`, `memmove`, `memset`, `memcmp`, `strncmp`, `strlen`, `strtoul`,
  `snprintf`, `strerror`, `malloc`, `calloc`, `free`, `mlock`, `munlock` (Linux), `getenv`, `setenv`, `unsetenv`, `clearenv` and what they do to the array `environ` (glibc behaviour for repeated
  names as stated in `Model/Env`), `<cctype>` in the "C" locale, `std::swap`, `std::hash` not used.
* **Start-up**: the construction of the system heap's memory manager (a capacity of 16 MB against the memory of the machine) is
  assumed to succeed.

### Axioms of each theorem

* no axioms (26 theorems): `C08_empty_write_to_null`, `Calls.C129_payload`, `Chr.C74_eof`, `DsParser.C111_non_ascii`, `Env.C65_clear`, `Guard.C46_too_many`, `Hash.Murmur.C84_new`, `Opt.C55_flatMap_consumes`, `Opt.C55_functor`, `Opt.C55_map_flattens`, `Opt.C55_monad`, `Output.C82_optional`, `Res.C113_lvalue_differs`, `Res.C113_mapError`, `Res.C56_consumes`, `Res.C56_functor`, `Res.C56_monad`, `Res.C56_orElse_monad`, `Res.C56_unchanged`, `Res.C89_equivalence`, `Res.C89_or`, `Sorting.C157_unguarded`, `StringBuilder.C32_initial`, `Ty.C121_ref_or_rvalue`, `Uuid.C92_random_device`, `Version.C35_no_memory`
* `propext` (125 theorems): `ArrayView.C69_equals_not_reflexive`, `ArrayView.C69_size`, `Base16.C96_base16_split`, `C08_equals`, `C08_fill`, `Callable.C139_array_error`, `Callable.C139_array_false`, `Callable.C139_env_false`, `Callable.C139_indexed_false`, `Callable.C139_invocable_value_false`, `Calls.C129_compare_ends`, `Calls.C129_copy_throws`, `Calls.C129_equals`, `Calls.C129_fill`, `Calls.C129_fill_ends`, `Calls.C129_forEach`, `Chr.C74_newline_negation`, `Cmp.C134_equal_not_same`, `Coder.C106_base16`, `Dict.C47_key_throws`, `Dict.C47_second_put_ignored`, `Dict.C83_capacity_negation`, `Docs.C150_compare_not_lexicographic`, `Docs.C150_hash_empty`, `Docs.C150_hash_not_int`, `DsParser.C111_long_argument`, `DtorThrow.C152_end`, `DtorThrow.C152_null`, `DtorThrow.C152_optional`, `DtorThrow.C152_pop`, `DtorThrow.C152_push`, `Ends.C116_path`, `Env.C65_name_memory`, `Env.C65_name_unterminated`, `ErrorValue.C76_equality`, `Hash.Murmur.C63_block`, `Iterators.C135_exchanged`, `Iterators.C135_moved_from_equal`, `Machine.C141_path_negation`, `Make.C87_index_unchecked`, `Make.C87_literal`, `Make.C87_memory_exact`, `Make.C87_memory_partial`, `Make.C87_memory_wraps`, `Make.C87_pointer`, `MemCalls.C117_uuid`, `Memory.C18_locked_never_allocates`, `Opt.C55_equality`, `Opt.C55_equality_identity`, `Opt.C55_functor_iff`, `Opt.C55_list`, `Opt.C55_map_optional`, `Opt.C55_swap`, `OptConv.C142_const_value`, `OptRef.C143_compiles`, `OptRef.C143_const`, `Output.C82_optional_negation`, `Over.C146_measure_one`, `Over.C146_order`, `Over.C146_same_bytes`, `Over.C146_width_partial`, `Path.C49_print_without_memory`, `Path.C51_hollow`, `Path.C51_not_absolute`, `Path.C51_parent_of_parent`, `Path.C52_no_buffer`, `Path.C52_startsWith_throws`, `Path.C53_parent_throws`, `Path.C53_without_memory`, `Path.C54_before_total`, `Path.C54_zero_for_different`, `Path.C90_forEach_moved`, `Path.C90_moved_string`, `Path.C90_relative`, `Path.C90_root_without_memory`, `Path.C90_single_print`, `PayloadThrow.C124_alternative`, `PayloadThrow.C124_copy_ends`, `PayloadThrow.C124_exact`, `PayloadThrow.C124_exchange`, `PayloadThrow.C124_swap`, `PayloadThrow.C124_transparent`, `Res.C113_append`, `Res.C113_chain`, `Res.C113_error_skips`, `Res.C113_good_skips`, `Res.C113_origin`, `Res.C113_void_after`, `Res.C89_throwing`, `ResRef.C149_functions`, `ResRef.C149_functions_error`, `ResRef.C149_moved`, `ResRef.C149_put_twice`, `ResRef.C149_targets`, `Reuse.C145_answer`, `Reuse.C145_keeps_iff`, `Reuse.C145_left`, `Reuse.C145_named_as_given`, `Reuse.C145_optional`, `Reuse.C145_optional_compiles`, `Reuse.C145_program_partial`, `Reuse.C145_until_moved`, `StringArgs.C91_join_diverges`, `StringArgs.C91_unterminated`, `StringView.C22_not_an_order`, `StringView.C22_shortlex_total`, `StringView.C24_empty_needle_depends_on_memory`, `StringView.C72_endsWith_char`, `StringView.C72_iff`, `StringView.C72_startsWith_char_exact`, `StringView.C72_startsWith_char_partial`, `Ty.C121_decay_false`, `Ty.C121_forward`, `Ty.C121_forward_rvalue`, `Ty.C121_remove_const`, `Typed.C122_values`, `Uuid.C92_construct`, `Vec.C44_capacity_wraps`, `Vec.C81_makeArray_wraps`, `Version.C35_dash_negation`, `Version.C35_view_negation`, `Version.C36_accepts_negation`, `VersionValue.C120_build_exact`, `VersionValue.C120_together_false`
* `Quot.sound`, `propext` (444 theorems): `Align.C104_dataAs`, `Align.C104_heap`, `Align.C104_misaligned`, `Align.C104_put`, `Align.C104_vector_partial`, `Align.C104_views`, `ArrayView.C69_at`, `ArrayView.C69_indexOf`, `ArrayView.C69_set`, `ArrayView.C69_slice_partial`, `ArrayView.C69_slice_wraps`, `Base16.C09_round_trip`, `Base16.C09_text`, `Base16.C10_non_ascii_undefined`, `Base16.C10_reencode_lower`, `Base16.C11_encode_iterator`, `Base16.C11_exact`, `Base16.C11_non_ascii_undefined`, `Base16.C96_base16_iterator`, `Base64.C12_empty_rejected`, `Base64.C12_unpadded_undefined`, `Base64.C12_unpadded_wrong`, `Base64.C14_unterminated_undefined`, `Base64.C15_decodedSize_exact`, `Base64.C15_decodedSize_partial`, `Base64.C15_url_undercounts`, `Base64.C96_decodedSize`, `ByteReader.C01_bytes_every_history`, `ByteReader.C01_read_past_limit`, `ByteReader.C01_reads_stay_below_limit_partial`, `ByteReader.C01_reads_stay_in_buffer`, `ByteReader.C02_abort_reachable`, `ByteReader.C02_failure_is_clean`, `ByteWriter.C03_failed_write_beyond_limit`, `ByteWriter.C03_limit_beyond_buffer`, `ByteWriter.C03_no_write_beyond_limit_partial`, `ByteWriter.C03_successful_write_beyond_limit`, `ByteWriter.C04_failed_changes_nothing_history_partial`, `ByteWriter.C04_failed_changes_nothing_partial`, `ByteWriter.C04_failed_keeps_position`, `ByteWriter.C04_failed_write_changes_buffer`, `ByteWriter.C05_writes_accumulate`, `C06_canonical`, `C06_round_trip`, `C07_mutable_slice`, `C07_slice_clamped`, `C08_read`, `C08_write`, `C70_base16`, `C70_encode_reader`, `Callable.C139_invocable`, `Callable.C139_invocable_value`, `Callable.C139_pack`, `Calls.C129_copies`, `Calls.C129_forEachConst`, `Calls.C129_forEachIndexed`, `Calls.C129_indexOf`, `Calls.C129_next`, `Calls.C129_set`, `Calls.C129_split`, `Calls.C129_split3`, `Calls.C129_splitChar`, `CharObj.C100_cstr`, `CharObj.C100_cstr_partial`, `CharObj.C100_four_bytes`, `Chr.C71_bytes_exact`, `Chr.C71_bytes_negation`, `Chr.C71_bytes_partial`, `Chr.C71_equals`, `Chr.C71_order`, `Chr.C74_wide_exact`, `Chr.C74_wide_ub`, `Containers.C125_array_null`, `Containers.C125_moves`, `Containers.C125_std_swap`, `DialString.C41_nul_negation`, `Dict.C47_failed_put`, `Dict.C47_first_put`, `Dict.C47_iff`, `Dict.C47_map_partial`, `Dict.C47_with_exceptions`, `Dict.C83_capacity_iff`, `Dict.C83_make_exact`, `Dict.C83_make_partial`, `Dict.C83_make_wraps`, `Dict.C83_ofBytes_exact`, `Docs.C150_array_empty_iff`, `Docs.C150_cstring_iff`, `Docs.C150_empty_iff`, `Docs.C150_index_never_throws`, `Docs.C150_parent_null_iff`, `Docs.C150_parent_of_root`, `DomainLife.C130_alive_partial`, `DomainLife.C130_dangling`, `DomainLife.C130_lookup`, `DomainLife.C130_move`, `DomainLife.C130_no_cure`, `DomainLife.C130_reuse`, `DomainLife.C130_told`, `DsParser.C111_every_argument`, `DtorThrow.C152_clear_good`, `DtorThrow.C152_clear_throws`, `Ends.C116_optional_result`, `Ends.C116_random_uuid`, `Ends.C116_reader`, `Env.C65_many`, `EnvIter.C102_add_after_removal_undefined`, `EnvIter.C102_increment`, `EnvIter.C102_own_name`, `ErrorDomains.C66_every_history`, `ErrorDomains.C66_full`, `ErrorDomains.C66_registered_partial`, `ErrorDomains.C66_repeated`, `ErrorDomains.C66_unregistered`, `ErrorValue.C76_invalid_input_is_perm`, `ErrorValue.C76_known_partial`, `ErrorValue.C76_overflow_is_false`, `ExnOwner.C98_made`, `Guard.C46_completes`, `Guard.C46_throws`, `Hash.C61_others_partial`, `Hash.C62_murmur`, `Hash.C62_murmur128_last`, `Hash.C62_murmur_last`, `Hash.C62_sha3`, `Hash.C94_sound`, `Hash.Digests.C138_granted`, `Hash.Fixed.C75_fixed`, `Hash.Murmur.C63_big_endian`, `Hash.Murmur.C63_long`, `Hash.Murmur.C63_misaligned`, `Hash.Murmur.C63_misaligned128`, `Hash.Murmur.C63_murmur128_partial`, `Hash.Murmur.C63_murmur32_partial`, `Hash.Murmur.C84_misaligned`, `Hash.Murmur.C84_murmur128_x86_partial`, `Hash.Murmur.C84_targets_differ`, `Hash.Prog.C128_names`, `InPlace.C154_decode64_partial`, `InPlace.C154_encode16_partial`, `InPlace.C154_encode64_partial`, `InPlace.C154_outside`, `InPlace.C154_overtaken`, `Iterators.C135_again`, `Iterators.C135_decode`, `Iterators.C135_dictionary`, `Iterators.C135_encode`, `Iterators.C135_foreign_equal`, `Iterators.C135_loop`, `Iterators.C135_path`, `Lifetimes.C45_array_nullptr_twice`, `Lifetimes.C45_emplace_throws_twice`, `Literal.C127_dangles`, `Machine.C141_builder_search`, `Machine.C141_dial_negation`, `Machine.C141_hash_ascii`, `Machine.C141_hash_difference`, `Machine.C141_hash_negation`, `Machine.C141_read`, `Machine.C141_reference`, `Machine.C141_replace_iff`, `Machine.C141_replace_unsigned`, `Machine.C141_trim_big`, `Machine.C141_trim_little`, `Machine.C141_uuid_words`, `Machine.C141_write`, `Machine.C141_write_native`, `Make.C87_cstring_exact`, `Make.C87_cstring_long`, `Make.C87_cstring_partial`, `Make.C87_equals`, `Make.C87_equals_cstring`, `Make.C87_equals_cstring_wraps`, `Make.C87_index_partial`, `MemCalls.C117_append`, `MemCalls.C117_effects`, `MemCalls.C117_streams`, `MemCalls.C117_uuid_all`, `MemLock.C99_lock`, `MemLock.C99_moved_from`, `MemLock.C99_shared_page`, `Memory.C17_newMgr`, `Memory.C19_move_breaks_accounting`, `Memory.C19_sum_conserved`, `Memory.C19_swap_breaks_accounting`, `Memory.C20_live_blocks_have_one_owner`, `MessageDigest.C64_digest_partial`, `MessageDigest.C64_empty_text`, `MessageDigest.C64_not_hex`, `MessageDigest.C64_text_size`, `Nested.C132_elements`, `Nested.C132_find`, `Nested.C132_push`, `Nested.C132_put`, `Nested.C133_elements_stay`, `Nested.C133_others_stay`, `Nested.C147_statements`, `Nested.C151_adds`, `Nested.C151_drain`, `Nested.C151_fits`, `Nested.C151_gone`, `OldMemory.C136_concat_iff`, `OldMemory.C136_concat_leak`, `OldMemory.C136_concat_partial`, `OldMemory.C136_error_text_partial`, `OldMemory.C136_join_args_iff`, `OldMemory.C136_join_args_leak`, `OldMemory.C136_join_leak`, `OldMemory.C136_make`, `OldMemory.C136_path_text_leak`, `OldMemory.C136_paths`, `OldMemory.C136_replace_char`, `OldMemory.C136_system_message`, `OldMemory.C136_uuid_parse_leak`, `OldMemory.C136_uuid_text`, `OldMemory.C136_version_parse`, `Opt.C55_get`, `OptAlias.C158_filter`, `OptAlias.C158_filter_changed`, `OptAlias.C158_filter_temporary`, `OptAlias.C158_orElse`, `OptAlias.C158_orElse_changed`, `OptAlias.C158_orElse_partial`, `OptAlias.C158_orElse_temporary`, `OptConv.C142_assign_ambiguous`, `OptConv.C142_assign_braces`, `OptConv.C142_assign_convert`, `OptConv.C142_assign_none`, `OptConv.C142_assign_optional`, `OptConv.C142_const_rvalue`, `OptRef.C143_alias`, `OptRef.C143_assign`, `OptRef.C143_ended`, `OptRef.C143_equal`, `OptRef.C143_payload`, `OptRef.C143_safe`, `OptRef.C143_stays`, `OptRef.C143_substitution`, `OptRef.C143_undefined`, `Ordered.C156_string_empty_negation`, `Output.C82_dial_negation`, `Output.C82_digest`, `Output.C82_error_known_partial`, `Output.C82_memoryView`, `Output.C82_optional_iff`, `Over.C146_accepts`, `Over.C146_char_four_bytes`, `Owner.C86_disposer`, `Path.C109_join_assoc`, `Path.C109_join_none`, `Path.C48_overlap`, `Path.C51_query_iff`, `Path.C52_contains_throws`, `Path.C52_startsWith_empty`, `Path.C53_join_subpaths`, `Path.C53_make`, `Path.C53_short`, `Path.C53_subpath`, `Path.C54_exact`, `Path.C54_relative_absolute`, `Path.C90_deref`, `Path.C90_forEach`, `Path.C90_iterator_eq`, `Path.C90_join`, `Path.C90_join_moved`, `Path.C90_single`, `Path.before_irrefl`, `Path.before_trans`, `PathMem.C123_getParent_wrong`, `PathMem.C123_join_loses`, `PathMem.C123_normalize_wrong`, `Payload.C57_own_payload`, `Payload.C57_self_swap`, `Reads.C148_char`, `Reads.C148_determined`, `Reads.C148_same`, `Record.C107_injective`, `Record.C107_written`, `Requests.C140_concat`, `Requests.C140_getParent`, `Requests.C140_join`, `Requests.C140_joinArgs`, `Requests.C140_joinPaths`, `Requests.C140_join_empty`, `Requests.C140_paths_bound`, `Requests.C140_paths_nothing`, `Requests.C140_print`, `Requests.C140_replaceChar`, `Requests.C140_root`, `Requests.C140_single`, `Requests.C140_string`, `Requests.C140_strings_bound`, `Requests.C140_strings_nothing`, `Requests.C140_subpath`, `Requests.C140_toString`, `Res.C113_at_most_once`, `Res.C56_mapError`, `Res.C56_orElse`, `Res.C56_self_swap`, `Res.C56_states`, `Res.C56_swap_partial`, `Res.C56_then`, `Res.C56_void`, `Res.C89_move`, `Res.C89_results`, `Res.C89_values`, `Res.C89_void`, `ResConv.C144_assign`, `ResConv.C144_err`, `ResConv.C144_error`, `ResConv.C144_error_lvalue`, `ResConv.C144_ok`, `ResConv.C144_result`, `ResConv.C144_same`, `ResConv.C144_sides_partial`, `ResConv.C144_tagged`, `ResConv.C144_value`, `ResConv.C144_value_lvalue`, `ResConv.C144_void`, `ResRef.C149_dangling`, `ResRef.C149_push`, `ResRef.C149_put_failed`, `ResRef.C149_reading`, `ResRef.C149_reused`, `ResRef.C149_sane`, `ResRef.C149_sane_init`, `ResRef.C149_undefined`, `ResRef.C149_value`, `ResTy.C126_mapError_void`, `ResTy.C126_orElse_void`, `ResTy.C126_overload`, `ResTy.C126_type`, `Reuse.C145_compiles`, `Shared.C114_overlap`, `Shared.C114_seen`, `Sorting.C156_path_mixed`, `Sorting.C157_path_mixed`, `Sorting.C157_sort_small`, `Startup.C110_lost`, `Startup.C110_start_partial`, `Startup.C110_zeroed`, `Str.C29_concat_exact`, `Str.C29_concat_iff`, `Str.C29_concat_partial`, `Str.C29_concat_truncates`, `Str.C29_make`, `Str.C30_empty_list`, `Str.C31_replace_char_exact`, `Str.C31_replace_char_high`, `Str.C31_replace_char_partial`, `Str.C73_join_args_partial`, `Str.C73_join_exact`, `Str.C73_join_strings_drops_separator`, `Str.C93_empty_needle`, `Str.C93_ends_partial`, `Str.C93_less_empty`, `Str.C93_made`, `Str.C93_startsWith_exact`, `StrMem.C131_moved`, `StrMem.C131_print`, `Streams.C97_blocks`, `Streams.C97_dangling_reader`, `Streams.C97_dangling_writer`, `Streams.C97_lent_dangles`, `Streams.C97_made`, `Streams.C97_moved_from`, `Streams.C97_swap`, `StringArgs.C91_concat_partial`, `StringArgs.C91_join_partial`, `StringArgs.C91_string_diverges`, `StringBuilder.C105_literal`, `StringBuilder.C105_remaining_wraps`, `StringBuilder.C33_long_exact`, `StringBuilder.C33_zero_found`, `StringView.C108_trim`, `StringView.C22_empty_terminates`, `StringView.C23_substring`, `StringView.C23_substring_in_range`, `StringView.C24_empty_needle_reads_outside`, `StringView.C24_indexOf_char`, `StringView.C24_lastIndexOf_char`, `StringView.C26_trim`, `StringView.C26_trim_char`, `StringView.C26_trim_idempotent`, `StringView.C26_white`, `StringView.C27_count_wraps`, `StringView.C27_splitChar_partial`, `StringView.C28_empty_delimiter_chars`, `SystemErrors.C95_values`, `Threads.C153_apart_partial`, `Threads.C153_below`, `Threads.C153_count_partial`, `Threads.C153_disturbs_partial`, `Threads.C153_guarded_partial`, `Threads.C153_lost`, `Threads.C153_race`, `Threads.C153_serial_partial`, `Ty.C121_decay_exact`, `Ty.C121_decay_idempotent`, `Ty.C121_decay_partial`, `Ty.C121_mv_exact`, `Ty.C121_mv_is_move`, `Typed.C122_array`, `Typed.C122_pointer_false`, `Typed.C122_range_partial`, `Typed.C122_range_reversed`, `Typed.C122_round_trip`, `Uuid.C37_round_trip`, `Uuid.C37_size`, `Uuid.C37_string`, `Uuid.C38_accepts_canonical`, `Uuid.C38_exact_partial`, `Uuid.C38_undefined`, `Uuid.C39_isNull`, `Uuid.C39_make`, `Uuid.C92_bytes`, `Uuid.C92_random_bytes`, `Uuid.C92_random_collision`, `Uuid.C92_random_not_version4`, `Uuid.C92_random_words`, `Uuid.C92_random_zero_bytes`, `VariableSpan.C42_iteration`, `VariableSpan.C43_in_bounds`, `Vec.C44_failure_keeps`, `Vec.C81_given_memory`, `Vec.C81_makeArray_exact`, `Vec.C81_makeArray_iff`, `Vec.C81_makeOf`, `Vec.C81_makeVectorFrom_exact`, `Vec.C81_makeVectorFrom_partial`, `Vec.C81_makeVector_unwritten`, `Version.C36_terminated_partial`, `VersionValue.C120_build_version`, `VersionValue.C120_labels`, `VersionValue.C120_together_partial`, `ViewObj.C101_slice_inside`, `Window.C80_construct`, `Window.C80_copy_result`, `Window.C80_dataAs_partial`, `Window.C80_dataAs_wraps`, `Window.C80_offsetAddress`, `Window.C80_overlapping`, `Window.C80_sliceFor_partial`, `Window.C80_sliceFor_wraps`
* `Classical.choice`, `Quot.sound`, `propext` (637 theorems): `Align.C104_registry`, `ArrayView.C69_equals_exact`, `ArrayView.C69_equals_iff`, `ArrayView.C69_equals_partial`, `ArrayView.C69_fill`, `ArrayView.C69_forEach_indexed_copies`, `ArrayView.C69_slice_exact`, `Assert.C88_code`, `Assert.C88_conditions`, `Assert.C88_errno_exact`, `Assert.C88_errno_partial`, `Assert.C88_invalid_state_exact`, `Assert.C88_invalid_state_partial`, `Assert.C88_long_tag`, `Assert.C88_null_text_wrong`, `Assert.C88_range`, `Assert.C88_range_exact`, `Assert.C88_range_text_partial`, `Assert.C88_texts_exact`, `Assert.C88_texts_partial`, `Atom.C40_any_string`, `Atom.C40_atoms_partial`, `Atom.C40_exact`, `Atom.C40_non_ascii_collide`, `Atom.C40_print_any`, `Atom.C40_print_iff`, `Atom.C40_rejects`, `Base16.C10_accepts_exactly_hex_partial`, `Base16.C10_exact`, `Base16.C10_undefined_iff`, `Base16.C11_decode_iterator_partial`, `Base16.C96_base16_any`, `Base64.C12_round_trip_iff`, `Base64.C12_round_trip_partial`, `Base64.C13_conforms_to_rfc4648`, `Base64.C14_iff`, `Base64.C14_reads_only_view_partial`, `Base64.C16_base16_decoder_fits`, `Base64.C16_base16_fits`, `Base64.C16_base64_fits`, `Base64.C96_base64_any`, `Base64.C96_base64_rest`, `ByteReader.C01_fails_iff`, `ByteReader.C02_abort_iff`, `ByteReader.C02_no_abort_partial`, `ByteReader.C77_past_limit`, `ByteReader.C77_reader_exact_partial`, `ByteWriter.C03_fails_iff`, `ByteWriter.C03_write_every_history`, `ByteWriter.C04_fails_iff`, `ByteWriter.C78_any_state`, `ByteWriter.C78_writer_exact_partial`, `C07_index`, `C07_index_whole`, `C07_slice_slice`, `Callable.C139_array`, `Callable.C139_array_indexed`, `Callable.C139_array_partial`, `Callable.C139_env`, `Callable.C139_env_two`, `Callable.C139_other_count`, `Callable.C139_path`, `Callable.C139_string`, `Callable.C139_view`, `Callable.C139_view_indexed`, `Calls.C129_visit`, `Channel.C155_fifo`, `Channel.C155_pump`, `Channel.C155_queue`, `Channel.C155_room`, `CharObj.C100_values`, `Chr.C71_byte_order`, `Chr.C74_big_exact`, `Chr.C74_byte_exact`, `Chr.C74_case_partial`, `Chr.C74_classes_partial`, `Chr.C74_newline_exact`, `Chr.C74_print_partial`, `Cmp.C134_different`, `Cmp.C134_equal`, `Cmp.C134_equivalence`, `Cmp.C134_exact`, `Cmp.C134_irreflexive_depends`, `Cmp.C134_optional`, `Cmp.C134_result`, `Cmp.C134_search`, `Cmp.C134_sequences`, `Cmp.C134_uuid_text`, `Coder.C106_base16_decode`, `Coder.C106_base16_round_trip`, `Coder.C106_base64`, `Coder.C106_base64_dropped`, `Coder.C106_base64_iff`, `Containers.C125_programs_partial`, `Containers.C125_refines_partial`, `DialString.C41_parse`, `DialString.C41_round_trip_iff`, `DialString.C41_round_trip_partial`, `Dict.C83_find`, `Dict.C83_iterate`, `Dict.C83_iterate_negation`, `Dict.C83_iterate_uneven`, `Dict.C83_make_iff`, `Docs.C150_basename_iff`, `Docs.C150_capacity_iff`, `Docs.C150_compare_iff`, `Docs.C150_digest_length_not_bytes`, `Docs.C150_hash`, `Docs.C150_hash_iff`, `Docs.C150_hash_low`, `Docs.C150_length_iff`, `Docs.C150_substring_iff`, `DomainLife.C130_unknown_partial`, `DsParser.C111_exact`, `DsParser.C111_no_name`, `DsParser.C111_program_partial`, `DtorThrow.C152_clear_again`, `DtorThrow.C152_guard`, `DtorThrow.C152_hazard`, `DtorThrow.C152_lets_out`, `DtorThrow.C152_null_twice`, `DtorThrow.C152_program_partial`, `DtorThrow.C152_step_partial`, `Ends.C116_never`, `Ends.C116_path_compare`, `Ends.C116_slice`, `Ends.C116_string_compare`, `Env.C65_get`, `Env.C65_iteration_iff`, `Env.C65_iteration_partial`, `Env.C65_read_back`, `Env.C65_read_exact`, `Env.C65_set_exact`, `Env.C65_set_get_partial`, `Env.C65_unset`, `Env.C65_unset_exact`, `Env.C65_value_cut`, `EnvIter.C102_clear_undefined`, `EnvIter.C102_set_new`, `EnvIter.C102_stable_partial`, `EnvIter.C102_unset_skips`, `ErrorValue.C76_exact`, `ErrorValue.C76_unknown_iff`, `ErrorValue.C76_unknown_partial`, `Exn.C67_exact`, `Exn.C67_long_name_truncated`, `Exn.C67_long_text_overruns`, `Exn.C67_no_memory`, `Exn.C67_no_memory_exact`, `Exn.C67_text_partial`, `ExnOwner.C98_assign`, `ExnOwner.C98_assign_leaks`, `ExnOwner.C98_lost_iff`, `ExnOwner.C98_move_keeps_text`, `ExnOwner.C98_moved_from`, `ExnOwner.C98_never_twice`, `ExnOwner.C98_no_leak_partial`, `ExnOwner.C98_text_stays`, `Guard.C46_exception_safe`, `Hash.C118_collision`, `Hash.C118_collision_md5_partial`, `Hash.C118_collision_sha1_partial`, `Hash.C118_collision_sha256_partial`, `Hash.C118_forge`, `Hash.C118_forge_md5_partial`, `Hash.C118_forge_sha1_partial`, `Hash.C118_forge_sha256_partial`, `Hash.C118_md5`, `Hash.C118_md5_partial`, `Hash.C118_number`, `Hash.C118_sha1`, `Hash.C118_sha1_partial`, `Hash.C118_sha256`, `Hash.C118_sha256_partial`, `Hash.C61_md5`, `Hash.C61_second_md5`, `Hash.C61_second_sha1`, `Hash.C61_second_sha256`, `Hash.C61_sha1`, `Hash.C61_sha256`, `Hash.C62_gentle`, `Hash.C62_incremental_partial`, `Hash.C75_digest_length`, `Hash.C79_sha1`, `Hash.C79_sha256`, `Hash.C79_sha256_init`, `Hash.C94_digest_exact`, `Hash.C94_digest_partial`, `Hash.C94_feed`, `Hash.C94_feed_any`, `Hash.C94_murmur_position`, `Hash.C94_murmur_twice`, `Hash.C94_sha3`, `Hash.C94_updateReader`, `Hash.Digests.C138_again`, `Hash.Digests.C138_again_partial`, `Hash.Digests.C138_again_wrong`, `Hash.Digests.C138_all_returned`, `Hash.Digests.C138_programs`, `Hash.Fixed.C75_fixed_exact`, `Hash.Md5.C58_any_pieces`, `Hash.Md5.C58_exact`, `Hash.Md5.C58_long_piece`, `Hash.Md5.C58_md5_partial`, `Hash.Md5.C79_md5`, `Hash.Murmur.C63_decomposition`, `Hash.Murmur.C63_murmur128_exact`, `Hash.Murmur.C63_murmur32_exact`, `Hash.Murmur.C84_murmur128_exact`, `Hash.Murmur.C85_murmur128_exact`, `Hash.Murmur.C85_murmur128_partial`, `Hash.Murmur.C85_murmur128_x86_exact`, `Hash.Murmur.C85_murmur128_x86_partial`, `Hash.Murmur.C85_murmur32_exact`, `Hash.Murmur.C85_murmur32_partial`, `Hash.Murmur.Reach.C119_force128`, `Hash.Murmur.Reach.C119_force32`, `Hash.Murmur.Reach.C119_forceX86`, `Hash.Murmur.Reach.C119_preimage128`, `Hash.Murmur.Reach.C119_preimage32`, `Hash.Murmur.Reach.C119_preimageX86`, `Hash.Prog.C128_plain_partial`, `Hash.Prog.C128_programs`, `Hash.Prog.C128_reuse`, `Hash.Prog.C128_slicing`, `Hash.Sha1.C59_any_pieces`, `Hash.Sha1.C59_exact`, `Hash.Sha1.C59_long_piece`, `Hash.Sha1.C59_sha1_partial`, `Hash.Sha2.C60_any_pieces`, `Hash.Sha2.C60_exact`, `Hash.Sha2.C60_long_piece`, `Hash.Sha2.C60_sha256_partial`, `Hash.Sha2.Smaller.C103_block`, `Hash.Sha2.Smaller.C103_same_digest`, `Hash.Sha2.Smaller.C103_sha256`, `HashTable.C159_flood`, `HashTable.C159_insert`, `HashTable.C159_table`, `InPlace.C154_decode16_partial`, `InPlace.C154_encode16_overtaken`, `InPlace.C154_round_trip16`, `InPlace.C154_round_trip64`, `Iterators.C135_env`, `Iterators.C135_range`, `Iterators.C135_span`, `Lifetimes.C45_alive_partial`, `Lifetimes.C45_counts_partial`, `Lifetimes.C45_exactly_once_partial`, `Lifetimes.C45_iff`, `Literal.C127_exact`, `Literal.C127_kept_partial`, `Literal.C127_literals_partial`, `Literal.C127_step`, `Machine.C141_atom_iff`, `Machine.C141_atom_unsigned`, `Machine.C141_compare_iff`, `Machine.C141_compare_unsigned`, `Machine.C141_dial_partial`, `Machine.C141_digests`, `Machine.C141_murmur_block`, `Machine.C141_murmur_short`, `Machine.C141_path_partial`, `Make.C87_reading`, `Make.C87_round_trip`, `Make.C87_substring_len`, `Make.C87_substring_range`, `MemCalls.C117_compare`, `MemCalls.C117_equals`, `MemCalls.C117_errors`, `MemCalls.C117_hash`, `MemCalls.C117_not_null_partial`, `MemCalls.C117_read_fill`, `MemCalls.C117_reader`, `MemCalls.C117_write`, `MemCalls.C117_writer`, `MemLock.C99_all_released`, `MemLock.C99_exactly_partial`, `MemLock.C99_iff`, `MemLock.C99_locked_covered`, `MemLock.C99_page`, `Memory.C17_alloc_error`, `Memory.C17_alloc_exact`, `Memory.C17_size_is_outstanding`, `Memory.C18_locked_size_never_grows`, `Memory.C19_accounting_iff`, `Memory.C19_accounting_partial`, `Memory.C19_moved_manager`, `Memory.C20_released_exactly_once`, `Nested.C132_all_back`, `Nested.C132_array_null`, `Nested.C132_program_partial`, `Nested.C132_put_loses`, `Nested.C132_step_partial`, `Nested.C133_blocks_partial`, `Nested.C133_destroyed`, `Nested.C133_moves_keep`, `Nested.C133_put_dangles`, `Nested.C133_views_partial`, `Nested.C147_clear`, `Nested.C147_destroy`, `Nested.C147_each`, `Nested.C147_entries`, `Nested.C147_gentle`, `Nested.C147_pop`, `Nested.C147_safe`, `Nested.C151_array`, `Nested.C151_ends`, `Nested.C151_pop`, `Nested.C151_program`, `Nested.C151_push`, `Nested.C151_safe`, `OldMemory.C136_builder`, `OldMemory.C136_error_text_leak`, `OldMemory.C136_hashes`, `OldMemory.C136_join_iff`, `OldMemory.C136_path_text_iff`, `OldMemory.C136_replace_iff`, `OldMemory.C136_replace_leak`, `OldMemory.C136_uuid_parse_iff`, `OldMemory.C136_version_text`, `OptAlias.C158_filter_partial`, `OptConv.C142_assign_copy`, `OptConv.C142_assign_copy_value`, `OptConv.C142_assign_differs`, `OptConv.C142_assign_move`, `OptConv.C142_assign_same`, `OptConv.C142_deeper`, `OptConv.C142_flattens`, `OptConv.C142_in_place`, `OptConv.C142_make`, `OptConv.C142_make_const`, `OptConv.C142_prvalue`, `Ordered.C156_binarySearch`, `Ordered.C156_char`, `Ordered.C156_container`, `Ordered.C156_string_negation`, `Ordered.C156_string_partial`, `Ordered.C156_uuid`, `Ordered.C156_version_greater`, `Ordered.C156_version_less_negation`, `Output.C82_dial_iff`, `Output.C82_dial_partial`, `Output.C82_error_exact`, `Output.C82_error_unknown_partial`, `Output.C82_null`, `Output.C82_plain_dial`, `Over.C146_append`, `Over.C146_char`, `Over.C146_code_point_printed`, `Over.C146_round_trip`, `Over.C146_value_kept`, `Owner.C86_blocks`, `Owner.C86_length`, `Owner.C86_texts`, `Owner.C86_views`, `Path.C109_join_cancel`, `Path.C109_join_parts`, `Path.C109_join_text`, `Path.C109_normalize_left`, `Path.C109_normalize_right_iff`, `Path.C109_relations`, `Path.C109_subpath`, `Path.C48_iff`, `Path.C48_parse_print_partial`, `Path.C48_single_partial`, `Path.C49_all_delimiters`, `Path.C49_print_parse_partial`, `Path.C49_single_iff`, `Path.C49_single_partial`, `Path.C50_iff`, `Path.C50_length_partial`, `Path.C50_no_components`, `Path.C50_too_long`, `Path.C51_absolute_iff`, `Path.C51_absolute_partial`, `Path.C51_idempotent`, `Path.C51_meaning_iff`, `Path.C51_normal`, `Path.C51_query_partial`, `Path.C51_relative_partial`, `Path.C52_contains_partial`, `Path.C52_endsWith_exact`, `Path.C52_endsWith_partial`, `Path.C52_startsWith_exact`, `Path.C52_startsWith_partial`, `Path.C52_startsWith_wraps`, `Path.C53_parent_basename`, `Path.C54_compare_partial`, `Path.C90_iterate`, `Path.C90_iterate_other`, `Path.C90_iterator_eq_other`, `Path.C90_root`, `Path.C90_single_parse`, `Path.C90_text_none`, `Path.C90_text_partial`, `Path.C90_text_too_long`, `Path.C90_text_without_memory`, `PathMem.C123_all_back`, `PathMem.C123_ended`, `PathMem.C123_getParent_partial`, `PathMem.C123_join`, `PathMem.C123_moved`, `PathMem.C123_normalize_partial`, `PathMem.C123_parse`, `PathMem.C123_program`, `PathMem.C123_root`, `PathMem.C123_single`, `PathMem.C123_subpath_partial`, `PathMem.C123_toString`, `Payload.C57_clean_partial`, `Payload.C57_counts_partial`, `Payload.C57_iff`, `Payload.C57_optional_partial`, `Payload.C57_own_payload_always`, `Payload.C57_self_swap_always`, `PayloadThrow.C124_ended`, `PayloadThrow.C124_program`, `Pipeline.C137_empty`, `Pipeline.C137_encode`, `Pipeline.C137_exact`, `Pipeline.C137_hex`, `Pipeline.C137_terminated_partial`, `RangeView.C68_filter_partial`, `RangeView.C68_first_not_skipped`, `RangeView.C68_iff`, `RangeView.C68_visits`, `Reads.C148_bound`, `Reads.C148_ends`, `Reads.C148_equals`, `Reads.C148_search`, `Reads.C148_split`, `Reads.C148_trim`, `Reads.C148_worst`, `Record.C107_no_room`, `Record.C107_read`, `Record.C107_round_trip`, `Record.C107_truncated`, `Requests.C140_labels`, `Requests.C140_normalize`, `Requests.C140_normalize_extra`, `Requests.C140_normalize_partial`, `Requests.C140_parse`, `Requests.C140_parse_bound`, `Requests.C140_parse_extra`, `Requests.C140_parse_partial`, `Requests.C140_replace`, `Requests.C140_version`, `ResConv.C144_third`, `ResRef.C149_ends_iff`, `ResRef.C149_put_find`, `ResTy.C126_chain`, `ResTy.C126_kinds`, `ResTy.C126_mapError`, `ResTy.C126_narrowing`, `ResTy.C126_orElse`, `ResTy.C126_stage`, `ResTy.C126_static`, `ResTy.C126_then`, `ResTy.C126_then_void`, `Reuse.C145_optional_keeps_iff`, `Reuse.C145_optional_program_partial`, `Shared.C114_cut`, `Shared.C114_independent`, `Shared.C114_order`, `Sorting.C156_path_partial`, `Sorting.C157_heapSort`, `Sorting.C157_path_partial`, `Sorting.C157_sort`, `Sorting.C157_std_sort`, `Sorting.C157_std_string_partial`, `Sorting.C157_std_values`, `Sorting.C157_string_partial`, `Sorting.C157_values`, `Sorting.C157_versions_negation`, `Sorting.C157_versions_partial`, `Startup.C110_order`, `Str.C108_concat`, `Str.C108_join_of_split`, `Str.C108_pattern_may_reappear`, `Str.C108_replace_is_split_join`, `Str.C108_replace_unchanged_iff`, `Str.C108_replaced_character`, `Str.C108_splitChar_of_join`, `Str.C108_split_of_join`, `Str.C30_join_exact`, `Str.C30_join_partial`, `Str.C30_join_succeeds`, `Str.C31_replace_empty_pattern_diverges`, `Str.C31_replace_exact`, `Str.C31_replace_partial`, `Str.C31_replace_truncates`, `Str.C73_join_views_partial`, `Str.C93_cstring_partial`, `Str.C93_cstring_wraps`, `Str.C93_empty_needle_exact`, `Str.C93_equals`, `Str.C93_equals_cstring`, `Str.C93_find_char`, `Str.C93_find_partial`, `Str.C93_less_exact`, `Str.C93_less_partial`, `Str.C93_parts`, `Str.C93_startsWith_empty`, `StrMem.C131_all_back`, `StrMem.C131_makers`, `StrMem.C131_parse`, `StrMem.C131_program`, `StrMem.C131_replace`, `StrMem.C131_step`, `Streams.C97_destroy`, `Streams.C97_no_lend`, `Streams.C97_one_owner`, `Streams.C97_owning_reader`, `Streams.C97_owning_writer`, `Streams.C97_scope_end`, `Streams.C97_ub_only_dangling`, `Streams.C97_write_then_read`, `StringArgs.C91_concat_cases`, `StringArgs.C91_concat_exact`, `StringArgs.C91_join_exact`, `StringBuilder.C105_after_build`, `StringBuilder.C105_complete_iff_partial`, `StringBuilder.C105_item`, `StringBuilder.C105_last_number_lost`, `StringBuilder.C105_remaining_partial`, `StringBuilder.C105_signed`, `StringBuilder.C105_unsigned`, `StringBuilder.C32_accumulates_partial`, `StringBuilder.C32_any_size`, `StringBuilder.C32_long_view_empty`, `StringBuilder.C32_nothing_lost_partial`, `StringBuilder.C32_parts_partial`, `StringBuilder.C33_exact`, `StringBuilder.C33_indexOf_partial`, `StringBuilder.C33_last_not_found`, `StringView.C108_char_search`, `StringView.C108_cut`, `StringView.C108_first_and_last`, `StringView.C108_found_at_ends`, `StringView.C108_hash_append`, `StringView.C108_search_again`, `StringView.C108_substring_found`, `StringView.C108_substring_substring`, `StringView.C112_atom_exact`, `StringView.C112_atom_length`, `StringView.C112_atom_partial`, `StringView.C112_base64`, `StringView.C112_decimal`, `StringView.C112_hex`, `StringView.C112_uuid`, `StringView.C112_version`, `StringView.C112_version_partial`, `StringView.C21_equals_iff`, `StringView.C21_hash_leading_zeros`, `StringView.C21_hash_many`, `StringView.C21_hash_one_change`, `StringView.C21_hash_piece`, `StringView.C21_hash_polynomial`, `StringView.C21_hash_respects_equals`, `StringView.C21_hash_two_changes`, `StringView.C22_exact`, `StringView.C22_shortlex_partial`, `StringView.C24_contains_partial`, `StringView.C24_empty_needle_exact`, `StringView.C24_empty_needle_memory_end`, `StringView.C24_indexOf_partial`, `StringView.C24_lastIndexOf_partial`, `StringView.C25_endsWith_iff`, `StringView.C25_startsWith_iff`, `StringView.C27_count_exact`, `StringView.C27_split_partial`, `StringView.C28_empty_delimiter_diverges`, `StringView.C28_iff`, `StringView.C28_terminates_partial`, `StringView.C72_startsWith_char_reads_outside`, `SysMem.C115_create`, `SysMem.C115_create_exact`, `SysMem.C115_never_more`, `SysMem.C115_product_wraps`, `SysMem.C115_queries`, `SysMem.C115_refusals`, `SysMem.C115_system_manager`, `SystemErrors.C95_errno`, `SystemErrors.C95_message`, `SystemErrors.C95_named`, `Threads.C153_wrong_domain`, `Typed.C122_empty`, `Typed.C122_pointer_exact`, `Typed.C122_pointer_partial`, `Uuid.C38_accepts_other`, `Uuid.C38_four_dashes_partial`, `Uuid.C39_strict_total_order`, `Uuid.C92_copyAssign`, `Uuid.C92_moveAssign`, `Uuid.C92_random_count`, `Uuid.C92_random_equal`, `Uuid.C92_random_not_nil`, `Uuid.C92_swap`, `Vec.C44_refines`, `Vec.C44_vector`, `Vec.C81_equals`, `Vec.C81_equalsList`, `Vec.C81_makeArrayFrom_partial`, `Vec.C81_makeArray_partial`, `Vec.C81_toArray`, `Vec.C81_toArray_not_empty`, `Version.C34_equals`, `Version.C34_gt_partial`, `Version.C34_lt_exact`, `Version.C34_lt_negation`, `Version.C35_parse_text_partial`, `Version.C35_read_back_iff`, `Version.C35_round_trip`, `Version.C36_any_memory`, `Version.C36_depends_on_memory`, `Version.C36_exact_partial`, `Version.C36_independent_iff`, `VersionValue.C120_assign`, `VersionValue.C120_blocks`, `VersionValue.C120_conserved`, `VersionValue.C120_source_unchanged`, `VersionValue.C120_swap`, `VersionValue.C120_there_and_back`, `VersionValue.C120_values`, `ViewObj.C101_constant_partial`, `ViewObj.C101_constant_written`, `ViewObj.C101_equals`, `ViewObj.C101_fill`, `ViewObj.C101_inside`, `ViewObj.C101_moved_from`, `ViewObj.C101_moves`, `ViewObj.C101_read`, `ViewObj.C101_write`, `Window.C80_dataAs_exact`, `Window.C80_fill`, `Window.C80_sliceFor_exact`

### Modelled and not modelled

Modelled, function by function (see the comment on every definition for lines): `byteReader`, `byteWriter`, `memoryView`,
`mutableMemoryView`, `memoryManager`, `memoryResource` (ownership), `base16`, `base64`, `encoder`, `stringView`, `string`,
`stringBuilder`, `char`, `version`, `uuid`, `atom`, `dialstring`, `variableSpan`, `vector`, `array` and `details/array_utils`
(construction and lifetimes), `arrayView`, `dictionary`, `path`, `optional`, `result`, `hashing/*` (32-bit and 64-bit targets),
`env`, `error`, `errorDomain`, `posixErrorDomain`, `systemErrorDomain`, `assert`, `exception`, `errorString`,
`details/string_utils`, `range_view`, typed memory access (`dataAs`, `get`, `set`), array and vector factories, `output_utils`
(as text appended to a stream in a good state), the type functions of `utils.hpp`, the example program `examples/ds_parser.cpp`.

Not modelled: the state and formatting flags of iostreams; `traits/*` (compile-time type selection); threads (the library has no synchronisation);
exceptions thrown by moves inside `noexcept` functions; strict
aliasing; elements copied with `memcpy` in C45/C46 (they have no constructor calls to log); functions declared but defined
nowhere (several of `StringBuilder`).
