{
 "claims": [
  {
   "property": "C01",
   "status": "partial",
   "theorems": [
    "Solace.ByteReader.C01_reads_stay_below_limit_partial",
    "Solace.ByteReader.C01_read_past_limit",
    "Solace.ByteReader.C01_reads_stay_in_buffer",
    "Solace.ByteReader.C01_bytes_every_history",
    "Solace.ByteReader.C01_fails_iff"
   ],
   "note": "False as stated for the code: after limit(n) with n below the position, remaining() wraps and reads pass the limit (C01_read_past_limit). Proved for every history in which the limit is not lowered below the position; and for every state reads stay inside the buffer. C01_bytes_every_history: in every history the right bytes are returned; C01_fails_iff: a byte at or beyond the limit is returned exactly in states with limit < position < size."
  },
  {
   "property": "C02",
   "status": "partial",
   "theorems": [
    "Solace.ByteReader.C02_failure_is_clean",
    "Solace.ByteReader.C02_no_abort_partial",
    "Solace.ByteReader.C02_abort_reachable",
    "Solace.ByteReader.C02_abort_iff"
   ],
   "note": "First half proved in full for every state. The no-abort half is false (C02_abort_reachable); proved when the limit is never lowered below the position. C02_abort_iff: a call aborts exactly in states with limit < position and size <= position."
  },
  {
   "property": "C03",
   "status": "partial",
   "theorems": [
    "Solace.ByteWriter.C03_no_write_beyond_limit_partial",
    "Solace.ByteWriter.C03_failed_write_beyond_limit",
    "Solace.ByteWriter.C03_successful_write_beyond_limit",
    "Solace.ByteWriter.C03_write_every_history",
    "Solace.ByteWriter.C03_fails_iff",
    "Solace.ByteWriter.C03_limit_beyond_buffer"
   ],
   "note": "False as stated: write copies before checking the limit. Proved whenever the data fits below the limit or does not fit in the buffer at all; the missing case is exactly the counterexample. C03_write_every_history says what a write does after any history; C03_fails_iff: it fails exactly in states with position < size and limit < size."
  },
  {
   "property": "C04",
   "status": "partial",
   "theorems": [
    "Solace.ByteWriter.C04_failed_keeps_position",
    "Solace.ByteWriter.C04_failed_changes_nothing_partial",
    "Solace.ByteWriter.C04_failed_changes_nothing_history_partial",
    "Solace.ByteWriter.C04_failed_write_changes_buffer",
    "Solace.ByteWriter.C04_fails_iff"
   ],
   "note": "Position and limit part proved in full. Buffer part false when limit < position+n <= capacity (witness); proved otherwise, and for all histories without limit/flip calls. C04_fails_iff: exactly in states with position <= limit < size."
  },
  {
   "property": "C05",
   "status": "proved",
   "theorems": [
    "Solace.ByteWriter.C05_writes_accumulate"
   ],
   "note": ""
  },
  {
   "property": "C06",
   "status": "proved",
   "theorems": [
    "Solace.C06_canonical",
    "Solace.C06_round_trip"
   ],
   "note": "Both host byte orders, widths 8/16/32/64."
  },
  {
   "property": "C07",
   "status": "proved",
   "theorems": [
    "Solace.C07_slice_clamped",
    "Solace.C07_slice_slice",
    "Solace.C07_mutable_slice",
    "Solace.C07_index",
    "Solace.C07_index_whole"
   ],
   "note": ""
  },
  {
   "property": "C08",
   "status": "proved",
   "theorems": [
    "Solace.C08_write",
    "Solace.C08_read",
    "Solace.C08_fill",
    "Solace.C08_equals",
    "Solace.C08_empty_write_to_null"
   ],
   "note": "A zero-length write to a null view is reported as an error (C08_empty_write_to_null)."
  },
  {
   "property": "C09",
   "status": "proved",
   "theorems": [
    "Solace.Base16.C09_round_trip",
    "Solace.Base16.C09_text"
   ],
   "note": "Full, for any destinations with room."
  },
  {
   "property": "C10",
   "status": "partial",
   "theorems": [
    "Solace.Base16.C10_accepts_exactly_hex_partial",
    "Solace.Base16.C10_reencode_lower",
    "Solace.Base16.C10_non_ascii_undefined",
    "Solace.Base16.C10_exact",
    "Solace.Base16.C10_undefined_iff"
   ],
   "note": "False for the code: bytes >= 0x80 index a 128-entry table out of bounds (C10_non_ascii_undefined). Acceptance proved for ASCII texts; re-encoding proved in full. C10_exact says what every text of every length gives."
  },
  {
   "property": "C11",
   "status": "partial",
   "theorems": [
    "Solace.Base16.C11_encode_iterator",
    "Solace.Base16.C11_decode_iterator_partial",
    "Solace.Base16.C11_non_ascii_undefined",
    "Solace.Base16.C11_exact"
   ],
   "note": "Encoding iterator full. Decoding iterator for ASCII texts; undefined behaviour for bytes >= 0x80 proved. C11_exact gives the decoded bytes and the stop for every text."
  },
  {
   "property": "C12",
   "status": "partial",
   "theorems": [
    "Solace.Base64.C12_round_trip_partial",
    "Solace.Base64.C12_empty_rejected",
    "Solace.Base64.C12_unpadded_undefined",
    "Solace.Base64.C12_unpadded_wrong",
    "Solace.Base64.C12_round_trip_iff"
   ],
   "note": "False for the code: the empty text is rejected, and unpadded texts (length divisible by 3) are decoded past the end of the view. Proved for all other cases, both alphabets. C12_round_trip_iff: exactly when the round trip works."
  },
  {
   "property": "C13",
   "status": "proved",
   "theorems": [
    "Solace.Base64.C13_conforms_to_rfc4648"
   ],
   "note": "Full; size formula for inputs below 2^62 bytes (4*len would wrap)."
  },
  {
   "property": "C14",
   "status": "partial",
   "theorems": [
    "Solace.Base64.C14_reads_only_view_partial",
    "Solace.Base64.C14_unterminated_undefined",
    "Solace.Base64.C14_iff"
   ],
   "note": "False for every non-empty view of alphabet characters (C14_unterminated_undefined). Proved for views that contain a non-alphabet byte."
  },
  {
   "property": "C15",
   "status": "partial",
   "theorems": [
    "Solace.Base64.C15_decodedSize_partial",
    "Solace.Base64.C15_url_undercounts",
    "Solace.Base64.C15_decodedSize_exact"
   ],
   "note": "False for every URL text with - or _ (C15_url_undercounts). Proved otherwise. The result is characterised exactly for every text."
  },
  {
   "property": "C16",
   "status": "proved",
   "theorems": [
    "Solace.Base64.C16_base64_fits",
    "Solace.Base64.C16_base16_fits",
    "Solace.Base64.C16_base16_decoder_fits"
   ],
   "note": "Full for base16/base64 encoders and the base16 decoder."
  },
  {
   "property": "C17",
   "status": "proved",
   "theorems": [
    "Solace.Memory.C17_size_is_outstanding",
    "Solace.Memory.C17_alloc_exact",
    "Solace.Memory.C17_alloc_error",
    "Solace.Memory.C17_newMgr"
   ],
   "note": "histories without moving or swapping managers (those are C19); sizes computed from the malloc/free log"
  },
  {
   "property": "C18",
   "status": "proved",
   "theorems": [
    "Solace.Memory.C18_locked_never_allocates",
    "Solace.Memory.C18_locked_size_never_grows"
   ],
   "note": "every state / every history without unlock"
  },
  {
   "property": "C19",
   "status": "partial",
   "theorems": [
    "Solace.Memory.C19_accounting_partial",
    "Solace.Memory.C19_swap_breaks_accounting",
    "Solace.Memory.C19_move_breaks_accounting",
    "Solace.Memory.C19_accounting_iff",
    "Solace.Memory.C19_sum_conserved",
    "Solace.Memory.C19_moved_manager"
   ],
   "note": "false for the code: swap and move construction leave disposers pointing at the old manager; proved for swaps of idle managers, negations with witnesses Exactly: without move construction accounting holds iff every swap was of managers with equal totals; the sum is always right modulo 2^64."
  },
  {
   "property": "C20",
   "status": "proved",
   "theorems": [
    "Solace.Memory.C20_released_exactly_once",
    "Solace.Memory.C20_live_blocks_have_one_owner"
   ],
   "note": "all histories, incl. self assignment and manager swaps"
  },
  {
   "property": "C21",
   "status": "proved",
   "theorems": [
    "Solace.StringView.C21_equals_iff",
    "Solace.StringView.C21_hash_respects_equals",
    "Solace.StringView.C21_hash_polynomial",
    "Solace.StringView.C21_hash_piece",
    "Solace.StringView.C21_hash_one_change",
    "Solace.StringView.C21_hash_two_changes",
    "Solace.StringView.C21_hash_leading_zeros",
    "Solace.StringView.C21_hash_many"
   ],
   "note": "all views Which small changes the hash code notices: one character always, two neighbours exactly unless the second moves by 31 per step of the first; leading zero characters never."
  },
  {
   "property": "C22",
   "status": "partial",
   "theorems": [
    "Solace.StringView.C22_shortlex_partial",
    "Solace.StringView.C22_shortlex_total",
    "Solace.StringView.C22_empty_terminates",
    "Solace.StringView.C22_not_an_order",
    "Solace.StringView.C22_exact"
   ],
   "note": "false for the code: terminates on an empty argument, not antisymmetric for bytes >= 128, zero for some different strings; proved to be the shortlex order on characters 1..127 C22_exact says what is returned for all strings."
  },
  {
   "property": "C23",
   "status": "proved",
   "theorems": [
    "Solace.StringView.C23_substring",
    "Solace.StringView.C23_substring_in_range"
   ],
   "note": "all strings and bounds"
  },
  {
   "property": "C24",
   "status": "partial",
   "theorems": [
    "Solace.StringView.C24_indexOf_char",
    "Solace.StringView.C24_lastIndexOf_char",
    "Solace.StringView.C24_indexOf_partial",
    "Solace.StringView.C24_lastIndexOf_partial",
    "Solace.StringView.C24_empty_needle_reads_outside",
    "Solace.StringView.C24_empty_needle_depends_on_memory",
    "Solace.StringView.C24_contains_partial",
    "Solace.StringView.C24_empty_needle_exact",
    "Solace.StringView.C24_empty_needle_memory_end"
   ],
   "note": "full for characters and non-empty needles; the empty needle reads outside (negation proved) The empty needle is covered also where memory ends with the string or with the needle."
  },
  {
   "property": "C25",
   "status": "proved",
   "theorems": [
    "Solace.StringView.C25_startsWith_iff",
    "Solace.StringView.C25_endsWith_iff"
   ],
   "note": "string arguments; the character overloads are C72"
  },
  {
   "property": "C26",
   "status": "proved",
   "theorems": [
    "Solace.StringView.C26_trim",
    "Solace.StringView.C26_trim_char",
    "Solace.StringView.C26_trim_idempotent",
    "Solace.StringView.C26_white"
   ],
   "note": "isspace of the C locale, little-endian host"
  },
  {
   "property": "C27",
   "status": "partial",
   "theorems": [
    "Solace.StringView.C27_split_partial",
    "Solace.StringView.C27_splitChar_partial",
    "Solace.StringView.C27_count_wraps",
    "Solace.StringView.C27_count_exact"
   ],
   "note": "everything but the reported count for 65536 pieces, which wraps to 0 (negation proved) The count is exactly the number of pieces modulo 65536 for every variant, and there are never more than 65536 pieces."
  },
  {
   "property": "C28",
   "status": "partial",
   "theorems": [
    "Solace.StringView.C28_terminates_partial",
    "Solace.StringView.C28_empty_delimiter_diverges",
    "Solace.StringView.C28_empty_delimiter_chars",
    "Solace.StringView.C28_iff"
   ],
   "note": "false for the three-argument callback and an empty delimiter (divergence proved); proved otherwise"
  },
  {
   "property": "C29",
   "status": "partial",
   "theorems": [
    "Solace.Str.C29_make",
    "Solace.Str.C29_concat_partial",
    "Solace.Str.C29_concat_truncates",
    "Solace.Str.C29_concat_exact",
    "Solace.Str.C29_concat_iff"
   ],
   "note": "Total below 65536: exact or the memory manager's error. Negation proved: from 65536 on the length is taken mod 65536 and write errors are ignored, so a truncated string is returned as success. C29_concat_exact gives the content for every total, C29_concat_iff says when it is the concatenation."
  },
  {
   "property": "C30",
   "status": "partial",
   "theorems": [
    "Solace.Str.C30_join_partial",
    "Solace.Str.C30_join_succeeds",
    "Solace.Str.C30_empty_list",
    "Solace.Str.C30_join_exact"
   ],
   "note": "Every non-empty list: error or exact join. Negation proved: empty list with a non-empty separator returns 65536-|by| characters of uninitialised memory. C30_join_exact decides error or result for every non-empty list."
  },
  {
   "property": "C31",
   "status": "partial",
   "theorems": [
    "Solace.Str.C31_replace_char_partial",
    "Solace.Str.C31_replace_char_high",
    "Solace.Str.C31_replace_partial",
    "Solace.Str.C31_replace_empty_pattern_diverges",
    "Solace.Str.C31_replace_truncates",
    "Solace.Str.C31_replace_exact",
    "Solace.Str.C31_replace_char_exact"
   ],
   "note": "Char version exact below 128; string version exact for a non-empty pattern and a result below 65536. Negations proved: char from 128 on never replaced; empty pattern diverges; 256x256 replacement returns the empty string. C31_replace_exact and C31_replace_char_exact give the outcome for results of any length."
  },
  {
   "property": "C32",
   "status": "partial",
   "theorems": [
    "Solace.StringBuilder.C32_accumulates_partial",
    "Solace.StringBuilder.C32_nothing_lost_partial",
    "Solace.StringBuilder.C32_initial",
    "Solace.StringBuilder.C32_long_view_empty",
    "Solace.StringBuilder.C32_parts_partial",
    "Solace.StringBuilder.C32_any_size"
   ],
   "note": "Buffers below 65536 bytes: exact accumulation semantics for every sequence of appends. Negation proved: 65536 characters give an empty view. For buffers of any size view, length, string and substring are given exactly (narrowed modulo 65536), and right exactly when fewer than 65536 bytes are accumulated."
  },
  {
   "property": "C33",
   "status": "partial",
   "theorems": [
    "Solace.StringBuilder.C33_indexOf_partial",
    "Solace.StringBuilder.C33_last_not_found",
    "Solace.StringBuilder.C33_zero_found",
    "Solace.StringBuilder.C33_exact",
    "Solace.StringBuilder.C33_long_exact"
   ],
   "note": "First occurrence that does not end the text. Negations proved: an occurrence that ends the text is never found (off by one); the zero character is found anywhere. C33_exact describes indexOf for every character object and builder; C33_long_exact shows that the 16-bit index wraps and the search never ends in longer builders."
  },
  {
   "property": "C34",
   "status": "partial",
   "theorems": [
    "Solace.Version.C34_gt_partial",
    "Solace.Version.C34_lt_negation",
    "Solace.Version.C34_equals",
    "Solace.Version.C34_lt_exact"
   ],
   "note": "operator> is a strict weak order by (major, minor, patch) and == is equality of numbers and pre-release; operator< is not its converse: a < b holds exactly when not a > b, also for equal versions (negation proved). Build metadata and pre-release are ignored by >. operator< is the mirror of > exactly for versions that differ in a number."
  },
  {
   "property": "C35",
   "status": "proved",
   "theorems": [
    "Solace.Version.C35_round_trip",
    "Solace.Version.C35_parse_text_partial",
    "Solace.Version.C35_view_negation",
    "Solace.Version.C35_dash_negation",
    "Solace.Version.C35_read_back_iff",
    "Solace.Version.C35_no_memory"
   ],
   "note": "Round trip for every version whose labels are admissible (no '+', no leading or trailing dashes in the parts, total length within 16 bits), through the String made by toString, including the terminating zero in its buffer. Negations: parsing a bare view of the same text is undefined without a terminator, and labels with outer dashes do not survive. The admissibility conditions on the labels are exactly those under which the text is read back (iff)."
  },
  {
   "property": "C36",
   "status": "partial",
   "theorems": [
    "Solace.Version.C36_terminated_partial",
    "Solace.Version.C36_depends_on_memory",
    "Solace.Version.C36_accepts_negation",
    "Solace.Version.C36_exact_partial",
    "Solace.Version.C36_independent_iff",
    "Solace.Version.C36_any_memory"
   ],
   "note": "For views followed by a zero byte parsing is free of undefined behaviour, depends only on the view and rejects texts with fewer than three dotted pieces. Negations: otherwise the result depends on the memory after the view (1.2.3 followed by 4 gives patch 34) or reads out of bounds; a.b.c and 4294967296.0.0 are accepted. With a terminating zero and memory for the labels the result is characterised exactly. Parsing depends only on the view exactly when the last number read ends inside it (iff); for any memory after the view the result is given exactly."
  },
  {
   "property": "C37",
   "status": "proved",
   "theorems": [
    "Solace.Uuid.C37_round_trip",
    "Solace.Uuid.C37_string",
    "Solace.Uuid.C37_size"
   ],
   "note": "Full: text form is 36 characters in the 8-4-4-4-12 layout and parsing it gives the same UUID back, for every UUID."
  },
  {
   "property": "C38",
   "status": "partial",
   "theorems": [
    "Solace.Uuid.C38_four_dashes_partial",
    "Solace.Uuid.C38_accepts_canonical",
    "Solace.Uuid.C38_accepts_other",
    "Solace.Uuid.C38_undefined",
    "Solace.Uuid.C38_exact_partial"
   ],
   "note": "The parser accepts every canonical text, but dashes are not required at fixed positions; the negation is proved with witnesses (dashes anywhere; 36 dashes return indeterminate bytes; 36 digits write out of bounds). Partial: what is accepted with four dashes at even offsets. C38_exact_partial gives the outcome of every text of 36 characters."
  },
  {
   "property": "C39",
   "status": "proved",
   "theorems": [
    "Solace.Uuid.C39_strict_total_order",
    "Solace.Uuid.C39_isNull",
    "Solace.Uuid.C39_make"
   ],
   "note": "Full."
  },
  {
   "property": "C40",
   "status": "partial",
   "theorems": [
    "Solace.Atom.C40_atoms_partial",
    "Solace.Atom.C40_rejects",
    "Solace.Atom.C40_any_string",
    "Solace.Atom.C40_non_ascii_collide",
    "Solace.Atom.C40_exact",
    "Solace.Atom.C40_print_iff",
    "Solace.Atom.C40_print_any"
   ],
   "note": "Proved for ASCII names; the negation for bytes >= 128 is proved (two names with one atom). For all texts of up to 8 characters, NULs and characters above 127 included, what is printed and when two atoms are equal or ordered is stated exactly (C40_exact), and so is when a text is printed as itself (C40_print_iff)."
  },
  {
   "property": "C41",
   "status": "partial",
   "theorems": [
    "Solace.DialString.C41_parse",
    "Solace.DialString.C41_round_trip_partial",
    "Solace.DialString.C41_nul_negation",
    "Solace.DialString.C41_round_trip_iff"
   ],
   "note": "Meaning of the parser proved for every text; round trip for protocols without NUL, with a proved counterexample otherwise. When the round trip holds is proved as an equivalence for all texts with a colon."
  },
  {
   "property": "C42",
   "status": "proved",
   "theorems": [
    "Solace.VariableSpan.C42_iteration"
   ],
   "note": "Full, for every prefix width, byte order of prefix and host, chunk list and trailing data."
  },
  {
   "property": "C43",
   "status": "proved",
   "theorems": [
    "Solace.VariableSpan.C43_in_bounds"
   ],
   "note": "Full."
  },
  {
   "property": "C44",
   "status": "proved",
   "theorems": [
    "Solace.Vec.C44_vector",
    "Solace.Vec.C44_refines",
    "Solace.Vec.C44_failure_keeps",
    "Solace.Vec.C44_capacity_wraps"
   ],
   "note": "Full refinement of a bounded list for every history, element size and capacity. Side finding: makeVector(n) multiplies without overflow check (witness)."
  },
  {
   "property": "C45",
   "status": "partial",
   "theorems": [
    "Solace.Lifetimes.C45_exactly_once_partial",
    "Solace.Lifetimes.C45_counts_partial",
    "Solace.Lifetimes.C45_alive_partial",
    "Solace.Lifetimes.C45_array_nullptr_twice",
    "Solace.Lifetimes.C45_emplace_throws_twice",
    "Solace.Lifetimes.C45_iff"
   ],
   "note": "Proved for all histories that do not assign nullptr to an Array with elements and have no throwing ArrayView::emplace; for these two the negation is proved (double destruction). These are exactly the offending histories: the log is clean if and only if neither occurs, otherwise some element is destroyed at least twice."
  },
  {
   "property": "C46",
   "status": "proved",
   "theorems": [
    "Solace.Guard.C46_exception_safe",
    "Solace.Guard.C46_throws",
    "Solace.Guard.C46_completes",
    "Solace.Guard.C46_too_many"
   ],
   "note": "Full, for every length and every set of throwing positions. Side finding: emplaceAll with more values than cells writes out of bounds (witness)."
  },
  {
   "property": "C47",
   "status": "partial",
   "theorems": [
    "Solace.Dict.C47_first_put",
    "Solace.Dict.C47_map_partial",
    "Solace.Dict.C47_failed_put",
    "Solace.Dict.C47_second_put_ignored",
    "Solace.Dict.C47_key_throws",
    "Solace.Dict.C47_with_exceptions",
    "Solace.Dict.C47_iff"
   ],
   "note": "The code keeps the first value put under a key; proved for every history. The property holds when no key is put twice (partial); negation proved for repeated keys and for a key whose move constructor throws. For every history with throwing constructors the dictionary is given exactly as two lists."
  },
  {
   "property": "C48",
   "status": "partial",
   "theorems": [
    "Solace.Path.C48_parse_print_partial",
    "Solace.Path.C48_single_partial",
    "Solace.Path.C48_overlap",
    "Solace.Path.C48_iff"
   ],
   "note": "Texts shorter than 65536, memory available, components separable by the delimiter (for one-character delimiters: not containing it). Fails for multi-character delimiters that overlap a component end (C48_overlap). Exactly the paths that are read back are characterised (iff)."
  },
  {
   "property": "C49",
   "status": "partial",
   "theorems": [
    "Solace.Path.C49_print_parse_partial",
    "Solace.Path.C49_single_partial",
    "Solace.Path.C49_all_delimiters",
    "Solace.Path.C49_print_without_memory",
    "Solace.Path.C49_single_iff"
   ],
   "note": "Every text but one kind, memory available. Fails for 65535 copies of a one-character delimiter (C49_all_delimiters): parsed as the path without components."
  },
  {
   "property": "C50",
   "status": "partial",
   "theorems": [
    "Solace.Path.C50_length_partial",
    "Solace.Path.C50_too_long",
    "Solace.Path.C50_no_components",
    "Solace.Path.C50_iff"
   ],
   "note": "Non-empty paths with texts shorter than 65536. Fails for the empty path and for longer texts (negations proved)."
  },
  {
   "property": "C51",
   "status": "partial",
   "theorems": [
    "Solace.Path.C51_normal",
    "Solace.Path.C51_idempotent",
    "Solace.Path.C51_absolute_partial",
    "Solace.Path.C51_relative_partial",
    "Solace.Path.C51_query_partial",
    "Solace.Path.C51_not_absolute",
    "Solace.Path.C51_hollow",
    "Solace.Path.C51_parent_of_parent",
    "Solace.Path.C51_meaning_iff",
    "Solace.Path.C51_absolute_iff",
    "Solace.Path.C51_query_iff"
   ],
   "note": "Normal form and idempotence in full. Absoluteness and meaning only for paths that never lead above their start; /../a becomes relative and a/.. terminates the program when queried (negations proved). C51_meaning_iff and C51_absolute_iff say exactly when normalising keeps where a path leads (never more than one step above its start, never above its root) and what is left otherwise; C51_query_iff says exactly when the result can be queried."
  },
  {
   "property": "C52",
   "status": "partial",
   "theorems": [
    "Solace.Path.C52_startsWith_partial",
    "Solace.Path.C52_endsWith_partial",
    "Solace.Path.C52_contains_partial",
    "Solace.Path.C52_startsWith_throws",
    "Solace.Path.C52_startsWith_empty",
    "Solace.Path.C52_contains_throws",
    "Solace.Path.C52_startsWith_exact",
    "Solace.Path.C52_endsWith_exact",
    "Solace.Path.C52_no_buffer",
    "Solace.Path.C52_startsWith_wraps"
   ],
   "note": "Exact answers for non-empty paths with texts shorter than 65536, except the root against two empty components (throws). contains throws for an argument without components; startsWith(Path{}) is false. startsWith and endsWith exactly for all paths; texts of 65536 characters and more have their length taken modulo 65536, so a path need not start with its own first component (C52_startsWith_wraps)."
  },
  {
   "property": "C53",
   "status": "proved",
   "theorems": [
    "Solace.Path.C53_parent_basename",
    "Solace.Path.C53_short",
    "Solace.Path.C53_subpath",
    "Solace.Path.C53_join_subpaths",
    "Solace.Path.C53_make",
    "Solace.Path.C53_without_memory",
    "Solace.Path.C53_parent_throws"
   ],
   "note": "Memory available; what happens otherwise is C53_without_memory."
  },
  {
   "property": "C54",
   "status": "partial",
   "theorems": [
    "Solace.Path.before_irrefl",
    "Solace.Path.before_trans",
    "Solace.Path.C54_before_total",
    "Solace.Path.C54_compare_partial",
    "Solace.Path.C54_relative_absolute",
    "Solace.Path.C54_zero_for_different",
    "Solace.Path.C54_exact"
   ],
   "note": "Characters 1..127 and no non-empty component compared with an empty one; otherwise terminates or is zero for different paths (negations proved). C54_exact gives the outcome for all paths."
  },
  {
   "property": "C55",
   "status": "partial",
   "theorems": [
    "Solace.Opt.C55_get",
    "Solace.Opt.C55_list",
    "Solace.Opt.C55_functor",
    "Solace.Opt.C55_monad",
    "Solace.Opt.C55_map_flattens",
    "Solace.Opt.C55_flatMap_consumes",
    "Solace.Opt.C55_equality",
    "Solace.Opt.C55_equality_identity",
    "Solace.Opt.C55_swap",
    "Solace.Opt.C55_map_optional",
    "Solace.Opt.C55_functor_iff"
   ],
   "note": "Everything but the functor law of map for functions that themselves return an Optional, where it fails (C55_map_flattens: an empty result is flattened). Also shown: flatMap on an lvalue leaves a moved-from payload; an object equals itself even when its content does not."
  },
  {
   "property": "C56",
   "status": "partial",
   "theorems": [
    "Solace.Res.C56_states",
    "Solace.Res.C56_then",
    "Solace.Res.C56_monad",
    "Solace.Res.C56_functor",
    "Solace.Res.C56_orElse",
    "Solace.Res.C56_orElse_monad",
    "Solace.Res.C56_mapError",
    "Solace.Res.C56_unchanged",
    "Solace.Res.C56_consumes",
    "Solace.Res.C56_void",
    "Solace.Res.C56_swap_partial",
    "Solace.Res.C56_self_swap"
   ],
   "note": "Everything but swap and move assignment of a Result with itself, which is undefined behaviour for types with a destructor (C56_self_swap). Reference payloads are in C149, exceptions thrown by payload constructors in C124."
  },
  {
   "property": "C57",
   "status": "partial",
   "theorems": [
    "Solace.Payload.C57_clean_partial",
    "Solace.Payload.C57_counts_partial",
    "Solace.Payload.C57_optional_partial",
    "Solace.Payload.C57_self_swap",
    "Solace.Payload.C57_self_swap_always",
    "Solace.Payload.C57_own_payload",
    "Solace.Payload.C57_iff",
    "Solace.Payload.C57_own_payload_always"
   ],
   "note": "All programs without a Result swapped/move-assigned to itself and without opt = mv(*opt); for those two the negation is proved. C57_iff: a program destroys every payload once and uses it only while alive if and only if it has none of these; C57_own_payload_always: opt = mv(*opt) always uses a destroyed payload."
  },
  {
   "property": "C58",
   "status": "partial",
   "theorems": [
    "Solace.Hash.Md5.C58_md5_partial",
    "Solace.Hash.Md5.C58_any_pieces",
    "Solace.Hash.Md5.C58_long_piece",
    "Solace.Hash.Md5.C58_exact"
   ],
   "note": "For every sequence of updates below 4 GiB each the digest is MD5 (RFC 1321) of the concatenation, for both host byte orders and whatever uninitialised memory holds. C58_any_pieces says what is computed for all pieces; C58_long_piece is the negation for a single update of 8 GiB: the carry of the length counter is wrong. C58_exact: for messages of any length, the length appended is the right one exactly when no piece loses a carry."
  },
  {
   "property": "C59",
   "status": "partial",
   "theorems": [
    "Solace.Hash.Sha1.C59_sha1_partial",
    "Solace.Hash.Sha1.C59_any_pieces",
    "Solace.Hash.Sha1.C59_long_piece",
    "Solace.Hash.Sha1.C59_exact"
   ],
   "note": "For every sequence of updates below 4 GiB each the digest is SHA-1 (FIPS 180-4) of the concatenation, for both host byte orders and whatever uninitialised memory holds. C59_any_pieces says what is computed for all pieces; C59_long_piece is the negation for a single update of 8 GiB: the carry of the length counter is wrong. C59_exact: the length appended is right exactly when no piece loses a carry."
  },
  {
   "property": "C60",
   "status": "partial",
   "theorems": [
    "Solace.Hash.Sha2.C60_sha256_partial",
    "Solace.Hash.Sha2.C60_any_pieces",
    "Solace.Hash.Sha2.C60_long_piece",
    "Solace.Hash.Sha2.C60_exact"
   ],
   "note": "For every sequence of updates below 4 GiB each the digest is SHA-256 (FIPS 180-4) of the concatenation, for both host byte orders and whatever uninitialised memory holds. C60_any_pieces says what is computed for all pieces; C60_long_piece is the negation for a single update of 8 GiB: the carry of the length counter is wrong. C60_exact: the length appended is right exactly when no piece loses a carry."
  },
  {
   "property": "C61",
   "status": "partial",
   "theorems": [
    "Solace.Hash.C61_others_partial",
    "Solace.Hash.C61_second_md5",
    "Solace.Hash.C61_second_sha1",
    "Solace.Hash.C61_second_sha256",
    "Solace.Hash.C61_md5",
    "Solace.Hash.C61_sha1",
    "Solace.Hash.C61_sha256"
   ],
   "note": "False for MD5, SHA-1 and SHA-256: digest pads the object's own state, so the second digest is that of the padded message (C61_second_*), and for a new object it differs (C61_md5, C61_sha1, C61_sha256). True for Murmur3 and the stub Sha3."
  },
  {
   "property": "C62",
   "status": "partial",
   "theorems": [
    "Solace.Hash.C62_incremental_partial",
    "Solace.Hash.C62_sha3",
    "Solace.Hash.C62_murmur_last",
    "Solace.Hash.C62_murmur128_last",
    "Solace.Hash.C62_murmur",
    "Solace.Hash.C62_gentle"
   ],
   "note": "Proved for MD5, SHA-1, SHA-256 with pieces below 4 GiB, and for the stub Sha3 (constant digest). False for Murmur3, whose objects keep only the last update (C62_murmur_last, C62_murmur). C62_gentle: pieces of any size, as long as none loses a carry of the length."
  },
  {
   "property": "C63",
   "status": "partial",
   "theorems": [
    "Solace.Hash.Murmur.C63_murmur32_partial",
    "Solace.Hash.Murmur.C63_murmur128_partial",
    "Solace.Hash.Murmur.C63_decomposition",
    "Solace.Hash.Murmur.C63_misaligned",
    "Solace.Hash.Murmur.C63_misaligned128",
    "Solace.Hash.Murmur.C63_long",
    "Solace.Hash.Murmur.C63_big_endian",
    "Solace.Hash.Murmur.C63_murmur32_exact",
    "Solace.Hash.Murmur.C63_murmur128_exact",
    "Solace.Hash.Murmur.C63_block"
   ],
   "note": "Proved on little endian machines for aligned inputs below 2 GiB. Negations: blocks at addresses that are not aligned are undefined behaviour, the block arithmetic overflows int from 2 GiB on, and big endian machines give other digests. The x86 128-bit variant, for 32-bit targets, is C84. The exact theorems give the outcome for every input length, address and byte order."
  },
  {
   "property": "C64",
   "status": "partial",
   "theorems": [
    "Solace.MessageDigest.C64_digest_partial",
    "Solace.MessageDigest.C64_empty_text",
    "Solace.MessageDigest.C64_not_hex",
    "Solace.MessageDigest.C64_text_size"
   ],
   "note": "Length, bytes and indexing are proved. The text is false: toString returns the empty string for every digest, because it writes into a view of the zero elements of a fresh vector."
  },
  {
   "property": "C65",
   "status": "partial",
   "theorems": [
    "Solace.Env.C65_get",
    "Solace.Env.C65_set_get_partial",
    "Solace.Env.C65_unset",
    "Solace.Env.C65_iteration_partial",
    "Solace.Env.C65_value_cut",
    "Solace.Env.C65_name_memory",
    "Solace.Env.C65_name_unterminated",
    "Solace.Env.C65_clear",
    "Solace.Env.C65_many",
    "Solace.Env.C65_read_exact",
    "Solace.Env.C65_iteration_iff",
    "Solace.Env.C65_set_exact",
    "Solace.Env.C65_read_back",
    "Solace.Env.C65_unset_exact"
   ],
   "note": "get/set/unset agree with a map view of environ for names and values whose views end at a NUL; the code passes views as C strings (C65_name_memory, C65_name_unterminated), iteration cuts values at a second '=' (C65_value_cut), clear() reports success and failure the wrong way round (C65_clear), and iteration over 65536 or more entries never ends (C65_many). setenv, unsetenv, clearenv and getenv are modelled as POSIX describes them. The *_exact theorems say what get, set, unset and the iteration do for every environment and every name and value, also where views do not end at a zero byte; C65_read_back says exactly when a value is read back."
  },
  {
   "property": "C66",
   "status": "partial",
   "theorems": [
    "Solace.ErrorDomains.C66_every_history",
    "Solace.ErrorDomains.C66_registered_partial",
    "Solace.ErrorDomains.C66_unregistered",
    "Solace.ErrorDomains.C66_repeated",
    "Solace.ErrorDomains.C66_full"
   ],
   "note": "Exact behaviour for every history (C66_every_history). The claim holds for at most 128 registrations of different ids; a repeated id keeps its first domain while the count grows (C66_repeated), and registration 129 is dropped (C66_full). For the order of static initialisers see C110."
  },
  {
   "property": "C67",
   "status": "partial",
   "theorems": [
    "Solace.Exn.C67_text_partial",
    "Solace.Exn.C67_long_text_overruns",
    "Solace.Exn.C67_long_name_truncated",
    "Solace.Exn.C67_no_memory",
    "Solace.Exn.C67_exact",
    "Solace.Exn.C67_no_memory_exact"
   ],
   "note": "Complete texts and no write outside the buffer for every exception whose text is at least eight characters shorter than 2^16, when calloc succeeds. IOException(code, text) with a longer text writes outside its heap buffer (C67_long_text_overruns); NoSuchElementException(name) is cut; without memory the null pointer is written through. calloc, snprintf and strerror are assumed to behave as the C standard says. C67_exact gives the outcome of every constructor in full: the exact text, or the write outside the buffer, for every argument."
  },
  {
   "property": "C68",
   "status": "partial",
   "theorems": [
    "Solace.RangeView.C68_visits",
    "Solace.RangeView.C68_filter_partial",
    "Solace.RangeView.C68_first_not_skipped",
    "Solace.RangeView.C68_iff"
   ],
   "note": "Exact behaviour proved (C68_visits); the claim holds when the first element matches. begin() does not skip a first element that does not satisfy the predicate (C68_first_not_skipped)."
  },
  {
   "property": "C69",
   "status": "partial",
   "theorems": [
    "Solace.ArrayView.C69_size",
    "Solace.ArrayView.C69_at",
    "Solace.ArrayView.C69_set",
    "Solace.ArrayView.C69_indexOf",
    "Solace.ArrayView.C69_equals_partial",
    "Solace.ArrayView.C69_equals_not_reflexive",
    "Solace.ArrayView.C69_slice_partial",
    "Solace.ArrayView.C69_slice_wraps",
    "Solace.ArrayView.C69_fill",
    "Solace.ArrayView.C69_forEach_indexed_copies",
    "Solace.ArrayView.C69_slice_exact",
    "Solace.ArrayView.C69_equals_exact",
    "Solace.ArrayView.C69_equals_iff"
   ],
   "note": "Everything but: equality of elements that are not equal to themselves (address shortcut), and slice for indices whose byte offset exceeds 64 bits. forEach with an index hands out references to copies. C69_slice_exact and C69_equals_exact hold for all indices and elements."
  },
  {
   "property": "C70",
   "status": "proved",
   "theorems": [
    "Solace.C70_encode_reader",
    "Solace.C70_base16"
   ],
   "note": "Full, for an arbitrary concrete encoder and any reader state."
  },
  {
   "property": "C71",
   "status": "partial",
   "theorems": [
    "Solace.Chr.C71_bytes_partial",
    "Solace.Chr.C71_bytes_negation",
    "Solace.Chr.C71_equals",
    "Solace.Chr.C71_order",
    "Solace.Chr.C71_byte_order",
    "Solace.Chr.C71_bytes_exact"
   ],
   "note": "Order and equality full; bytes round trip for non-zero bytes. Negations proved: zero byte truncates; more than 5 bytes is undefined behaviour."
  },
  {
   "property": "C72",
   "status": "partial",
   "theorems": [
    "Solace.StringView.C72_endsWith_char",
    "Solace.StringView.C72_startsWith_char_partial",
    "Solace.StringView.C72_startsWith_char_reads_outside",
    "Solace.StringView.C72_startsWith_char_exact",
    "Solace.StringView.C72_iff"
   ],
   "note": "startsWith(char) reads behind an empty non-null view (negation proved)"
  },
  {
   "property": "C73",
   "status": "partial",
   "theorems": [
    "Solace.Str.C73_join_args_partial",
    "Solace.Str.C73_join_views_partial",
    "Solace.Str.C73_join_strings_drops_separator",
    "Solace.Str.C73_join_exact"
   ],
   "note": "Exact when the total is below 65536, and for string-view arguments at any length. Negation proved: String arguments ignore a failed separator write. C73_join_exact gives the outcome for every argument list."
  },
  {
   "property": "C74",
   "status": "partial",
   "theorems": [
    "Solace.Chr.C74_classes_partial",
    "Solace.Chr.C74_case_partial",
    "Solace.Chr.C74_wide_ub",
    "Solace.Chr.C74_newline_negation",
    "Solace.Chr.C74_print_partial",
    "Solace.Chr.C74_eof",
    "Solace.Chr.C74_big_exact",
    "Solace.Chr.C74_newline_exact",
    "Solace.Chr.C74_wide_exact",
    "Solace.Chr.C74_byte_exact"
   ],
   "note": "Exact on code values up to 255 (little-endian). Negations proved: undefined behaviour from 256 on; U+1000A counted as new line. The *_exact theorems cover big-endian hosts, all code values and characters made from bytes."
  },
  {
   "property": "C75",
   "status": "proved",
   "theorems": [
    "Solace.Hash.C75_digest_length",
    "Solace.Hash.Fixed.C75_fixed",
    "Solace.Hash.Fixed.C75_fixed_exact"
   ],
   "note": "All six classes. The lengths are in bits, although the comment in digestAlgorithm.hpp says bytes. FixedSizeDigest, which no algorithm uses, declares 8 Size modulo 2^32."
  },
  {
   "property": "C76",
   "status": "partial",
   "theorems": [
    "Solace.ErrorValue.C76_equality",
    "Solace.ErrorValue.C76_known_partial",
    "Solace.ErrorValue.C76_unknown_partial",
    "Solace.ErrorValue.C76_overflow_is_false",
    "Solace.ErrorValue.C76_invalid_input_is_perm",
    "Solace.ErrorValue.C76_exact",
    "Solace.ErrorValue.C76_unknown_iff"
   ],
   "note": "Texts proved for up to 128 registrations of different ids, and for unknown domains with texts shorter than 2^16 when memory suffices. makeError(BasicError::Overflow) has code 0 and converts to false; BasicError::InvalidInput and GenericError::PERM have the same code and domain. C76_exact gives the text for every history, id and length."
  },
  {
   "property": "C77",
   "status": "partial",
   "theorems": [
    "Solace.ByteReader.C77_reader_exact_partial",
    "Solace.ByteReader.C77_past_limit"
   ],
   "note": "Full success and failure specification of every reader call for histories that never lower the limit below the position; otherwise false (C01, C02 negations)."
  },
  {
   "property": "C78",
   "status": "partial",
   "theorems": [
    "Solace.ByteWriter.C78_writer_exact_partial",
    "Solace.ByteWriter.C78_any_state"
   ],
   "note": "Full success and failure specification of every writer call for histories that never lower the limit below the position; otherwise false (C03, C04 negations). A failed write may change the buffer below the limit: C04."
  },
  {
   "property": "C79",
   "status": "proved",
   "theorems": [
    "Solace.Hash.Md5.C79_md5",
    "Solace.Hash.C79_sha1",
    "Solace.Hash.C79_sha256",
    "Solace.Hash.C79_sha256_init"
   ],
   "note": "Against the real sine, square root and cube root of Mathlib; integer interval arithmetic with 200 bits for the sine."
  },
  {
   "property": "C80",
   "status": "partial",
   "theorems": [
    "Solace.Window.C80_offsetAddress",
    "Solace.Window.C80_dataAs_partial",
    "Solace.Window.C80_dataAs_wraps",
    "Solace.Window.C80_sliceFor_partial",
    "Solace.Window.C80_sliceFor_wraps",
    "Solace.Window.C80_fill",
    "Solace.Window.C80_overlapping",
    "Solace.Window.C80_construct",
    "Solace.Window.C80_dataAs_exact",
    "Solace.Window.C80_sliceFor_exact",
    "Solace.Window.C80_copy_result"
   ],
   "note": "Addresses, fills, overlapping copies and construction in full. dataAs(offset) and sliceFor compute offset + sizeof(T) and offset * sizeof(T) in 64 bits without a check: near 2^64 dataAs accesses memory outside the view and sliceFor shows other objects (negations proved). Alignment is in C104. C80_dataAs_exact and C80_sliceFor_exact say what happens for all offsets."
  },
  {
   "property": "C81",
   "status": "partial",
   "theorems": [
    "Solace.Vec.C81_makeArray_partial",
    "Solace.Vec.C81_makeArrayFrom_partial",
    "Solace.Vec.C81_makeVectorFrom_partial",
    "Solace.Vec.C81_makeOf",
    "Solace.Vec.C81_toArray",
    "Solace.Vec.C81_equalsList",
    "Solace.Vec.C81_equals",
    "Solace.Vec.C81_makeArray_wraps",
    "Solace.Vec.C81_makeVector_unwritten",
    "Solace.Vec.C81_toArray_not_empty",
    "Solace.Vec.C81_makeArray_exact",
    "Solace.Vec.C81_makeArray_iff",
    "Solace.Vec.C81_makeVectorFrom_exact",
    "Solace.Vec.C81_given_memory"
   ],
   "note": "Proved when n * sizeof(T) fits in 64 bits and the view of makeVector has whole elements; three disagreements: the unchecked multiplication, a vector of unwritten elements when the view has left-over bytes, and empty() of an array made by toArray. What happens for all other sizes is in the _exact theorems."
  },
  {
   "property": "C82",
   "status": "partial",
   "theorems": [
    "Solace.Output.C82_memoryView",
    "Solace.Output.C82_digest",
    "Solace.Output.C82_dial_partial",
    "Solace.Output.C82_plain_dial",
    "Solace.Output.C82_dial_negation",
    "Solace.Output.C82_error_known_partial",
    "Solace.Output.C82_error_unknown_partial",
    "Solace.Output.C82_optional",
    "Solace.Output.C82_optional_negation",
    "Solace.Output.C82_error_exact",
    "Solace.Output.C82_dial_iff",
    "Solace.Output.C82_optional_iff",
    "Solace.Output.C82_null"
   ],
   "note": "Memory views and digests hold in full. The dial string round trip fails when a text without a colon has a space at an end (printed with an empty protocol, then trimmed when read); proved for parts without colons and outer spaces, and exactly for texts without a colon. An Optional holding the text None is printed like an empty one. Errors exactly for every history and id; the dial round trip as an equivalence for every accepted text with a colon."
  },
  {
   "property": "C83",
   "status": "partial",
   "theorems": [
    "Solace.Dict.C83_iterate",
    "Solace.Dict.C83_find",
    "Solace.Dict.C83_make_partial",
    "Solace.Dict.C83_capacity_negation",
    "Solace.Dict.C83_make_wraps",
    "Solace.Dict.C83_iterate_uneven",
    "Solace.Dict.C83_iterate_negation",
    "Solace.Dict.C83_ofBytes_exact",
    "Solace.Dict.C83_capacity_iff",
    "Solace.Dict.C83_make_exact",
    "Solace.Dict.C83_make_iff"
   ],
   "note": "Iteration holds for every history of puts without exceptions. After a put whose key constructor throws there is one more value than keys and iteration is undefined (proved in general). capacity() reports only the room for values; sizes are multiplied modulo 2^64. What happens for all sizes is in the _exact and _iff theorems."
  },
  {
   "property": "C84",
   "status": "partial",
   "theorems": [
    "Solace.Hash.Murmur.C84_murmur128_x86_partial",
    "Solace.Hash.Murmur.C84_misaligned",
    "Solace.Hash.Murmur.C84_targets_differ",
    "Solace.Hash.Murmur.C84_new",
    "Solace.Hash.Murmur.C84_murmur128_exact",
    "Solace.Hash.Murmur.C63_block"
   ],
   "note": "Proved on little endian machines for aligned input of less than 2 GiB; misaligned input is undefined. The digests on 32 and 64-bit targets differ. The exact theorem gives the outcome for every input length below 2^32, every address and byte order."
  },
  {
   "property": "C85",
   "status": "partial",
   "theorems": [
    "Solace.Hash.Murmur.C85_murmur32_partial",
    "Solace.Hash.Murmur.C85_murmur128_partial",
    "Solace.Hash.Murmur.C85_murmur128_x86_partial",
    "Solace.Hash.Murmur.C85_murmur32_exact",
    "Solace.Hash.Murmur.C85_murmur128_exact",
    "Solace.Hash.Murmur.C85_murmur128_x86_exact"
   ],
   "note": "Under the conditions of C63 and C84 (little endian, aligned input of less than 2 GiB), outside of which the code is undefined or computes another hash. The exact theorems cover every host, address and length for which the update is defined: digests are the same exactly if the difference is beyond the bytes looked at (inputs of 16 GiB or 64 GiB and more)."
  },
  {
   "property": "C86",
   "status": "proved",
   "theorems": [
    "Solace.Owner.C86_texts",
    "Solace.Owner.C86_blocks",
    "Solace.Owner.C86_views",
    "Solace.Owner.C86_length",
    "Solace.Owner.C86_disposer"
   ],
   "note": "Programs are lists of operations on string variables over blocks of memory; the memory manager's answers are arbitrary. C86_length assumes the documented precondition of String(MemoryResource, size)."
  },
  {
   "property": "C87",
   "status": "partial",
   "theorems": [
    "Solace.Make.C87_pointer",
    "Solace.Make.C87_cstring_exact",
    "Solace.Make.C87_cstring_partial",
    "Solace.Make.C87_cstring_long",
    "Solace.Make.C87_memory_exact",
    "Solace.Make.C87_memory_partial",
    "Solace.Make.C87_memory_wraps",
    "Solace.Make.C87_literal",
    "Solace.Make.C87_reading",
    "Solace.Make.C87_index_partial",
    "Solace.Make.C87_index_unchecked",
    "Solace.Make.C87_round_trip",
    "Solace.Make.C87_equals",
    "Solace.Make.C87_equals_cstring",
    "Solace.Make.C87_equals_cstring_wraps",
    "Solace.Make.C87_substring_len",
    "Solace.Make.C87_substring_range"
   ],
   "note": "Exact for every input. The property itself fails for C strings and memory of 65536 characters and more (length is narrowed to 16 bits: C87_cstring_long, C87_memory_wraps, C87_equals_cstring_wraps), for operator[] outside of the view, which is documented to throw but is unchecked (C87_index_unchecked), and for substring(from, len), which takes len as the end (C87_substring_len says exactly when this is the same)."
  },
  {
   "property": "C88",
   "status": "partial",
   "theorems": [
    "Solace.Assert.C88_range",
    "Solace.Assert.C88_range_text_partial",
    "Solace.Assert.C88_conditions",
    "Solace.Assert.C88_texts_partial",
    "Solace.Assert.C88_errno_partial",
    "Solace.Assert.C88_invalid_state_partial",
    "Solace.Assert.C88_null_text_wrong",
    "Solace.Assert.C88_long_tag",
    "Solace.Assert.C88_texts_exact",
    "Solace.Assert.C88_errno_exact",
    "Solace.Assert.C88_range_exact",
    "Solace.Assert.C88_invalid_state_exact",
    "Solace.Assert.C88_code"
   ],
   "note": "Which values pass is proved in full. The texts need memory and less than 2^16 characters (C88_long_tag: a tag of 65536 characters is lost), and assertNull(ptr) fails with the text of assertNotNull(ptr) (C88_null_text_wrong). The _exact theorems give the whole outcome of each raise function for all arguments."
  },
  {
   "property": "C89",
   "status": "proved",
   "theorems": [
    "Solace.Res.C89_results",
    "Solace.Res.C89_equivalence",
    "Solace.Res.C89_values",
    "Solace.Res.C89_void",
    "Solace.Res.C89_throwing",
    "Solace.Res.C89_move",
    "Solace.Res.C89_or"
   ],
   "note": "For comparisons of contents that do not throw. C89_throwing: == of two results is noexcept, so a comparison that throws ends the program, while comparing with a value lets the exception through."
  },
  {
   "property": "C90",
   "status": "partial",
   "theorems": [
    "Solace.Path.C90_single",
    "Solace.Path.C90_single_parse",
    "Solace.Path.C90_single_print",
    "Solace.Path.C90_root",
    "Solace.Path.C90_root_without_memory",
    "Solace.Path.C90_relative",
    "Solace.Path.C90_iterate",
    "Solace.Path.C90_deref",
    "Solace.Path.C90_iterator_eq",
    "Solace.Path.C90_iterator_eq_other",
    "Solace.Path.C90_forEach",
    "Solace.Path.C90_forEach_moved",
    "Solace.Path.C90_text_partial",
    "Solace.Path.C90_text_without_memory",
    "Solace.Path.C90_text_too_long",
    "Solace.Path.C90_text_none",
    "Solace.Path.C90_join",
    "Solace.Path.C90_join_moved",
    "Solace.Path.C90_moved_string",
    "Solace.Path.C90_iterate_other"
   ],
   "note": "Text queries: proved when memory suffices, the text is shorter than 65536 characters and the path has components. Otherwise proved false: the text is then empty or uninitialised memory. Iterators of different paths are equal when their indices are. makePath with an rvalue String never returns, because countPathComponents has no overload for it and its template calls itself."
  },
  {
   "property": "C91",
   "status": "partial",
   "theorems": [
    "Solace.StringArgs.C91_concat_partial",
    "Solace.StringArgs.C91_string_diverges",
    "Solace.StringArgs.C91_join_partial",
    "Solace.StringArgs.C91_join_diverges",
    "Solace.StringArgs.C91_unterminated",
    "Solace.StringArgs.C91_concat_exact",
    "Solace.StringArgs.C91_concat_cases",
    "Solace.StringArgs.C91_join_exact"
   ],
   "note": "Proved for totals below 65536 and no non-const String where the size template is chosen. A String that is not const as third or later argument of makeString, or as any argument of makeStringJoin, makes the call recurse for ever (negation proved). C91_concat_exact and C91_join_exact give the outcome for arguments of every kind and length."
  },
  {
   "property": "C92",
   "status": "partial",
   "theorems": [
    "Solace.Uuid.C92_random_bytes",
    "Solace.Uuid.C92_random_words",
    "Solace.Uuid.C92_random_zero_bytes",
    "Solace.Uuid.C92_random_not_version4",
    "Solace.Uuid.C92_random_count",
    "Solace.Uuid.C92_random_collision",
    "Solace.Uuid.C92_random_equal",
    "Solace.Uuid.C92_random_not_nil",
    "Solace.Uuid.C92_random_device",
    "Solace.Uuid.C92_swap",
    "Solace.Uuid.C92_moveAssign",
    "Solace.Uuid.C92_copyAssign",
    "Solace.Uuid.C92_construct",
    "Solace.Uuid.C92_bytes"
   ],
   "note": "Initialisation and the value operations are proved completely. Randomness fails: with the standard library of GCC on 64-bit Linux bytes 4-7 and 12-15 are always zero, the version of RFC 4122 is never set, there are at most 2147483646 different results and every 32-bit device value shares its result with another (negations proved)."
  },
  {
   "property": "C93",
   "status": "partial",
   "theorems": [
    "Solace.Str.C93_made",
    "Solace.Str.C93_equals",
    "Solace.Str.C93_equals_cstring",
    "Solace.Str.C93_cstring_partial",
    "Solace.Str.C93_cstring_wraps",
    "Solace.Str.C93_less_partial",
    "Solace.Str.C93_less_empty",
    "Solace.Str.C93_parts",
    "Solace.Str.C93_find_char",
    "Solace.Str.C93_find_partial",
    "Solace.Str.C93_empty_needle",
    "Solace.Str.C93_ends_partial",
    "Solace.Str.C93_startsWith_empty",
    "Solace.Str.C93_less_exact",
    "Solace.Str.C93_startsWith_exact",
    "Solace.Str.C93_empty_needle_exact"
   ],
   "note": "Complete for equality with views and strings, characters, parts, hash, trimming and character search. Negations proved: looking for \"\" and startsWith(char) on an empty string read behind the buffer, '<' with an empty right side ends the program, a C string of 65536 characters equals the empty string. The _exact theorems give < , the first character and the search for an empty literal for all strings."
  },
  {
   "property": "C94",
   "status": "partial",
   "theorems": [
    "Solace.Hash.C94_sound",
    "Solace.Hash.C94_updateReader",
    "Solace.Hash.C94_feed",
    "Solace.Hash.C94_digest_partial",
    "Solace.Hash.C94_sha3",
    "Solace.Hash.C94_murmur_twice",
    "Solace.Hash.C94_murmur_position",
    "Solace.Hash.C94_feed_any",
    "Solace.Hash.C94_digest_exact"
   ],
   "note": "C94_feed holds for all calls; the digests are the published ones for pieces below 4 GiB (the 32-bit length argument of the update functions, C58-C60). Negations for Murmur3: a reader given twice replaces the hash by that of the empty message, and a reader position that is not a multiple of four is a misaligned access. C94_digest_exact gives the digest of the computation for every sequence of inputs."
  },
  {
   "property": "C95",
   "status": "proved",
   "theorems": [
    "Solace.SystemErrors.C95_values",
    "Solace.SystemErrors.C95_named",
    "Solace.SystemErrors.C95_errno",
    "Solace.SystemErrors.C95_message"
   ],
   "note": "The error numbers are those of asm-generic/errno.h (Linux except alpha, mips, parisc and sparc), transcribed into the specification. strerror is an assumption: it returns the address of a terminated text. The two tables are finite and checked completely by kernel evaluation; everything else is for all values. BasicError collides with these codes: see C76."
  },
  {
   "property": "C96",
   "status": "proved",
   "theorems": [
    "Solace.Base64.C96_base64_any",
    "Solace.Base64.C96_base64_rest",
    "Solace.Base64.C96_decodedSize",
    "Solace.Base16.C96_base16_any",
    "Solace.Base16.C96_base16_split",
    "Solace.Base16.C96_base16_iterator"
   ],
   "note": "Outcome of every call, undefined calls included."
  },
  {
   "property": "C97",
   "status": "proved",
   "theorems": [
    "Solace.Streams.C97_one_owner",
    "Solace.Streams.C97_destroy",
    "Solace.Streams.C97_scope_end",
    "Solace.Streams.C97_blocks",
    "Solace.Streams.C97_owning_reader",
    "Solace.Streams.C97_owning_writer",
    "Solace.Streams.C97_moved_from",
    "Solace.Streams.C97_ub_only_dangling",
    "Solace.Streams.C97_no_lend",
    "Solace.Streams.C97_lent_dangles",
    "Solace.Streams.C97_write_then_read",
    "Solace.Streams.C97_dangling_reader",
    "Solace.Streams.C97_dangling_writer",
    "Solace.Streams.C97_made",
    "Solace.Streams.C97_swap"
   ],
   "note": "Invariant over all operation sequences. C97_lent_dangles shows that the exception for streams made by reference is needed."
  },
  {
   "property": "C98",
   "status": "partial",
   "theorems": [
    "Solace.ExnOwner.C98_never_twice",
    "Solace.ExnOwner.C98_lost_iff",
    "Solace.ExnOwner.C98_no_leak_partial",
    "Solace.ExnOwner.C98_assign_leaks",
    "Solace.ExnOwner.C98_move_keeps_text",
    "Solace.ExnOwner.C98_moved_from",
    "Solace.ExnOwner.C98_assign",
    "Solace.ExnOwner.C98_text_stays",
    "Solace.ExnOwner.C98_made"
   ],
   "note": "Double frees, dangling texts and text preservation are proved for all programs. Leak freedom holds without assignment of error texts and dropped writers (C98_no_leak_partial; exceptions cannot be assigned); otherwise the negation is proved (C98_assign_leaks, C98_lost_iff). A moved-from text keeps its size (C98_moved_from)."
  },
  {
   "property": "C99",
   "status": "partial",
   "theorems": [
    "Solace.MemLock.C99_locked_covered",
    "Solace.MemLock.C99_all_released",
    "Solace.MemLock.C99_exactly_partial",
    "Solace.MemLock.C99_shared_page",
    "Solace.MemLock.C99_lock",
    "Solace.MemLock.C99_moved_from",
    "Solace.MemLock.C99_page",
    "Solace.MemLock.C99_iff"
   ],
   "note": "Full: no page stays locked without a live object, and all are released at the end. That covered pages are locked holds while no two live locks share a page; the negation for shared pages is C99_shared_page. mlock and munlock are assumed to behave as mlock(2) says. C99_page says for each page when it is locked and C99_iff exactly which histories keep the property."
  },
  {
   "property": "C100",
   "status": "partial",
   "theorems": [
    "Solace.CharObj.C100_values",
    "Solace.CharObj.C100_cstr",
    "Solace.CharObj.C100_cstr_partial",
    "Solace.CharObj.C100_four_bytes"
   ],
   "note": "Values proved in full. c_str is characterised exactly (C100_cstr); it is the bytes for fewer than four bytes, and undefined for every copy of a four byte character (C100_four_bytes)."
  },
  {
   "property": "C101",
   "status": "partial",
   "theorems": [
    "Solace.ViewObj.C101_inside",
    "Solace.ViewObj.C101_constant_partial",
    "Solace.ViewObj.C101_constant_written",
    "Solace.ViewObj.C101_equals",
    "Solace.ViewObj.C101_write",
    "Solace.ViewObj.C101_read",
    "Solace.ViewObj.C101_fill",
    "Solace.ViewObj.C101_moves",
    "Solace.ViewObj.C101_moved_from",
    "Solace.ViewObj.C101_slice_inside"
   ],
   "note": "Everything proved in full except that constant memory is not written: true without casts and without exchanges between MemoryView and MutableMemoryView; false with them (C101_constant_written: v = mv(m) or swap(v, m) for a MemoryView v and MutableMemoryView m)."
  },
  {
   "property": "C102",
   "status": "partial",
   "theorems": [
    "Solace.EnvIter.C102_stable_partial",
    "Solace.EnvIter.C102_set_new",
    "Solace.EnvIter.C102_own_name",
    "Solace.EnvIter.C102_unset_skips",
    "Solace.EnvIter.C102_clear_undefined",
    "Solace.EnvIter.C102_increment",
    "Solace.EnvIter.C102_add_after_removal_undefined"
   ],
   "note": "Proved for callbacks that leave unvisited entries in place. Removing the visited variables skips every second one, clearing is undefined, and the name given to the callback cannot be used to change the variable (all proved for every environment)."
  },
  {
   "property": "C103",
   "status": "proved",
   "theorems": [
    "Solace.Hash.Sha2.Smaller.C103_block",
    "Solace.Hash.Sha2.Smaller.C103_same_digest",
    "Solace.Hash.Sha2.Smaller.C103_sha256"
   ],
   "note": "Both variants shown equal for every state and block and every division of a message into pieces of any length; equality with the standard for pieces below 4 GiB as in C60."
  },
  {
   "property": "C104",
   "status": "partial",
   "theorems": [
    "Solace.Align.C104_views",
    "Solace.Align.C104_vector_partial",
    "Solace.Align.C104_heap",
    "Solace.Align.C104_misaligned",
    "Solace.Align.C104_dataAs",
    "Solace.Align.C104_registry",
    "Solace.Align.C104_put"
   ],
   "note": "Proved for memory aligned for the element type, in particular heap memory and alignments up to 16. Missing: memory that is not aligned, where the code is shown to have undefined behaviour; the registry of error domains is defined exactly if the linker puts two byte arrays at multiples of 8. C104_put: what a dictionary in aligned buffers answers."
  },
  {
   "property": "C105",
   "status": "partial",
   "theorems": [
    "Solace.StringBuilder.C105_unsigned",
    "Solace.StringBuilder.C105_signed",
    "Solace.StringBuilder.C105_item",
    "Solace.StringBuilder.C105_literal",
    "Solace.StringBuilder.C105_complete_iff_partial",
    "Solace.StringBuilder.C105_last_number_lost",
    "Solace.StringBuilder.C105_remaining_partial",
    "Solace.StringBuilder.C105_remaining_wraps",
    "Solace.StringBuilder.C105_after_build"
   ],
   "note": "Announced sizes are exact. For buffers below 65536 bytes it is decided exactly when a builder holds everything: one byte more than announced always suffices, and the announced size itself does unless a number comes last, which is then lost (negation proved for every number). remaining() is 0 for a buffer of 65536 bytes."
  },
  {
   "property": "C106",
   "status": "partial",
   "theorems": [
    "Solace.Coder.C106_base16",
    "Solace.Coder.C106_base16_decode",
    "Solace.Coder.C106_base16_round_trip",
    "Solace.Coder.C106_base64",
    "Solace.Coder.C106_base64_iff",
    "Solace.Coder.C106_base64_dropped"
   ],
   "note": "Full for base16 encoding, and for base16 decoding of pieces of even length (an odd piece is refused). For base64 it holds exactly when each piece but the last non-empty one has a length divisible by three (C106_base64_iff); otherwise the text has padding in the middle and the decoder drops everything after it and reports success (C106_base64_dropped)."
  },
  {
   "property": "C107",
   "status": "proved",
   "theorems": [
    "Solace.Record.C107_written",
    "Solace.Record.C107_no_room",
    "Solace.Record.C107_read",
    "Solace.Record.C107_truncated",
    "Solace.Record.C107_round_trip",
    "Solace.Record.C107_injective"
   ],
   "note": "Field lists and byte strings of any length; total size below 2^64. Buffers do not overlap. Floating-point fields are host-order fields of 4 or 8 bytes."
  },
  {
   "property": "C108",
   "status": "proved",
   "theorems": [
    "Solace.StringView.C108_found_at_ends",
    "Solace.StringView.C108_first_and_last",
    "Solace.StringView.C108_search_again",
    "Solace.StringView.C108_char_search",
    "Solace.StringView.C108_substring_substring",
    "Solace.StringView.C108_cut",
    "Solace.StringView.C108_substring_found",
    "Solace.StringView.C108_trim",
    "Solace.StringView.C108_hash_append",
    "Solace.Str.C108_join_of_split",
    "Solace.Str.C108_split_of_join",
    "Solace.Str.C108_splitChar_of_join",
    "Solace.Str.C108_replace_is_split_join",
    "Solace.Str.C108_replace_unchanged_iff",
    "Solace.Str.C108_replaced_character",
    "Solace.Str.C108_pattern_may_reappear",
    "Solace.Str.C108_concat"
   ],
   "note": "Non-empty needles, delimiters and patterns (C24, C27, C31 for empty ones); results below 65536 characters where a string is made (C29-C31 beyond)."
  },
  {
   "property": "C109",
   "status": "proved",
   "theorems": [
    "Solace.Path.C109_join_assoc",
    "Solace.Path.C109_join_none",
    "Solace.Path.C109_join_cancel",
    "Solace.Path.C109_join_parts",
    "Solace.Path.C109_join_text",
    "Solace.Path.C109_subpath",
    "Solace.Path.C109_relations",
    "Solace.Path.C109_normalize_left",
    "Solace.Path.C109_normalize_right_iff"
   ],
   "note": "Where memory is needed the laws are for a memory manager that grants it (Plenty); C109_join_cancel needs only that granted memory has the size asked for. startsWith, endsWith and text need texts shorter than 65536 characters."
  },
  {
   "property": "C110",
   "status": "partial",
   "theorems": [
    "Solace.Startup.C110_start_partial",
    "Solace.Startup.C110_order",
    "Solace.Startup.C110_zeroed",
    "Solace.Startup.C110_lost"
   ],
   "note": "Proved when the map's initialiser runs first. C++ leaves the order open: C110_order shows the start is defined exactly then, C110_zeroed that where zeros are taken for a map earlier registrations are lost without notice, C110_lost gives the library's own two initialisers."
  },
  {
   "property": "C111",
   "status": "partial",
   "theorems": [
    "Solace.DsParser.C111_exact",
    "Solace.DsParser.C111_every_argument",
    "Solace.DsParser.C111_program_partial",
    "Solace.DsParser.C111_non_ascii",
    "Solace.DsParser.C111_long_argument",
    "Solace.DsParser.C111_no_name"
   ],
   "note": "C111_exact decides the output for every argument list. The claim fails for protocols with characters above 127 (shown differently), for arguments of 65536 characters and more (cut), and without argv[0] (undefined)."
  },
  {
   "property": "C112",
   "status": "partial",
   "theorems": [
    "Solace.StringView.C112_decimal",
    "Solace.StringView.C112_hex",
    "Solace.StringView.C112_uuid",
    "Solace.StringView.C112_atom_partial",
    "Solace.StringView.C112_atom_length",
    "Solace.StringView.C112_base64",
    "Solace.StringView.C112_version",
    "Solace.StringView.C112_atom_exact",
    "Solace.StringView.C112_version_partial"
   ],
   "note": "Numbers, base16 and UUIDs completely. Atoms only for names of equal length; negations for atoms of different length, base64 and versions. Atoms of any lengths: dictionary order, with exactly when that is the string order. Versions of equally wide numbers compare as text like the versions."
  },
  {
   "property": "C113",
   "status": "proved",
   "theorems": [
    "Solace.Res.C113_chain",
    "Solace.Res.C113_append",
    "Solace.Res.C113_at_most_once",
    "Solace.Res.C113_error_skips",
    "Solace.Res.C113_good_skips",
    "Solace.Res.C113_origin",
    "Solace.Res.C113_void_after",
    "Solace.Res.C113_mapError",
    "Solace.Res.C113_lvalue_differs"
   ],
   "note": "Every chain agrees with a two-track reference; what each combinator of Result<void, E> leaves in the object. Handlers that throw are not modelled; the orElse overload that cannot be instantiated is left out."
  },
  {
   "property": "C114",
   "status": "proved",
   "theorems": [
    "Solace.Shared.C114_independent",
    "Solace.Shared.C114_order",
    "Solace.Shared.C114_cut",
    "Solace.Shared.C114_overlap",
    "Solace.Shared.C114_seen"
   ],
   "note": "Full for blocks below 2^63 bytes. C114_overlap shows that the views must not overlap."
  },
  {
   "property": "C115",
   "status": "proved",
   "theorems": [
    "Solace.SysMem.C115_queries",
    "Solace.SysMem.C115_create_exact",
    "Solace.SysMem.C115_never_more",
    "Solace.SysMem.C115_create",
    "Solace.SysMem.C115_product_wraps",
    "Solace.SysMem.C115_refusals",
    "Solace.SysMem.C115_system_manager"
   ],
   "note": "sysconf is a parameter; its two answers are taken at one moment. The product is computed modulo 2^64 (C115_product_wraps: a machine reporting exactly 2^64 bytes gets no manager)."
  },
  {
   "property": "C116",
   "status": "proved",
   "theorems": [
    "Solace.Ends.C116_string_compare",
    "Solace.Ends.C116_path_compare",
    "Solace.Ends.C116_path",
    "Solace.Ends.C116_reader",
    "Solace.Ends.C116_slice",
    "Solace.Ends.C116_optional_result",
    "Solace.Ends.C116_random_uuid",
    "Solace.Ends.C116_never"
   ],
   "note": "Exact conditions of std::terminate for each modelled noexcept function with a way to an exception; the never cases for every history and environment."
  },
  {
   "property": "C117",
   "status": "partial",
   "theorems": [
    "Solace.MemCalls.C117_equals",
    "Solace.MemCalls.C117_write",
    "Solace.MemCalls.C117_read_fill",
    "Solace.MemCalls.C117_reader",
    "Solace.MemCalls.C117_writer",
    "Solace.MemCalls.C117_compare",
    "Solace.MemCalls.C117_errors",
    "Solace.MemCalls.C117_uuid",
    "Solace.MemCalls.C117_not_null_partial",
    "Solace.MemCalls.C117_hash",
    "Solace.MemCalls.C117_effects",
    "Solace.MemCalls.C117_streams",
    "Solace.MemCalls.C117_append",
    "Solace.MemCalls.C117_uuid_all"
   ],
   "note": "In full for views that are not null, for writes, UUIDs and hashing. Views of the null pointer break the contract: comparing an empty null view with an empty one that is not null, reading into or filling a null view, reading no bytes with a ByteReader, comparing two empty strings, appending an empty null text to an error text; for each function the condition is an equivalence."
  },
  {
   "property": "C118",
   "status": "partial",
   "theorems": [
    "Solace.Hash.C118_md5_partial",
    "Solace.Hash.C118_sha1_partial",
    "Solace.Hash.C118_sha256_partial",
    "Solace.Hash.C118_collision_md5_partial",
    "Solace.Hash.C118_collision_sha1_partial",
    "Solace.Hash.C118_collision_sha256_partial",
    "Solace.Hash.C118_forge_md5_partial",
    "Solace.Hash.C118_forge_sha1_partial",
    "Solace.Hash.C118_forge_sha256_partial",
    "Solace.Hash.C118_md5",
    "Solace.Hash.C118_sha1",
    "Solace.Hash.C118_sha256",
    "Solace.Hash.C118_number",
    "Solace.Hash.C118_forge",
    "Solace.Hash.C118_collision"
   ],
   "note": "For pieces of any size the digest can be extended from the number its padding records (C118_md5, C118_sha1, C118_sha256, C118_collision, C118_forge). Missing: with the length of the message in place of that number it holds exactly if no piece has lost a carry (C118_number); the _partial theorems state it for pieces below 4 GiB."
  },
  {
   "property": "C119",
   "status": "proved",
   "theorems": [
    "Solace.Hash.Murmur.Reach.C119_preimage32",
    "Solace.Hash.Murmur.Reach.C119_preimage128",
    "Solace.Hash.Murmur.Reach.C119_preimageX86",
    "Solace.Hash.Murmur.Reach.C119_force32",
    "Solace.Hash.Murmur.Reach.C119_force128",
    "Solace.Hash.Murmur.Reach.C119_forceX86"
   ],
   "note": "Whole inputs below 2 GiB at an aligned address, where update is defined (C63_murmur32_exact, C63_murmur128_exact)."
  },
  {
   "property": "C120",
   "status": "partial",
   "theorems": [
    "Solace.VersionValue.C120_values",
    "Solace.VersionValue.C120_blocks",
    "Solace.VersionValue.C120_labels",
    "Solace.VersionValue.C120_together_false",
    "Solace.VersionValue.C120_together_partial",
    "Solace.VersionValue.C120_assign",
    "Solace.VersionValue.C120_source_unchanged",
    "Solace.VersionValue.C120_there_and_back",
    "Solace.VersionValue.C120_swap",
    "Solace.VersionValue.C120_conserved",
    "Solace.VersionValue.C120_build_version",
    "Solace.VersionValue.C120_build_exact"
   ],
   "note": "Full: reading is always defined and follows the specification, ownership, labels conserved and kept in their place, swap (own and standard). The part 'numbers and labels stay together' is false for the source of a move assignment: numbers are copied but String move assignment swaps, so after a = mv(b) the object b is a mixture (2.0.0 and 1.0.0-rc1 give 2.0.0-rc1). Proved without move assignment, and C120_assign says exactly what the source becomes."
  },
  {
   "property": "C121",
   "status": "partial",
   "theorems": [
    "Solace.Ty.C121_decay_exact",
    "Solace.Ty.C121_decay_false",
    "Solace.Ty.C121_decay_partial",
    "Solace.Ty.C121_decay_idempotent",
    "Solace.Ty.C121_remove_const",
    "Solace.Ty.C121_mv_exact",
    "Solace.Ty.C121_mv_is_move",
    "Solace.Ty.C121_ref_or_rvalue",
    "Solace.Ty.C121_forward",
    "Solace.Ty.C121_forward_rvalue"
   ],
   "note": "Exact for every type. Decay differs from std::decay for functions (left as they are) and is ambiguous for const volatile types and arrays of volatile elements; mv equals std::move exactly for arguments that are neither const nor volatile nor arrays: const arguments do not compile, an array gives a reference to a temporary pointer that is gone when mv returns. fwd has no form for rvalues that are not const."
  },
  {
   "property": "C122",
   "status": "partial",
   "theorems": [
    "Solace.Typed.C122_pointer_exact",
    "Solace.Typed.C122_pointer_false",
    "Solace.Typed.C122_pointer_partial",
    "Solace.Typed.C122_array",
    "Solace.Typed.C122_range_partial",
    "Solace.Typed.C122_range_reversed",
    "Solace.Typed.C122_round_trip",
    "Solace.Typed.C122_empty",
    "Solace.Typed.C122_values"
   ],
   "note": "Exact for all arguments. Fails when sizeof(T) * length wraps around 64 bits (2^61 elements of 8 bytes are an empty view, even at the null pointer) and for reversed pointers (a view of more than 2^63 bytes); otherwise proved. empty() and size() == 0 disagree exactly for views with some but fewer bytes than an element."
  },
  {
   "property": "C123",
   "status": "partial",
   "theorems": [
    "Solace.PathMem.C123_program",
    "Solace.PathMem.C123_all_back",
    "Solace.PathMem.C123_ended",
    "Solace.PathMem.C123_parse",
    "Solace.PathMem.C123_single",
    "Solace.PathMem.C123_root",
    "Solace.PathMem.C123_join",
    "Solace.PathMem.C123_normalize_partial",
    "Solace.PathMem.C123_getParent_partial",
    "Solace.PathMem.C123_subpath_partial",
    "Solace.PathMem.C123_toString",
    "Solace.PathMem.C123_normalize_wrong",
    "Solace.PathMem.C123_getParent_wrong",
    "Solace.PathMem.C123_join_loses",
    "Solace.PathMem.C123_moved"
   ],
   "note": "Memory: in full, for all programs. Reporting: in full for parse, makePath and the root; proved false for normalize, getParent and subpath, which leave out components whose copy is refused (normalize then even removes the wrong one), and subpath ends the program without memory for its array. A join that fails has emptied the paths moved into it."
  },
  {
   "property": "C124",
   "status": "partial",
   "theorems": [
    "Solace.PayloadThrow.C124_transparent",
    "Solace.PayloadThrow.C124_exact",
    "Solace.PayloadThrow.C124_copy_ends",
    "Solace.PayloadThrow.C124_swap",
    "Solace.PayloadThrow.C124_exchange",
    "Solace.PayloadThrow.C124_program",
    "Solace.PayloadThrow.C124_ended",
    "Solace.PayloadThrow.C124_alternative"
   ],
   "note": "The property fails: the specifications of most constructors ask whether the payload's move constructor is noexcept, whichever constructor runs, so copying a payload that moves without exceptions ends the program (C124_copy_ends). C124_transparent says exactly which calls pass exceptions for every payload type, C124_exact when each of the others ends the program. Swap and move assignment never pass an exception on (C124_swap). For programs that use only the transparent calls the property holds (C124_program, with the self operations C57 excludes)."
  },
  {
   "property": "C125",
   "status": "partial",
   "theorems": [
    "Solace.Containers.C125_refines_partial",
    "Solace.Containers.C125_programs_partial",
    "Solace.Containers.C125_moves",
    "Solace.Containers.C125_std_swap",
    "Solace.Containers.C125_array_null"
   ],
   "note": "Proved for all programs whose sizes fit into 64 bits and that do not assign nullptr to an array with elements; for that the negation is proved (the array keeps its size and its destroyed elements). empty() of an array is whether it has no memory, not whether it has no elements, so the specification gives it as such (an array made by toArray() of an empty vector is not empty, C81_toArray_not_empty). A container compared with itself is equal whatever == of the elements says."
  },
  {
   "property": "C126",
   "status": "partial",
   "theorems": [
    "Solace.ResTy.C126_narrowing",
    "Solace.ResTy.C126_type",
    "Solace.ResTy.C126_overload",
    "Solace.ResTy.C126_static",
    "Solace.ResTy.C126_stage",
    "Solace.ResTy.C126_chain",
    "Solace.ResTy.C126_then",
    "Solace.ResTy.C126_then_void",
    "Solace.ResTy.C126_orElse",
    "Solace.ResTy.C126_orElse_void",
    "Solace.ResTy.C126_mapError",
    "Solace.ResTy.C126_mapError_void",
    "Solace.ResTy.C126_kinds"
   ],
   "note": "Choice of overload, types of chains and conservation of values proved in full for all types and chains. Not every combinator takes every kind of handler: exactly which calls compile is proved for each of the six combinators, with the negation of the last sentence (C126_kinds). Handlers of Result<V, E>::mapError that return an Ok are not modelled."
  },
  {
   "property": "C127",
   "status": "partial",
   "theorems": [
    "Solace.Literal.C127_step",
    "Solace.Literal.C127_kept_partial",
    "Solace.Literal.C127_literals_partial",
    "Solace.Literal.C127_exact",
    "Solace.Literal.C127_dangles"
   ],
   "note": "Proved for all programs in which no statement breaks the promise of the type, with the exact statements that break it (C127_step) and exactly which kept strings are safe (C127_exact). False in general: StringLiteral binds to any array of characters, and swap exchanges it with a StringView (C127_dangles)."
  },
  {
   "property": "C128",
   "status": "partial",
   "theorems": [
    "Solace.Hash.Prog.C128_programs",
    "Solace.Hash.Prog.C128_plain_partial",
    "Solace.Hash.Prog.C128_names",
    "Solace.Hash.Prog.C128_reuse",
    "Solace.Hash.Prog.C128_slicing"
   ],
   "note": "C128_programs gives exactly what every program computes (a digest appends the padding to the object's message; Murmur3 keeps the last input only; Sha3 is a stub). The statement itself holds for objects left alone after their digest (C128_plain_partial, with Murmur3 read as hash of the last input); C128_reuse is the negation for reuse, C128_slicing shows that assignment through the base class copies nothing. Limits of C58-C63: pieces below 4 GiB, Murmur3 on aligned input below 2 GiB on little endian machines."
  },
  {
   "property": "C129",
   "status": "partial",
   "theorems": [
    "Solace.Calls.C129_visit",
    "Solace.Calls.C129_forEachConst",
    "Solace.Calls.C129_forEach",
    "Solace.Calls.C129_forEachIndexed",
    "Solace.Calls.C129_copy_throws",
    "Solace.Calls.C129_set",
    "Solace.Calls.C129_fill",
    "Solace.Calls.C129_indexOf",
    "Solace.Calls.C129_equals",
    "Solace.Calls.C129_split",
    "Solace.Calls.C129_split3",
    "Solace.Calls.C129_splitChar",
    "Solace.Calls.C129_next",
    "Solace.Calls.C129_payload",
    "Solace.Calls.C129_fill_ends",
    "Solace.Calls.C129_compare_ends",
    "Solace.Calls.C129_copies"
   ],
   "note": "Order, arguments, effects and contents proved for all. That exceptions reach the caller holds for forEach, set, split, Optional and Result; it is refuted for fill(f), indexOf, contains, equals and filtered ranges, which are declared noexcept and end the program (C129_fill_ends, C129_compare_ends)."
  },
  {
   "property": "C130",
   "status": "partial",
   "theorems": [
    "Solace.DomainLife.C130_lookup",
    "Solace.DomainLife.C130_told",
    "Solace.DomainLife.C130_alive_partial",
    "Solace.DomainLife.C130_dangling",
    "Solace.DomainLife.C130_no_cure",
    "Solace.DomainLife.C130_reuse",
    "Solace.DomainLife.C130_move",
    "Solace.DomainLife.C130_unknown_partial"
   ],
   "note": "Exact behaviour for every program (C130_lookup, C130_told). The property holds when registered domains are neither ended nor moved from; otherwise refuted: C130_dangling, C130_no_cure (nothing registered later helps), C130_reuse, C130_move."
  },
  {
   "property": "C131",
   "status": "proved",
   "theorems": [
    "Solace.StrMem.C131_makers",
    "Solace.StrMem.C131_replace",
    "Solace.StrMem.C131_parse",
    "Solace.StrMem.C131_print",
    "Solace.StrMem.C131_step",
    "Solace.StrMem.C131_program",
    "Solace.StrMem.C131_all_back",
    "Solace.StrMem.C131_moved"
   ],
   "note": "All string makers, replace, Version::parse and toString, builders, moves, assignments, swaps and destructors over a heap whose manager may refuse any request; values are those of the models of C23-C38."
  },
  {
   "property": "C132",
   "status": "partial",
   "theorems": [
    "Solace.Nested.C132_step_partial",
    "Solace.Nested.C132_program_partial",
    "Solace.Nested.C132_all_back",
    "Solace.Nested.C132_array_null",
    "Solace.Nested.C132_put_loses",
    "Solace.Nested.C132_push",
    "Solace.Nested.C132_put",
    "Solace.Nested.C132_find",
    "Solace.Nested.C132_elements"
   ],
   "note": "Proved for all programs of trees of strings, vectors, arrays and dictionaries with a manager that may refuse any request; undefined statements are characterised exactly. For array = nullptr with elements that own memory the negation is proved for every such state (the destructor gives a block back twice); a failed Dictionary::put is proved to take key (and value) away from the caller."
  },
  {
   "property": "C133",
   "status": "partial",
   "theorems": [
    "Solace.Nested.C133_views_partial",
    "Solace.Nested.C133_blocks_partial",
    "Solace.Nested.C133_moves_keep",
    "Solace.Nested.C133_elements_stay",
    "Solace.Nested.C133_others_stay",
    "Solace.Nested.C133_destroyed",
    "Solace.Nested.C133_put_dangles"
   ],
   "note": "Partial: for programs that do not assign nullptr to an array whose elements own memory (C132_array_null), and put, when it fails, destroys the caller's key and so invalidates views of it (C133_put_dangles). For all other statements and programs, at any depth of nesting: a block shows the same characters as long as it is out (C133_views_partial), only statements that destroy give blocks back (C133_moves_keep), the elements of a container stay in place, with others added behind them (C133_elements_stay), and exchanging one element leaves the others (C133_others_stay)."
  },
  {
   "property": "C134",
   "status": "proved",
   "theorems": [
    "Solace.Cmp.C134_equal",
    "Solace.Cmp.C134_different",
    "Solace.Cmp.C134_equivalence",
    "Solace.Cmp.C134_exact",
    "Solace.Cmp.C134_optional",
    "Solace.Cmp.C134_sequences",
    "Solace.Cmp.C134_result",
    "Solace.Cmp.C134_search",
    "Solace.Cmp.C134_irreflexive_depends",
    "Solace.Cmp.C134_equal_not_same",
    "Solace.Cmp.C134_uuid_text"
   ],
   "note": "Every nesting of the comparable types; types of the caller are required to have a reflexive == (a negative theorem shows why), != is claimed where the code defines it."
  },
  {
   "property": "C135",
   "status": "proved",
   "theorems": [
    "Solace.Iterators.C135_encode",
    "Solace.Iterators.C135_decode",
    "Solace.Iterators.C135_span",
    "Solace.Iterators.C135_dictionary",
    "Solace.Iterators.C135_env",
    "Solace.Iterators.C135_path",
    "Solace.Iterators.C135_range",
    "Solace.Iterators.C135_loop",
    "Solace.Iterators.C135_again",
    "Solace.Iterators.C135_moved_from_equal",
    "Solace.Iterators.C135_foreign_equal",
    "Solace.Iterators.C135_exchanged"
   ],
   "note": "Full for programs over one container. Boundaries, proved: a moved-from Path iterator still compares equal to its successor but throws when dereferenced; iterators of different containers may compare equal; move assignment exchanges. VariableSpan::Iterator has no usable move assignment (it calls a member swap that does not exist) and RangeView::Iter no ==; programs for them do without."
  },
  {
   "property": "C136",
   "status": "partial",
   "theorems": [
    "Solace.OldMemory.C136_make",
    "Solace.OldMemory.C136_replace_char",
    "Solace.OldMemory.C136_concat_iff",
    "Solace.OldMemory.C136_concat_partial",
    "Solace.OldMemory.C136_concat_leak",
    "Solace.OldMemory.C136_join_iff",
    "Solace.OldMemory.C136_join_leak",
    "Solace.OldMemory.C136_join_args_iff",
    "Solace.OldMemory.C136_join_args_leak",
    "Solace.OldMemory.C136_replace_iff",
    "Solace.OldMemory.C136_replace_leak",
    "Solace.OldMemory.C136_builder",
    "Solace.OldMemory.C136_version_text",
    "Solace.OldMemory.C136_version_parse",
    "Solace.OldMemory.C136_paths",
    "Solace.OldMemory.C136_path_text_iff",
    "Solace.OldMemory.C136_path_text_leak",
    "Solace.OldMemory.C136_uuid_text",
    "Solace.OldMemory.C136_uuid_parse_iff",
    "Solace.OldMemory.C136_uuid_parse_leak",
    "Solace.OldMemory.C136_hashes",
    "Solace.OldMemory.C136_error_text_partial",
    "Solace.OldMemory.C136_error_text_leak",
    "Solace.OldMemory.C136_system_message"
   ],
   "note": "Independence of old memory, as an equality of results for two memory managers that differ in content only. Full for copies, replaced characters, builders, versions, all path functions but toString, UUID texts, hashes and system messages. For concatenation, joins, replacements, the text of a path and reading a UUID the exact condition is proved as an equivalence, with concrete leaks: joining an empty list and the text of the empty path show 65535 bytes, 36 dashes read as a UUID show the stack."
  },
  {
   "property": "C137",
   "status": "partial",
   "theorems": [
    "Solace.Pipeline.C137_encode",
    "Solace.Pipeline.C137_terminated_partial",
    "Solace.Pipeline.C137_exact",
    "Solace.Pipeline.C137_empty",
    "Solace.Pipeline.C137_hex"
   ],
   "note": "Encoding: full. Decoding: undone for every non-empty byte string when a zero byte follows each text; exactly characterised when nothing follows (undefined exactly if some Base64 stage gets a multiple of three bytes) and for no bytes (an error exactly if there is a Base64 stage). Chains of Base16: full."
  },
  {
   "property": "C138",
   "status": "partial",
   "theorems": [
    "Solace.Hash.Digests.C138_programs",
    "Solace.Hash.Digests.C138_all_returned",
    "Solace.Hash.Digests.C138_granted",
    "Solace.Hash.Digests.C138_again",
    "Solace.Hash.Digests.C138_again_partial",
    "Solace.Hash.Digests.C138_again_wrong"
   ],
   "note": "All but the last part in full: values, comparisons and memory for every program and every pattern of refusals (pieces within the limits of C128). Asking again after a refusal gives the right digest only for Murmur3 and the stub of SHA-3; with MD5, SHA-1 and SHA-256 the failed call has already padded the message, so the next call gives a wrong digest without telling (C138_again_wrong)."
  },
  {
   "property": "C139",
   "status": "partial",
   "theorems": [
    "Solace.Callable.C139_invocable",
    "Solace.Callable.C139_invocable_value",
    "Solace.Callable.C139_invocable_value_false",
    "Solace.Callable.C139_array",
    "Solace.Callable.C139_array_partial",
    "Solace.Callable.C139_array_false",
    "Solace.Callable.C139_array_error",
    "Solace.Callable.C139_view",
    "Solace.Callable.C139_array_indexed",
    "Solace.Callable.C139_view_indexed",
    "Solace.Callable.C139_indexed_false",
    "Solace.Callable.C139_other_count",
    "Solace.Callable.C139_pack",
    "Solace.Callable.C139_string",
    "Solace.Callable.C139_path",
    "Solace.Callable.C139_env",
    "Solace.Callable.C139_env_two",
    "Solace.Callable.C139_env_false"
   ],
   "note": "Exact for every callback of the model. The claim is false: callbacks that return references are refused, callbacks with an index are given copies (and elements that cannot be copied are an error), T&& callbacks fail inside the library, generic packs are ambiguous. Conversions of arguments to other parameter types and classes with several call operators are not modelled."
  },
  {
   "property": "C140",
   "status": "partial",
   "theorems": [
    "Solace.Requests.C140_string",
    "Solace.Requests.C140_concat",
    "Solace.Requests.C140_join",
    "Solace.Requests.C140_joinArgs",
    "Solace.Requests.C140_replaceChar",
    "Solace.Requests.C140_replace",
    "Solace.Requests.C140_print",
    "Solace.Requests.C140_labels",
    "Solace.Requests.C140_version",
    "Solace.Requests.C140_single",
    "Solace.Requests.C140_root",
    "Solace.Requests.C140_parse",
    "Solace.Requests.C140_normalize",
    "Solace.Requests.C140_getParent",
    "Solace.Requests.C140_subpath",
    "Solace.Requests.C140_toString",
    "Solace.Requests.C140_joinPaths",
    "Solace.Requests.C140_parse_partial",
    "Solace.Requests.C140_normalize_partial",
    "Solace.Requests.C140_normalize_extra",
    "Solace.Requests.C140_parse_extra",
    "Solace.Requests.C140_join_empty",
    "Solace.Requests.C140_strings_bound",
    "Solace.Requests.C140_parse_bound",
    "Solace.Requests.C140_paths_bound",
    "Solace.Requests.C140_paths_nothing",
    "Solace.Requests.C140_strings_nothing"
   ],
   "note": "Exact list of requests for every function, and bounds for every refusing manager. Missing: parse of a text that ends with a delimiter, normalize with . or .. and Version::toString ask for more than they return (exact lists and witnesses proved), so the property holds for them only under the stated conditions."
  },
  {
   "property": "C141",
   "status": "partial",
   "theorems": [
    "Solace.Machine.C141_reference",
    "Solace.Machine.C141_compare_iff",
    "Solace.Machine.C141_compare_unsigned",
    "Solace.Machine.C141_path_partial",
    "Solace.Machine.C141_path_negation",
    "Solace.Machine.C141_hash_difference",
    "Solace.Machine.C141_hash_ascii",
    "Solace.Machine.C141_hash_negation",
    "Solace.Machine.C141_replace_unsigned",
    "Solace.Machine.C141_replace_iff",
    "Solace.Machine.C141_atom_iff",
    "Solace.Machine.C141_atom_unsigned",
    "Solace.Machine.C141_trim_little",
    "Solace.Machine.C141_trim_big",
    "Solace.Machine.C141_dial_partial",
    "Solace.Machine.C141_dial_negation",
    "Solace.Machine.C141_digests",
    "Solace.Machine.C141_write",
    "Solace.Machine.C141_read",
    "Solace.Machine.C141_write_native",
    "Solace.Machine.C141_uuid_words",
    "Solace.Machine.C141_builder_search",
    "Solace.Machine.C141_murmur_short",
    "Solace.Machine.C141_murmur_block"
   ],
   "note": "Holds for digests, readLE/BE, writeLE/BE and the search in a builder. Missing: it is false for compareTo, hashCode, replace(char), atoms, dial strings, trim on big endian, makeUUID of words, native writes and Murmur3; proved for each of these: on which inputs machines agree (exactly, except for paths, dial strings and hash codes: ASCII suffices, witnesses otherwise), and that with unsigned char the results are the right ones."
  },
  {
   "property": "C142",
   "status": "partial",
   "theorems": [
    "Solace.OptConv.C142_make",
    "Solace.OptConv.C142_make_const",
    "Solace.OptConv.C142_deeper",
    "Solace.OptConv.C142_const_rvalue",
    "Solace.OptConv.C142_const_value",
    "Solace.OptConv.C142_prvalue",
    "Solace.OptConv.C142_in_place",
    "Solace.OptConv.C142_flattens",
    "Solace.OptConv.C142_assign_none",
    "Solace.OptConv.C142_assign_same",
    "Solace.OptConv.C142_assign_move",
    "Solace.OptConv.C142_assign_copy",
    "Solace.OptConv.C142_assign_copy_value",
    "Solace.OptConv.C142_assign_differs",
    "Solace.OptConv.C142_assign_convert",
    "Solace.OptConv.C142_assign_optional",
    "Solace.OptConv.C142_assign_ambiguous",
    "Solace.OptConv.C142_assign_braces"
   ],
   "note": "Result, what is left of the argument and what compiles are given exactly for every type, value and kind of argument. The property holds for making from arguments that are not const and not nested deeper. It is false otherwise: const optionals of the same type cannot be copied, lvalues of the same type not assigned, bool payloads take whether the argument has content, an empty optional disappears in an optional of optionals, {} is 0 for scalars (all proved in general)."
  },
  {
   "property": "C143",
   "status": "partial",
   "theorems": [
    "Solace.OptRef.C143_compiles",
    "Solace.OptRef.C143_const",
    "Solace.OptRef.C143_assign",
    "Solace.OptRef.C143_stays",
    "Solace.OptRef.C143_alias",
    "Solace.OptRef.C143_substitution",
    "Solace.OptRef.C143_undefined",
    "Solace.OptRef.C143_payload",
    "Solace.OptRef.C143_safe",
    "Solace.OptRef.C143_equal",
    "Solace.OptRef.C143_ended"
   ],
   "note": "Binding, aliasing, substitution and the undefined statements are proved for all programs. False parts, with exact tables: a const object cannot be referred to (also not by Optional<X const&>), const is dropped between the two, an object cannot be assigned, and a reference into an Optional<X> changes its value on swap and dangles after emptying it."
  },
  {
   "property": "C144",
   "status": "partial",
   "theorems": [
    "Solace.ResConv.C144_ok",
    "Solace.ResConv.C144_err",
    "Solace.ResConv.C144_value",
    "Solace.ResConv.C144_error",
    "Solace.ResConv.C144_value_lvalue",
    "Solace.ResConv.C144_error_lvalue",
    "Solace.ResConv.C144_third",
    "Solace.ResConv.C144_same",
    "Solace.ResConv.C144_result",
    "Solace.ResConv.C144_tagged",
    "Solace.ResConv.C144_assign",
    "Solace.ResConv.C144_void",
    "Solace.ResConv.C144_sides_partial"
   ],
   "note": "The code violates the full statement: a variable or constant of the value type does not make a success (C144_value_lvalue, C144_error_lvalue; exact in C144_sides_partial). Reference types and nested results are not in the model."
  },
  {
   "property": "C145",
   "status": "partial",
   "theorems": [
    "Solace.Reuse.C145_answer",
    "Solace.Reuse.C145_left",
    "Solace.Reuse.C145_keeps_iff",
    "Solace.Reuse.C145_named_as_given",
    "Solace.Reuse.C145_compiles",
    "Solace.Reuse.C145_program_partial",
    "Solace.Reuse.C145_until_moved",
    "Solace.Reuse.C145_optional",
    "Solace.Reuse.C145_optional_keeps_iff",
    "Solace.Reuse.C145_optional_compiles",
    "Solace.Reuse.C145_optional_program_partial"
   ],
   "note": "False for the code: then (plain and void answers), orElse and flatMap move out of variables (C145_named_as_given). The keeping calls are characterised exactly (C145_keeps_iff, C145_optional_keeps_iff) and programs of them proved in full; C145_until_moved covers programs of any calls up to the first one that moves."
  },
  {
   "property": "C146",
   "status": "partial",
   "theorems": [
    "Solace.Over.C146_accepts",
    "Solace.Over.C146_value_kept",
    "Solace.Over.C146_width_partial",
    "Solace.Over.C146_char_four_bytes",
    "Solace.Over.C146_round_trip",
    "Solace.Over.C146_same_bytes",
    "Solace.Over.C146_append",
    "Solace.Over.C146_code_point_printed",
    "Solace.Over.C146_measure_one",
    "Solace.Over.C146_char",
    "Solace.Over.C146_order"
   ],
   "note": "Values and round trips in full for every target. The width is that of the type except for exactly bool, char16_t, a two-byte wchar_t and, in writeLE and writeBE, char, which take four bytes (C146_char_four_bytes); append of a char32_t prints its number and measure takes every number for a character (C146_code_point_printed, C146_measure_one)."
  },
  {
   "property": "C147",
   "status": "proved",
   "theorems": [
    "Solace.Nested.C147_safe",
    "Solace.Nested.C147_statements",
    "Solace.Nested.C147_each",
    "Solace.Nested.C147_entries",
    "Solace.Nested.C147_gentle",
    "Solace.Nested.C147_pop",
    "Solace.Nested.C147_clear",
    "Solace.Nested.C147_destroy"
   ],
   "note": "Programs with loops over the containers of C132, nested to any depth, with bodies that may depend on everything. A loop is the body once for each element of the beginning (C147_each, C147_entries) if what its statements destroy are not these elements; it never reads an object that is gone (C147_safe; C147_gentle without hypotheses about the execution); a program with loops is the sequence of its statements (C147_statements). pop_back, clear and destruction of the container itself in the body are undefined exactly from two elements on. A loop over a dictionary made of vectors of different lengths, and nullptr assigned to an array that owns memory, are outside (see C83, C132)."
  },
  {
   "property": "C148",
   "status": "proved",
   "theorems": [
    "Solace.Reads.C148_same",
    "Solace.Reads.C148_equals",
    "Solace.Reads.C148_ends",
    "Solace.Reads.C148_char",
    "Solace.Reads.C148_search",
    "Solace.Reads.C148_bound",
    "Solace.Reads.C148_worst",
    "Solace.Reads.C148_trim",
    "Solace.Reads.C148_split",
    "Solace.Reads.C148_determined"
   ],
   "note": "Accesses recorded for the functions of StringView; searching for the empty text, which reads behind it, is left to C24. The reads of strncmp and of the three-argument split are not recorded."
  },
  {
   "property": "C149",
   "status": "proved",
   "theorems": [
    "Solace.ResRef.C149_sane",
    "Solace.ResRef.C149_sane_init",
    "Solace.ResRef.C149_ends_iff",
    "Solace.ResRef.C149_value",
    "Solace.ResRef.C149_targets",
    "Solace.ResRef.C149_reading",
    "Solace.ResRef.C149_push",
    "Solace.ResRef.C149_dangling",
    "Solace.ResRef.C149_undefined",
    "Solace.ResRef.C149_moved",
    "Solace.ResRef.C149_functions",
    "Solace.ResRef.C149_reused",
    "Solace.ResRef.C149_put_find",
    "Solace.ResRef.C149_put_twice",
    "Solace.ResRef.C149_functions_error",
    "Solace.ResRef.C149_put_failed"
   ],
   "note": "Programs over objects, vectors, dictionaries and results of references. Values are numbers, requests for memory are granted. C149_reused and C149_put_twice record what a caller may not expect: an old result shows the next element put in its place, and a result of put for a key that was there refers to a value find does not give."
  },
  {
   "property": "C150",
   "status": "partial",
   "theorems": [
    "Solace.Docs.C150_substring_iff",
    "Solace.Docs.C150_hash",
    "Solace.Docs.C150_hash_low",
    "Solace.Docs.C150_hash_iff",
    "Solace.Docs.C150_hash_not_int",
    "Solace.Docs.C150_hash_empty",
    "Solace.Docs.C150_compare_iff",
    "Solace.Docs.C150_compare_not_lexicographic",
    "Solace.Docs.C150_length_iff",
    "Solace.Docs.C150_cstring_iff",
    "Solace.Docs.C150_index_never_throws",
    "Solace.Docs.C150_capacity_iff",
    "Solace.Docs.C150_array_empty_iff",
    "Solace.Docs.C150_basename_iff",
    "Solace.Docs.C150_parent_null_iff",
    "Solace.Docs.C150_parent_of_root",
    "Solace.Docs.C150_empty_iff",
    "Solace.Docs.C150_digest_length_not_bytes"
   ],
   "note": "The comments are not true for all arguments. For each of them the exact condition under which it is, or the negation, is proved. C150_compare_iff is for characters 1 to 127 (C22_exact has the others)."
  },
  {
   "property": "C151",
   "status": "proved",
   "theorems": [
    "Solace.Nested.C151_ends",
    "Solace.Nested.C151_array",
    "Solace.Nested.C151_adds",
    "Solace.Nested.C151_safe",
    "Solace.Nested.C151_pop",
    "Solace.Nested.C151_push",
    "Solace.Nested.C151_drain",
    "Solace.Nested.C151_fits",
    "Solace.Nested.C151_program",
    "Solace.Nested.C151_gone"
   ],
   "note": "Loops by index in the world of C132 and C147. A vector never takes more memory, so push fails when it is full and the loop ends."
  },
  {
   "property": "C152",
   "status": "partial",
   "theorems": [
    "Solace.DtorThrow.C152_pop",
    "Solace.DtorThrow.C152_clear_good",
    "Solace.DtorThrow.C152_clear_throws",
    "Solace.DtorThrow.C152_clear_again",
    "Solace.DtorThrow.C152_end",
    "Solace.DtorThrow.C152_null",
    "Solace.DtorThrow.C152_null_twice",
    "Solace.DtorThrow.C152_guard",
    "Solace.DtorThrow.C152_optional",
    "Solace.DtorThrow.C152_step_partial",
    "Solace.DtorThrow.C152_program_partial",
    "Solace.DtorThrow.C152_lets_out",
    "Solace.DtorThrow.C152_hazard",
    "Solace.DtorThrow.C152_push"
   ],
   "note": "The statement on ownership is violated by = nullptr of a vector with a throwing destructor (C152_null, C152_null_twice: the position is reset only after all destructors), of any array with elements, and by ArrayView::emplace when a destructor or the constructor throws (C152_hazard); everything else is proved for all programs. Result is not covered."
  },
  {
   "property": "C153",
   "status": "partial",
   "theorems": [
    "Solace.Threads.C153_race",
    "Solace.Threads.C153_lost",
    "Solace.Threads.C153_below",
    "Solace.Threads.C153_guarded_partial",
    "Solace.Threads.C153_serial_partial",
    "Solace.Threads.C153_count_partial",
    "Solace.Threads.C153_apart_partial",
    "Solace.Threads.C153_disturbs_partial",
    "Solace.Threads.C153_wrong_domain"
   ],
   "note": "The property fails as stated: C153_race shows a data race in every execution in which two threads took or gave back memory without a mutex, C153_lost and C153_below an interleaving that loses bytes from the count and then takes it below zero. It holds under one mutex (no race: C153_guarded_partial; linearisable: C153_serial_partial; exact count: C153_count_partial) and where no call of one thread may change what another uses (C153_apart_partial, with C153_disturbs_partial for which calls these are). Missing: objects that threads share by themselves, the construction of the function-local static, and executions after a race, which are undefined."
  },
  {
   "property": "C154",
   "status": "partial",
   "theorems": [
    "Solace.InPlace.C154_encode16_partial",
    "Solace.InPlace.C154_decode16_partial",
    "Solace.InPlace.C154_encode64_partial",
    "Solace.InPlace.C154_decode64_partial",
    "Solace.InPlace.C154_encode16_overtaken",
    "Solace.InPlace.C154_overtaken",
    "Solace.InPlace.C154_round_trip16",
    "Solace.InPlace.C154_round_trip64",
    "Solace.InPlace.C154_outside"
   ],
   "note": "Holds where the output does not overtake the input (the partial theorems, for all buffers and places); for Base16 encoding the condition is exact (C154_encode16_overtaken), for the other coders C154_overtaken gives witnesses that fail outside of it. Inputs that start before the buffer and reach into it are not modelled."
  },
  {
   "property": "C155",
   "status": "proved",
   "theorems": [
    "Solace.Channel.C155_queue",
    "Solace.Channel.C155_fifo",
    "Solace.Channel.C155_pump",
    "Solace.Channel.C155_room"
   ],
   "note": "Refinement of the shared memory with two positions to a queue of bytes; hypotheses: the memory is smaller than 2^64 bytes, and for C155_fifo no bytes are skipped (skipped bytes are not in any reply)."
  },
  {
   "property": "C156",
   "status": "partial",
   "theorems": [
    "Solace.Ordered.C156_container",
    "Solace.Ordered.C156_binarySearch",
    "Solace.Ordered.C156_uuid",
    "Solace.Ordered.C156_char",
    "Solace.Ordered.C156_version_greater",
    "Solace.Ordered.C156_version_less_negation",
    "Solace.Ordered.C156_string_partial",
    "Solace.Ordered.C156_string_empty_negation",
    "Solace.Ordered.C156_string_negation",
    "Solace.Sorting.C156_path_partial",
    "Solace.Sorting.C156_path_mixed"
   ],
   "note": "Full for UUIDs and characters, and for versions compared with operator>, where versions that differ only in their labels are one key. False for versions compared with operator<: no version is ever found and none is ever refused (proved for every tree and every array). Strings: proved for non-empty ones of characters 1..127; negations proved for the empty string (the program ends), for NUL and for bytes from 128 on (different strings are one key). The tree and the binary search are those of libstdc++, read as text. Paths, compared with compareTo: proved for relative ones or absolute ones with names as components. To put a relative path into a set whose root is absolute ends the program."
  },
  {
   "property": "C157",
   "status": "partial",
   "theorems": [
    "Solace.Sorting.C157_sort",
    "Solace.Sorting.C157_sort_small",
    "Solace.Sorting.C157_values",
    "Solace.Sorting.C157_heapSort",
    "Solace.Sorting.C157_std_sort",
    "Solace.Sorting.C157_std_values",
    "Solace.Sorting.C157_std_string_partial",
    "Solace.Sorting.C157_unguarded",
    "Solace.Sorting.C157_string_partial",
    "Solace.Sorting.C157_versions_partial",
    "Solace.Sorting.C157_versions_negation",
    "Solace.Sorting.C157_path_partial",
    "Solace.Sorting.C157_path_mixed"
   ],
   "note": "Proved for UUIDs, characters and versions with operator>, for arrays of every length; for strings that are not empty and of characters 1..127. False for versions with operator<: 17 or more with the same numbers are read past the end (proved for all such arrays); up to 16 are sorted. std::sort is that of libstdc++, read as text, with the heap sort it falls back to. Paths, compared with compareTo: proved for relative ones or absolute ones with names as components; to sort both kinds together ends the program."
  },
  {
   "property": "C158",
   "status": "partial",
   "theorems": [
    "Solace.OptAlias.C158_filter",
    "Solace.OptAlias.C158_filter_partial",
    "Solace.OptAlias.C158_filter_changed",
    "Solace.OptAlias.C158_filter_temporary",
    "Solace.OptAlias.C158_orElse",
    "Solace.OptAlias.C158_orElse_partial",
    "Solace.OptAlias.C158_orElse_temporary",
    "Solace.OptAlias.C158_orElse_changed"
   ],
   "note": "What the references stand for is proved for every program (C158_filter, C158_orElse). The statement holds while the optional and the other value are neither changed nor gone. False otherwise: after an assignment or a move the result of filter holds an element that the predicate refused; on a temporary with an accepted element, and for orElse of an empty optional with a temporary value, the result cannot be read. Proved for all states, predicates and elements."
  },
  {
   "property": "C159",
   "status": "proved",
   "theorems": [
    "Solace.HashTable.C159_table",
    "Solace.HashTable.C159_insert",
    "Solace.HashTable.C159_flood"
   ],
   "note": "Full, for every program and every string. The table is that of libstdc++, read as text; when it grows is left open. C159_flood: any number of keys share a bucket whatever the number of buckets."
  }
 ]
}
