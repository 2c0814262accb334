{
 "claims": [
  {
   "property": "C01",
   "status": "proved",
   "theorems": [
    "Verif.Stream.C01_stream_is_append_log",
    "Verif.Stream.C01_offsets_are_positions"
   ],
   "note": "all histories without backward trims; backward trims are covered by C03"
  },
  {
   "property": "C02",
   "status": "proved",
   "theorems": [
    "Verif.Stream.C02_chunking_unobservable",
    "Verif.Stream.C02_views_chunking_unobservable"
   ],
   "note": "reads, and all forward observers of views (size, data, extract, find, startsWith, ==); all histories with forward trims and all views a program can derive"
  },
  {
   "property": "C03",
   "status": "partial",
   "theorems": [
    "Verif.Stream.C03_trim_keeps_rest",
    "Verif.Stream.C03_trimmed_stays_trimmed_partial",
    "Verif.Stream.C03_backward_trim_brings_data_back"
   ],
   "note": "false for backward trims: witness proved"
  },
  {
   "property": "C04",
   "status": "proved",
   "theorems": [
    "Verif.Stream.C04_frozen_rejects_appends"
   ],
   "note": ""
  },
  {
   "property": "C05",
   "status": "partial",
   "theorems": [
    "Verif.Stream.C05_iterators_memory_safe_partial",
    "Verif.Stream.C05_deref_correct_partial",
    "Verif.Stream.C05_end_iterator_dangles",
    "Verif.Stream.C05_end_iterator_use_after_free",
    "Verif.Stream.C05_reset_leaves_dangling_iterators"
   ],
   "note": "false for end() iterators and across reset(): witnesses proved"
  },
  {
   "property": "C10",
   "status": "proved",
   "theorems": [
    "Verif.Stream.C10_statistics"
   ],
   "note": ""
  },
  {
   "property": "C11",
   "status": "partial",
   "theorems": [
    "Verif.Stream.C11_copy_equal_partial",
    "Verif.Stream.C11_copy_differs_after_trim"
   ],
   "note": "false after a trim inside a chunk: witness proved"
  },
  {
   "property": "C06",
   "status": "proved",
   "theorems": [
    "Verif.Stream.C06_extract",
    "Verif.Stream.view_begin_trimmed"
   ],
   "note": "for every view not inverted; if its begin was trimmed away the call throws InvalidIterator"
  },
  {
   "property": "C07",
   "status": "proved",
   "theorems": [
    "Verif.Stream.C07_find_byte",
    "Verif.Stream.C07_position_exists"
   ],
   "note": ""
  },
  {
   "property": "C08",
   "status": "proved",
   "theorems": [
    "Verif.Stream.C08_find",
    "Verif.Stream.C08_resume",
    "Verif.Stream.C08_resume_find",
    "Verif.Stream.C08_find_view"
   ],
   "note": ""
  },
  {
   "property": "C09",
   "status": "partial",
   "theorems": [
    "Verif.Stream.C09_find_backward_partial",
    "Verif.Stream.C09_backward_from_end_undefined",
    "Verif.Stream.C09_backward_misses_whole_range",
    "Verif.Stream.C09_backward_finds_outside_of_view"
   ],
   "note": "false in general: searching backward from the end reads past the data, a needle filling the whole range is missed, matches may lie outside of a bounded view; witnesses proved. The partial theorem gives the exact result for positions inside the data"
  },
  {
   "property": "C12",
   "status": "proved",
   "theorems": [
    "Verif.Stream.C12_blocks"
   ],
   "note": ""
  },
  {
   "property": "C41",
   "status": "proved",
   "theorems": [
    "Verif.Stream.C41_comparison",
    "Verif.Stream.C41_compare_bytes"
   ],
   "note": ""
  },
  {
   "property": "C42",
   "status": "proved",
   "theorems": [
    "Verif.Stream.C42_advance_to_next_data"
   ],
   "note": ""
  },
  {
   "property": "C43",
   "status": "proved",
   "theorems": [
    "Verif.Stream.C43_complete_is_final",
    "Verif.Stream.C43_incomplete"
   ],
   "note": ""
  },
  {
   "property": "C44",
   "status": "proved",
   "theorems": [
    "Verif.Stream.C44_limit",
    "Verif.Stream.C44_limit_window",
    "Verif.Stream.C44_advance",
    "Verif.Stream.C44_advance_window",
    "Verif.Stream.C44_sub",
    "Verif.Stream.C44_sub_window",
    "Verif.Stream.C44_trim",
    "Verif.Stream.C44_limit_of_inverted_view_grows"
   ],
   "note": "for views not inverted; for inverted ones limit() can grow the view (witness)"
  },
  {
   "property": "C13",
   "status": "partial",
   "theorems": [
    "Verif.Parse.C13_parse_is_meaning_partial",
    "Verif.Parse.C13_chunking_is_unobservable_partial",
    "Verif.Parse.C13_same_as_one_piece_partial",
    "Verif.Parse.C13_results_are_final_partial",
    "Verif.Parse.C13_bound_is_irrelevant_partial",
    "Verif.Parse.C13_no_undefined_behaviour_partial",
    "Verif.Parse.C13_real_depends_on_chunking",
    "Verif.Parse.C13_size_eod_reads_beyond_limit",
    "Verif.Parse.C13_size_eod_depends_on_chunking",
    "Verif.Parse.C13_foreach_at_end_runs_on",
    "Verif.Parse.C13_names_are_meaning",
    "Verif.Parse.C13_pointer_loop_runs_on",
    "Verif.Parse.C13_parse_at_escapes_limit",
    "Verif.Parse.C13_parse_at_behind_the_end",
    "Verif.Parse.C13_parse_at_before_the_unit"
   ],
   "note": "proved for every grammar built from integers/bitfields/addresses (fixed-size unpacking), bytes (&size, &until, &until-including, &eod, &chunked), literals, skip, sequences with data-dependent continuations (so also switch/if), &size, &max-size, &try/backtrack, counted lists, &until/&while/&eod lists, look-ahead over literals, &parse-from, random access with &parse-at (forwards and backwards, also from units inside; jumping to before the random-access unit, or to a place that does not exist to parse something that needs no data, is excluded with witnesses), nested and recursive units, trimming on or off. False for real fields and bytes &size &eod: witnesses proved. regular expressions without inner assertions. Missing: sinks, gaps in the input; filters see C70, &synchronize see C63-C65"
  },
  {
   "property": "C14",
   "status": "proved",
   "theorems": [
    "Verif.Parse.C14_wait_returns_at_the_right_time",
    "Verif.Parse.C14_waitForInput",
    "Verif.Parse.C14_no_needless_suspension"
   ],
   "note": ""
  },
  {
   "property": "C15",
   "status": "partial",
   "theorems": [
    "Verif.Parse.C15_extractBytes",
    "Verif.Parse.C15_extractBytes_eod",
    "Verif.Parse.C15_expectBytesLiteral",
    "Verif.Parse.C13_size_eod_reads_beyond_limit"
   ],
   "note": "extractBytes(eod_ok) on a limited view is not bounded by the view (witness); everything else proved for every history, view and schedule"
  },
  {
   "property": "C16",
   "status": "proved",
   "theorems": [
    "Verif.Sink.C16_in_order"
   ],
   "note": "for units that do not complete while data is still being written; with or without sequence numbers, any initial one, auto-trim on or off"
  },
  {
   "property": "C17",
   "status": "proved",
   "theorems": [
    "Verif.Sink.C17_disjoint",
    "Verif.Sink.C17_any_order"
   ],
   "note": "positions below 2^63; units that do not complete"
  },
  {
   "property": "C18",
   "status": "partial",
   "theorems": [
    "Verif.Sink.C18_untrimmed_partial",
    "Verif.Sink.C18_untrimmed_complete_partial",
    "Verif.Sink.C18_segments_partial",
    "Verif.Sink.C18_ahead_partial",
    "Verif.Sink.C18_fails_partial_retransmission",
    "Verif.Sink.C18_fails_throws"
   ],
   "note": "false with automatic trimming for retransmissions that start in old data and end in new data: witness proved (data lost), and a witness of an exception. Proved: everything with auto-trim off; with auto-trim for retransmission of whole segments and for any overlaps among data not delivered yet"
  },
  {
   "property": "C19",
   "status": "proved",
   "theorems": [
    "Verif.Sink.C19_monotone",
    "Verif.Sink.C19_prefix",
    "Verif.Sink.C19_fails_skip_back"
   ],
   "note": "all histories including gaps, skips, trimming, exceptions; positions below 2^63"
  },
  {
   "property": "C20",
   "status": "partial",
   "theorems": [
    "Verif.Sink.C20_accounted_partial",
    "Verif.Sink.C20_accounted_completing_partial",
    "Verif.Sink.completing_case",
    "Verif.Sink.C20_fails_cut_write",
    "Verif.Sink.C20_fails_length",
    "Verif.Sink.C20_fails_gap_after_completion"
   ],
   "note": "all histories with gaps and units that do not complete, and all histories without gaps and any units. False if a write is cut off by the trim position (its length is not adjusted), a length is given that is not the length of the data, or a gap follows data that could not be delivered because a unit has completed: witnesses proved"
  },
  {
   "property": "C21",
   "status": "partial",
   "theorems": [
    "Verif.Sink.C21_defined_partial",
    "Verif.Sink.C21_no_gaps_partial",
    "Verif.Sink.C21_fails_gap_over_data"
   ],
   "note": "undefined behaviour exactly for gap() over the beginning of buffered data (witness proved); every other history is proved defined"
  },
  {
   "property": "C22",
   "status": "proved",
   "theorems": [
    "Verif.Sink.C22_faithful",
    "Verif.Sink.C22_fails_delivered_before",
    "Verif.Sink.C22_fails_prefix_length"
   ],
   "note": "bytes reported are the bytes written at that position, for all histories; additionally proved witnesses that without auto-trim delivered data is reported undelivered, and too much of it"
  },
  {
   "property": "C45",
   "status": "proved",
   "theorems": [
    "Verif.Sink.C45_fan_out"
   ],
   "note": ""
  },
  {
   "property": "C23",
   "status": "partial",
   "theorems": [
    "Verif.Ints.C23_pack",
    "Verif.Ints.C23_unpack",
    "Verif.Ints.C23_unpack_short",
    "Verif.Ints.C23_round_trip",
    "Verif.Ints.C23_round_trip_bytes",
    "Verif.Ints.C23_fails_negative_int8"
   ],
   "note": "for all integer types and values and all byte orders, except that packing a negative int8 throws (witness proved)"
  },
  {
   "property": "C24",
   "status": "proved",
   "theorems": [
    "Verif.Ints.C24_lsb0",
    "Verif.Ints.C24_msb0",
    "Verif.Ints.C24_invalid",
    "Verif.Ints.C24_join"
   ],
   "note": ""
  },
  {
   "property": "C26",
   "status": "partial",
   "theorems": [
    "Verif.Ints.C26_pow",
    "Verif.Ints.C26_value",
    "Verif.Ints.C26_fails_negative_exponent"
   ],
   "note": "for every base and every exponent not negative; with a negative exponent the loop never returns a value and for base 1 never ends (proved)"
  },
  {
   "property": "C27",
   "status": "partial",
   "theorems": [
    "Verif.Ints.C27_toInt_partial",
    "Verif.Ints.C27_toUInt_partial",
    "Verif.Ints.C27_defined",
    "Verif.Ints.C27_fails_two_pow_63",
    "Verif.Ints.C27_fails_unsigned",
    "Verif.Ints.C27_fails_sign",
    "Verif.Ints.C27_fails_punctuation",
    "Verif.Ints.C27_fails_upper_case",
    "Verif.Ints.C27_fails_base",
    "Verif.Ints.C27_fails_long"
   ],
   "note": "exact characterisation for all texts up to 255 characters without the characters following 9 that the code takes for digits of bases above 10; the exclusions are needed, a witness is proved for each"
  },
  {
   "property": "C28",
   "status": "partial",
   "theorems": [
    "Verif.Ints.C28_toUInt",
    "Verif.Ints.C28_toInt",
    "Verif.Ints.C28_host_partial",
    "Verif.Ints.C28_length",
    "Verif.Ints.C28_fails_host"
   ],
   "note": "all byte orders except Host; for Host the exact behaviour is proved, which is wrong for values with the top bit set"
  },
  {
   "property": "C25",
   "status": "not_applicable",
   "theorems": [],
   "note": "checked arithmetic is the contract of the third-party SafeInt library; its source is not in the repository (empty submodule). The contract is part of the trusted base"
  },
  {
   "property": "C29",
   "status": "partial",
   "theorems": [
    "Verif.Bytes.C29_split_partial",
    "Verif.Bytes.C29_split_join",
    "Verif.Bytes.C29_split_free",
    "Verif.Bytes.Parts.join",
    "Verif.Bytes.Parts.unique",
    "Verif.Bytes.C29_split1",
    "Verif.Bytes.C29_rsplit1",
    "Verif.Bytes.C29_words",
    "Verif.Bytes.Words.unique",
    "Verif.Bytes.C29_split1_ws",
    "Verif.Bytes.C29_replace",
    "Verif.Bytes.C29_bytes_join",
    "Verif.Bytes.C29_fails_overlap",
    "Verif.Bytes.C29_fails_join_binary"
   ],
   "note": "proved for every text and every delimiter that does not overlap with itself (all single bytes); with one that does an empty part may be added (witness). bytes.join() escapes non-printable bytes, so it restores printable parts only (witness)"
  },
  {
   "property": "C30",
   "status": "proved",
   "theorems": [
    "Verif.Bytes.C30_find",
    "Verif.Bytes.C30_find_beyond",
    "Verif.Bytes.C30_find_byte",
    "Verif.Bytes.C30_starts_with",
    "Verif.Bytes.C30_ends_with",
    "Verif.Bytes.C30_strip"
   ],
   "note": ""
  },
  {
   "property": "C31",
   "status": "partial",
   "theorems": [
    "Verif.Bytes.C31_sub_partial",
    "Verif.Bytes.C31_fails_inverted"
   ],
   "note": "for positions in order; with to < from everything from `from` on is returned, which is neither empty nor an error (proved for all such positions)"
  },
  {
   "property": "C32",
   "status": "partial",
   "theorems": [
    "Verif.Bytes.C32_round_trip",
    "Verif.Bytes.C32_injective",
    "Verif.Bytes.C32_printable",
    "Verif.Bytes.C32_fails_octal",
    "Verif.Bytes.C32_fails_backslash",
    "Verif.Bytes.C32_fails_malformed"
   ],
   "note": "all byte strings, styles with hexadecimal escapes and escaped backslashes; for the two other style flags the property is false (witnesses)"
  },
  {
   "property": "C33",
   "status": "partial",
   "theorems": [
    "Verif.Net.C33_pack",
    "Verif.Net.C33_unpack",
    "Verif.Net.C33_unpack_short",
    "Verif.Net.C33_round_trip",
    "Verif.Net.C33_valid",
    "Verif.Net.C33_lt",
    "Verif.Net.C33_order_partial",
    "Verif.Net.C33_strict",
    "Verif.Net.C33_fails_order",
    "Verif.Net.C33_fails_text"
   ],
   "note": "binary round trip proved for all addresses of both families and all byte orders; == and < are a consistent total order within a family, but not across families (witness). inet_pton is not modelled; what is made of its result is"
  },
  {
   "property": "C34",
   "status": "partial",
   "theorems": [
    "Verif.Net.C34_contains",
    "Verif.Net.C34_v4",
    "Verif.Net.C34_invalid",
    "Verif.Net.C34_eq",
    "Verif.Net.C34_text_partial",
    "Verif.Net.C34_fails_text",
    "Verif.Net.C34_fails_v6"
   ],
   "note": "proved for all networks made from addresses; networks made from text (which is what network literals compile to) do not check the length, which is undefined behaviour (witnesses)"
  },
  {
   "property": "C35",
   "status": "partial",
   "theorems": [
    "Verif.Net.C35_parse",
    "Verif.Net.C35_reject",
    "Verif.Net.C35_round_trip",
    "Verif.Net.C35_injective",
    "Verif.Net.C35_nul",
    "Verif.Net.C35_order",
    "Verif.Net.C35_fails_nul",
    "Verif.Net.C35_fails_undef"
   ],
   "note": "exact characterisation of accepted text and round trip for all ports with a protocol; a port without a protocol prints text that is rejected, and text behind a null character is ignored (witnesses)"
  },
  {
   "property": "C36",
   "status": "partial",
   "theorems": [
    "Verif.Net.C36_add_exact",
    "Verif.Net.C36_exact",
    "Verif.Net.C36_complete",
    "Verif.Net.C36_add_partial",
    "Verif.Net.C36_round_trip",
    "Verif.Net.C36_inverse",
    "Verif.Net.C36_diff",
    "Verif.Net.C36_mktime_partial",
    "Verif.Net.C36_fails_min",
    "Verif.Net.C36_fails_late",
    "Verif.Net.C36_fails_year"
   ],
   "note": "results are exact whenever one is given; adding the smallest interval is undefined behaviour and times from 2262 on are rejected although in range (witnesses). SafeInt's contract is assumed; floating point is not modelled"
  },
  {
   "property": "C37",
   "status": "partial",
   "theorems": [
    "Verif.Cont.C37_content_partial",
    "Verif.Cont.C37_results_partial",
    "Verif.Cont.C37_insert",
    "Verif.Cont.C37_iterator",
    "Verif.Cont.C37_iterators_equal",
    "Verif.Cont.C37_defined",
    "Verif.Cont.C37_fails_append_self",
    "Verif.Cont.C37_fails_assign_last",
    "Verif.Cont.C37_fails_for_loop"
   ],
   "note": "all programs over any number of vectors and iterators, except appending a vector to itself and assigning index 2^64-1, which are undefined behaviour (witnesses), and moving a vector to itself; references to elements, as used by for loops, dangle after the vector grows (witness). std::vector is modelled by its contract"
  },
  {
   "property": "C38",
   "status": "partial",
   "theorems": [
    "Verif.Cont.C38_results_partial",
    "Verif.Cont.C38_content",
    "Verif.Cont.C38_defined_partial",
    "Verif.Cont.lookup_set",
    "Verif.Cont.lookup_unset",
    "Verif.Cont.C38_fails_copy",
    "Verif.Cont.C38_fails_copy_destroyed",
    "Verif.Cont.C38_fails_move",
    "Verif.Cont.C38_fails_move_assign",
    "Verif.Cont.C38_fails_const_end"
   ],
   "note": "content: all programs. Iterators: all programs, except for iterators of maps and sets made by copying or moving another one or moved from, and increments of constant map iterators at the end; these are undefined behaviour (witnesses). Keys must be in a strict total order"
  },
  {
   "property": "C39",
   "status": "partial",
   "theorems": [
    "Verif.Fiber.C39_lifecycle",
    "Verif.Fiber.C39_faithful",
    "Verif.Fiber.C39_defined",
    "Verif.Fiber.C39_observers",
    "Verif.Fiber.C39_rejected",
    "Verif.Fiber.C39_started_once",
    "Verif.Fiber.C39_no_rerun",
    "Verif.Fiber.C39_raised_once",
    "Verif.Fiber.C39_abort_unstarted",
    "Verif.Fiber.C39_resume_aborted",
    "Verif.Fiber.C39_abort_twice",
    "Verif.Fiber.C39_run_twice",
    "Verif.Fiber.C39_overwrite_suspended",
    "Verif.Fiber.demo_accepted",
    "Verif.Fiber.demo_legal",
    "Verif.Fiber.spec_sharp"
   ],
   "note": "all programs and functions (arbitrary interaction trees, any nesting of resumables), as long as a resumable is started once, aborted only while suspended and not used after abort() except for looking at it and destroying it, and not overwritten while suspended; each of these exclusions is needed, a witness is proved. Switching stacks is taken as given"
  },
  {
   "property": "C40",
   "status": "partial",
   "theorems": [
    "Verif.Fiber.C40_counters",
    "Verif.Fiber.C40_max_attained",
    "Verif.Fiber.C40_no_leak",
    "Verif.Fiber.C40_prime",
    "Verif.Fiber.C40_reset_underflow",
    "Verif.Fiber.demo_stats",
    "Verif.Fiber.demo_legal"
   ],
   "note": "all programs that reset() only while no resumable holds a fiber; otherwise the counter of current fibers wraps around (witness proved). Stack sizes are not modelled"
  },
  {
   "property": "C46",
   "status": "partial",
   "theorems": [
    "Verif.Ref.C46_refines",
    "Verif.Ref.C46_memory_safe",
    "Verif.Ref.C46_no_leak",
    "Verif.Ref.C46_expired_iff",
    "Verif.Ref.C46_value_semantics",
    "Verif.Ref.C46_shared",
    "Verif.Ref.C46_demo",
    "Verif.Ref.C46_self_dangles",
    "Verif.Ref.C46_null_by_assignment_differs",
    "Verif.Ref.C46_move_assign_inconsistent",
    "Verif.Ref.C46_self_assign_not_owner"
   ],
   "note": "all histories; undefined only if a self wrapper (used inside methods) outlives its object (witness). Values holding references themselves are not modelled; whether a value reference that is null can be bound, and whether moving empties the source, depends on how it got there (witnesses)"
  },
  {
   "property": "C47",
   "status": "proved",
   "theorems": [
    "Verif.Grammar.C47_tables_terminate",
    "Verif.Grammar.C47_nullable_exact",
    "Verif.Grammar.C47_first_exact",
    "Verif.Grammar.C47_follow_exact",
    "Verif.Grammar.C47_lookAheads_exact",
    "Verif.Grammar.C47_built_grammar_wf",
    "Verif.Grammar.C47_built_grammar_tables"
   ],
   "note": "all grammars; that every unit referred to has been resolved when the grammar is finalized is an assumption about the builder"
  },
  {
   "property": "C48",
   "status": "partial",
   "theorems": [
    "Verif.Grammar.C48_accepted_is_sentence",
    "Verif.Grammar.C48_language_exact",
    "Verif.Grammar.C48_language_complete",
    "Verif.Grammar.C48_sentence_is_accepted",
    "Verif.Grammar.C48_longest_match",
    "Verif.Grammar.C48_finding_same_literal_twice",
    "Verif.Grammar.C48_finding_empty_alternative_at_end",
    "Verif.Grammar.C48_finding_counter_zero",
    "Verif.Grammar.C48_finding_subunit_follow",
    "Verif.Grammar.C48_prefix_tokens"
   ],
   "note": "sound for all programs and inputs; complete for programs where look-ahead tokens are literals none of which is a prefix of another one, conditions have an else part, and look-ahead decisions are not taken at the very end of a unit unless the empty alternative is explicit; there are no counted lists. Each of these exclusions is needed (witnesses: the parser rejects valid input). Regular expressions as tokens, sizes and synchronization are not modelled; input is complete"
  },
  {
   "property": "C49",
   "status": "partial",
   "theorems": [
    "Verif.Grammar.C49_check_exact",
    "Verif.Grammar.C49_switch_takes_announced_case",
    "Verif.Grammar.C49_switch_default_first",
    "Verif.Grammar.C49_switch_default_last",
    "Verif.Grammar.C49_switch_no_default",
    "Verif.Grammar.C49_switch_default_middle_takes_last",
    "Verif.Grammar.C49_finding_default_in_the_middle",
    "Verif.Grammar.C49_finding_missed_ambiguity",
    "Verif.Grammar.C49_finding_skip_not_compared"
   ],
   "note": "the check is exact for derivations and for tokens as dump() shows them; it misses that counted lists can be empty, and literals that differ by skip only (witnesses). Default first, last or absent: proved for all switches; a default between other cases is ignored in favour of the last case (proved for all switches)"
  },
  {
   "property": "C50",
   "status": "partial",
   "theorems": [
    "Verif.Text.C50_strict",
    "Verif.Text.C50_strict_throws",
    "Verif.Text.C50_lenient",
    "Verif.Text.C50_lenient_throws",
    "Verif.Text.C50_encode",
    "Verif.Text.C50_lossless",
    "Verif.Text.C50_forgiving_partial",
    "Verif.Text.C50_forgiving_fails",
    "Verif.Text.C50_forgiving_reach",
    "Verif.Text.C50_forgiving_witness",
    "Verif.Text.C50_ascii",
    "Verif.Text.C50_ascii_fails",
    "Verif.Text.lenient_unique",
    "Verif.Text.utf8_injective",
    "Verif.Text.next8_ok"
   ],
   "note": "exact for all data and strategies; that the forgiving strategies raise no error holds only for data that does not end within a sequence and has no sequences of surrogates or of numbers above 0x10FFFF (witnesses). utfcpp is a contract"
  },
  {
   "property": "C51",
   "status": "partial",
   "theorems": [
    "Verif.Text.C51_strict",
    "Verif.Text.C51_lossless",
    "Verif.Text.C51_encode",
    "Verif.Text.C51_round_trip_le",
    "Verif.Text.C51_round_trip_be_partial",
    "Verif.Text.C51_bom_le",
    "Verif.Text.C51_bom_fails",
    "Verif.Text.C51_odd",
    "Verif.Text.C51_output",
    "Verif.Text.C51_surrogate",
    "Verif.Text.C51_witness"
   ],
   "note": "exact for all data; a big-endian byte order mark makes the data be read as little-endian (witness), so big-endian texts beginning with U+FEFF or U+FFFE do not round-trip. What utfcpp does at an unpaired surrogate is a parameter of the model"
  },
  {
   "property": "C52",
   "status": "proved",
   "theorems": [
    "Verif.Text.C52_size",
    "Verif.Text.C52_size_strict",
    "Verif.Text.C52_size_lenient",
    "Verif.Text.C52_size_foreign",
    "Verif.Text.C52_case",
    "Verif.Text.C52_case_text",
    "Verif.Text.C52_case_strict",
    "Verif.Text.C52_witness"
   ],
   "note": "case mappings are a parameter (utf8proc); where decoding throws, size() lets the library's own exception out (witness)"
  },
  {
   "property": "C53",
   "status": "partial",
   "theorems": [
    "Verif.Text.C53_round_trip",
    "Verif.Text.C53_injective",
    "Verif.Text.C53_illegal",
    "Verif.Text.C53_control",
    "Verif.Text.C53_control_fails",
    "Verif.Text.C53_irreversible",
    "Verif.Text.C53_witness"
   ],
   "note": "reversibility: all well-formed texts and all styles not marked as irreversible. Only the nine control characters with a letter escape are escaped (witness)"
  },
  {
   "property": "C54",
   "status": "proved",
   "theorems": [
    "Verif.Text.C54_string",
    "Verif.Text.C54_bytes",
    "Verif.Text.C54_quoted_fails",
    "Verif.Text.body_unique"
   ],
   "note": "strings must be well-formed UTF-8"
  },
  {
   "property": "C55",
   "status": "partial",
   "theorems": [
    "Verif.Text.C55_bytes",
    "Verif.Text.C55_string_partial",
    "Verif.Text.C55_string_fails",
    "Verif.Text.C55_witness"
   ],
   "note": "bytes, stream and error constants: all. Strings: all well-formed ones without a NUL followed by an octal digit; both exclusions are needed (witnesses of silent miscompilation)"
  },
  {
   "property": "C56",
   "status": "proved",
   "theorems": [
    "Verif.Opt.flow_exact",
    "Verif.Opt.flow_kill",
    "Verif.Opt.flow_order_irrelevant",
    "Verif.Opt.flow_ends",
    "Verif.Opt.dataflow_exists",
    "Verif.Opt.covers_allNodes"
   ],
   "note": "the graph is the one the compiler builds, which lacks the edges of break, continue and of exceptions (see C57); aliases are not modelled"
  },
  {
   "property": "C57",
   "status": "partial",
   "theorems": [
    "Verif.Opt.dead_store_removal_partial",
    "Verif.Opt.dead_code_pass_partial",
    "Verif.Opt.exec_deterministic",
    "Verif.Opt.interp_exec",
    "Verif.Opt.goodBody_valid",
    "Verif.Opt.goodBody_tame",
    "Verif.Opt.goodBody_applies",
    "Verif.Opt.dce_break_unsound",
    "Verif.Opt.dce_try_unsound",
    "Verif.Opt.dce_global_unsound",
    "Verif.Opt.dce_inout_unsound",
    "Verif.Opt.dce_fault_unsound",
    "Verif.Opt.dce_self_unsound"
   ],
   "note": "proved for bodies without break, continue and try whose variables callees do not see, for runs that do not end with an exception of an operator or a callee; each exclusion is needed (witnesses of changed behaviour). Bodies are a core language with integers; struct fields and aliases are not modelled"
  },
  {
   "property": "C58",
   "status": "partial",
   "theorems": [
    "Verif.Opt.value_propagation_partial",
    "Verif.Opt.value_propagation_rounds_partial",
    "Verif.Opt.copyBody_tidy",
    "Verif.Opt.copyBody_applies",
    "Verif.Opt.copyBody_result",
    "Verif.Opt.vp_noInit_unsound",
    "Verif.Opt.vp_condGlobal_unsound",
    "Verif.Opt.vp_callee_unsound",
    "Verif.Opt.vp_save_unsound",
    "Verif.Opt.vp_break_unsound",
    "Verif.Opt.vp_try_unsound",
    "Verif.Opt.vp_head_unsound",
    "Verif.Opt.vp_for_unsound",
    "Verif.Opt.vp_return_unsound",
    "Verif.Opt.resolve_self_endless",
    "Verif.Opt.vp_self_copy_endless"
   ],
   "note": "proved for bodies without break, continue and try in which variables that are given a value are parameters or locals with initializer that callees do not see; each exclusion is needed (witnesses of changed behaviour). The pass does not end for `p = p; y = p` (proved for all recursion depths and steps). Constant folding and function returns are not covered"
  },
  {
   "property": "C59",
   "status": "partial",
   "theorems": [
    "Verif.Opt.unreachable_removal_partial",
    "Verif.Opt.unreachable_removal_ends",
    "Verif.Opt.dead_code_rounds_shrink",
    "Verif.Opt.jumpBody_applies",
    "Verif.Opt.unreach_try_unsound"
   ],
   "note": "all bodies without try, with break and continue, including runs ending with any exception; with try handlers that can run are removed (witness)"
  },
  {
   "property": "C60",
   "status": "partial",
   "theorems": [
    "Verif.Regex.C60_cache_unobservable",
    "Verif.Regex.C60_cache_unobservable_partial",
    "Verif.Regex.C60_cache_unobservable_single_partial",
    "Verif.Regex.C60_fails_for_slash_bar_slash",
    "Verif.Regex.C60_match_ids",
    "Verif.Regex.C60_match_ids_fail"
   ],
   "note": "all histories in which no pattern contains `|/`, or without sets (C60_cache_unobservable: all histories whose keys can be told apart); the exclusion is needed: /a/|/b/ as a set and the single pattern a/|/b share a cache entry (witness). IDs are cut to 16 bits (witness)"
  },
  {
   "property": "C61",
   "status": "partial",
   "theorems": [
    "Verif.Regex.C61_incremental_matching_partial",
    "Verif.Regex.C61_reuse_is_detected",
    "Verif.Regex.C61_copy_is_independent_partial",
    "Verif.Regex.C61_fails_for_empty_end",
    "Verif.Regex.C61_fails_for_inner_assertion",
    "Verif.Regex.C61_fails_for_copies",
    "Verif.Regex.C61_copy_of_null_is_undefined",
    "Verif.Parse.regex_refines",
    "Verif.Parse.C13_regexp_depends_on_chunking"
   ],
   "note": "expressions without inner assertions; if the last piece is empty, expressions that need not go back (`[0-9]+`, not `abc(123)?`); both exclusions are needed (witnesses). The engine justrx is a contract (automaton, longest match); regex_refines: fields of units, for all schedules of the host"
  },
  {
   "property": "C62",
   "status": "partial",
   "theorems": [
    "Verif.Regex.C62_match_partial",
    "Verif.Regex.C62_match_empty",
    "Verif.Regex.C62_find_partial"
   ],
   "note": "expressions without inner assertions; on empty data match always gives -1. justrx is a contract"
  },
  {
   "property": "C63",
   "status": "partial",
   "theorems": [
    "Verif.Sync.C63_recovers_partial",
    "Verif.Sync.C63_recoverable",
    "Verif.Sync.C63_recovers_untrimmed_partial",
    "Verif.Sync.C63_recovers_or_invalid",
    "Verif.Sync.C63_chunking_is_unobservable_partial",
    "Verif.Sync.C63_clean_input_unaffected",
    "Verif.Sync.C63_reject_means_no_recovery",
    "Verif.Sync.ideal_synced",
    "Verif.Sync.C63_example",
    "Verif.Sync.C63_spurious_synchronizations",
    "Verif.Sync.C63_fails_for_late_errors"
   ],
   "note": "elements: a literal, then literals, integers, bytes &size (C63_recovers_untrimmed_partial: any grammar of C13 where nothing is trimmed); no gaps. False for elements that fail in a &requires or a hook when nothing more has arrived (witness: InvalidIterator; C63_recovers_or_invalid: nothing else can go wrong). The hooks %synced/%confirmed may run at further places (witness); values and positions are as expected"
  },
  {
   "property": "C64",
   "status": "partial",
   "theorems": [
    "Verif.Sync.C64_counted_function_of_data_partial",
    "Verif.Sync.C64_chunking_is_unobservable_partial",
    "Verif.Sync.C64_exactly_n_rounds",
    "Verif.Sync.C64_skipped_bytes_count"
   ],
   "note": "same elements as C63; C64_exactly_n_rounds also for elements that fail late. A skipped byte may count as an attempt (witness: an intact element is lost)"
  },
  {
   "property": "C65",
   "status": "partial",
   "theorems": [
    "Verif.Sync.C65_parses_as_specified_partial",
    "Verif.Sync.C65_ends_partial",
    "Verif.Sync.C65_chunking_is_unobservable_partial",
    "Verif.Sync.C65_resumes_at_literal",
    "Verif.Sync.C65_success_is_confirmed",
    "Verif.Sync.C65_no_error_no_change",
    "Verif.Sync.C65_resumes_at_first",
    "Verif.Sync.C65_example",
    "Verif.Sync.C65_adjacent_literal_is_missed",
    "Verif.Sync.C65_reject_in_synced_is_final",
    "Verif.Sync.C65_fails_for_subunits"
   ],
   "note": "one marked literal; fields: literals, integers, bytes &size, computed values, &requires, hooks that confirm or reject; where nothing is trimmed also sub-units of these. False for a sub-unit that fails having consumed input when trimming (witness: InvalidIterator). A literal exactly where a trial failed is missed (witness)"
  },
  {
   "property": "C66",
   "status": "partial",
   "theorems": [
    "Verif.Driver.C66_setup_succeeds",
    "Verif.Driver.C66_found_is_the_only_one",
    "Verif.Driver.C66_unknown_name",
    "Verif.Driver.C66_ambiguous_name",
    "Verif.Driver.C66_lookup_finds_partial",
    "Verif.Driver.C66_no_parsers",
    "Verif.Driver.C66_default_exact",
    "Verif.Driver.C66_default_partial",
    "Verif.Driver.C66_init_once",
    "Verif.Driver.C66_mime_parse",
    "Verif.Driver.C66_mime_round_trip",
    "Verif.Driver.C66_connect_mime_partial",
    "Verif.Driver.C66_fails_three_public_parsers",
    "Verif.Driver.C66_fails_name_declared_twice",
    "Verif.Driver.C66_fails_scope_does_not_select",
    "Verif.Driver.C66_fails_alias_registered_twice",
    "Verif.Driver.C66_fails_connect_wildcard"
   ],
   "note": "all sets of parsers and aliases; a unique holder of a name is found if it is entered once (a name declared or registered twice is ambiguous with itself) and the scope fits; the default is right for up to two public parsers (three: the third becomes the default); connect_mime_type for types without wildcards (with wildcards a parser is connected several times). Each exclusion has a witness"
  },
  {
   "property": "C67",
   "status": "partial",
   "theorems": [
    "Verif.Driver.C67_host_sees_meaning_partial",
    "Verif.Driver.C67_input_in_pieces_partial",
    "Verif.Driver.C67_cutting_is_unobservable_partial",
    "Verif.Driver.C67_blocks_are_independent_partial",
    "Verif.Driver.C67_only_last_chunk_borrows",
    "Verif.Driver.C67_lent_buffers_are_returned",
    "Verif.Driver.C67_closed_input_is_settled",
    "Verif.Driver.C67_process_input_partial",
    "Verif.Driver.C67_process_input_finishes",
    "Verif.Driver.C67_fails_large_increment",
    "Verif.Driver.C67_fails_unusable_blocks",
    "Verif.Driver.C67_fails_finished_after_error"
   ],
   "note": "sessions: all histories of calls for grammars covered by C13 (Sound); buffers, and never waiting after the end: all grammars. Excluded, each with a witness: increments above 4096 with input above 4096 bytes (buffer overflow), block mode with a unit that requires arguments (null pointer called). After a failed block isFinished() is true although blocks are still parsed (witness). Unit contexts and gaps are not modelled"
  },
  {
   "property": "C68",
   "status": "partial",
   "theorems": [
    "Verif.Driver.C68_read_back",
    "Verif.Driver.C68_text_injective",
    "Verif.Driver.C68_truncated_data",
    "Verif.Driver.C68_parties_are_independent",
    "Verif.Driver.C68_failure_has_a_party",
    "Verif.Driver.C68_flow_gets_its_data",
    "Verif.Driver.C68_flow_means_its_data_partial",
    "Verif.Driver.C68_connection_gets_its_data",
    "Verif.Driver.C68_no_dangling",
    "Verif.Driver.C68_fails_size_suffix",
    "Verif.Driver.C68_fails_size_throws",
    "Verif.Driver.C68_fails_flow_of_connection_ended",
    "Verif.Driver.C68_fails_shared_flow",
    "Verif.Driver.C68_fails_unknown_connection_erases",
    "Verif.Driver.C68_fails_unknown_flow_continues"
   ],
   "note": "all batches and arbitrary parsers (with contexts); the meaning of a flow's data (C68_flow_means_its_data_partial) for grammars covered by C13. A released flow is used if a flow of a connection is ended by itself or shared by two connections (witnesses), so C68_no_dangling requires that IDs are used properly. Sizes are read with std::stoul: 12abc and -1 are accepted, x ends the process (witnesses). Debug output and statistics are not modelled"
  },
  {
   "property": "C69",
   "status": "partial",
   "theorems": [
    "Verif.Driver.C69_extract",
    "Verif.Driver.C69_extracted_runs_the_same",
    "Verif.Driver.C69_extract_and_run",
    "Verif.Driver.C69_fails_gap",
    "Verif.Driver.C69_fails_side_of_connection"
   ],
   "note": "all batches without gaps (the tool rejects @gap: witness) in which the IDs of what is asked for are not used for something else; asking for one side of a connection gives data without a beginning (witness)"
  },
  {
   "property": "C70",
   "status": "partial",
   "theorems": [
    "Verif.Filter.C70_filtered",
    "Verif.Filter.C70_transparent_partial",
    "Verif.Filter.C70_chunking_is_unobservable_partial",
    "Verif.Filter.C70_same_as_filtered_input_partial",
    "Verif.Filter.C70_results_are_final_partial",
    "Verif.Filter.C70_no_undefined_behaviour",
    "Verif.Filter.C70_finished_filters_rest",
    "Verif.Filter.throughAll_append",
    "Verif.Filter.wire_case",
    "Verif.Filter.C70_fails_for_failing_filters",
    "Verif.Filter.C70_fails_for_strict_messages",
    "Verif.Filter.C70_fails_for_piecewise_hooks"
   ],
   "note": "all chains of filters whose grammars are those of C13 and whose hooks for chunks do not tell pieces apart (needed: witness). Transparent if no filter fails; if one fails, the exact alternatives are in C70_filtered: the exception reaches the unit before data forwarded in the same run of the filter, so the result depends on the cuts (witnesses). Not modelled: filters of filters, exceptions of filters caught by a &try of the unit, filters on units within units"
  },
  {
   "property": "C71",
   "status": "partial",
   "theorems": [
    "Verif.Filter.C71_without_filters",
    "Verif.Filter.C71_close_disconnects",
    "Verif.Filter.C71_appended_data_is_filtered_partial",
    "Verif.Filter.C71_reassembled_data_is_filtered_partial",
    "Verif.Filter.C71_any_order_partial",
    "Verif.Filter.steady_flip",
    "Verif.Filter.unpack_case",
    "Verif.Filter.C71_fails_with_sequence_numbers",
    "Verif.Filter.C71_fails_after_end_of_filter",
    "Verif.Filter.C71_fails_at_close",
    "Verif.Filter.C71_fails_for_late_filters",
    "Verif.Filter.C71_failing_filter"
   ],
   "note": "no filters: all histories. Data appended without sequence numbers: all filters of C70 that are not finished and have not failed. Any history with reassembly: filters that forward something for all data they get. Otherwise it is false, each with a witness: with sequence numbers everything after a write for which the filters forward nothing is held back for ever; writing after a filter has finished throws a C++ logic_error; closing the sink does not signal the end of the data to the filters, so that what they hold back is lost; a filter connected late is accepted if nothing was forwarded before, and then all writes throw"
  },
  {
   "property": "C72",
   "status": "partial",
   "theorems": [
    "Verif.Opt.move_last_uses_partial",
    "Verif.Opt.liveness_exact",
    "Verif.Opt.liveness_ends",
    "Verif.Opt.moved_iff_last_use",
    "Verif.Opt.msem_moving",
    "Verif.Opt.mvGoodBody_valid",
    "Verif.Opt.mvGoodBody_noMoves",
    "Verif.Opt.mvGoodBody_applies",
    "Verif.Opt.mvGoodBody_conclusion",
    "Verif.Opt.move_break_unsound",
    "Verif.Opt.move_try_unsound"
   ],
   "note": "all bodies without break, continue and try, all ways a run can end, all orders of the nodes; callees do not access the locals of the body. With break or try a variable is moved although it is read later (witnesses): the graph lacks those edges. Not modelled: aliases, calls with several arguments, moves present before"
  },
  {
   "property": "C73",
   "status": "partial",
   "theorems": [
    "Verif.Front.keeps_what_counts",
    "Verif.Front.accepted_iff_partial",
    "Verif.Front.accepted_closed_iff",
    "Verif.Front.counts_unique",
    "Verif.Front.parseIf_iff",
    "Verif.Front.sample_counts",
    "Verif.Front.sample_plain",
    "Verif.Front.C73_fails_unclosed",
    "Verif.Front.C73_fails_second_else",
    "Verif.Front.C73_fails_negation",
    "Verif.Front.C73_fails_number",
    "Verif.Front.C73_fails_large_number",
    "Verif.Front.comment_after_endif"
   ],
   "note": "all files and constants: documents keep the text that counts; a file is accepted with that result exactly if it is a document, but one whose conditionals may be left open at the end of the file and may have several @else: those are not reported (witnesses). Excluded: numbers +, -, 2147483648, and words of more than 255 characters (witnesses); !X without a space is an undefined identifier (witness). How text is cut into tokens is not modelled"
  },
  {
   "property": "C74",
   "status": "proved",
   "theorems": [
    "Verif.Front.Hooks.C74_hook_runs_in_order",
    "Verif.Front.Hooks.C74_any_order",
    "Verif.Front.Hooks.C74_order_of_modules_irrelevant",
    "Verif.Front.Hooks.C74_equal_priorities",
    "Verif.Front.Hooks.C74_exception_ends",
    "Verif.Front.Hooks.sample_modules_distinct"
   ],
   "note": "all modules; the C++ names of the implementations within a module are taken to be distinct (they contain a 64-bit hash of the source location). std::ranges::sort is its contract; with equal priorities any order is possible (witness), as documented"
  },
  {
   "property": "C75",
   "status": "partial",
   "theorems": [
    "Verif.Front.Fold.folding_keeps_meaning_partial",
    "Verif.Front.Fold.fold_sound",
    "Verif.Front.Fold.values_kept",
    "Verif.Front.Fold.meaning_kept",
    "Verif.Front.Fold.fold_ends",
    "Verif.Front.Fold.accepted_same",
    "Verif.Front.Fold.compiles_unique",
    "Verif.Front.Fold.Witness.sum_plain",
    "Verif.Front.Fold.Witness.sum_compiles",
    "Verif.Front.Fold.Witness.overflow_lost",
    "Verif.Front.Fold.Witness.negation_lost",
    "Verif.Front.Fold.Witness.undefined_negation",
    "Verif.Front.Fold.Witness.unused_rejected"
   ],
   "note": "all expressions, all styles, all operators (monotone in their operands). Values are always kept; exceptions, and acceptance, if no constant part overflows. Otherwise false: uint16(int8(300)) is compiled to 300, as only the last constant is validated; -(-int8(-128)) to -128; -(-9223372036854775808) is undefined behaviour of the compiler (witnesses)"
  },
  {
   "property": "C76",
   "status": "partial",
   "theorems": [
    "Verif.Opt.Flatten.flatten_keeps_binding_partial",
    "Verif.Opt.Flatten.flatten_ends",
    "Verif.Opt.Flatten.flatten_bound",
    "Verif.Opt.Flatten.flatten_decls",
    "Verif.Opt.Flatten.step_exists",
    "Verif.Opt.Flatten.pick_room",
    "Verif.Opt.Flatten.test_case",
    "Verif.Opt.Flatten.test_run",
    "Verif.Opt.Flatten.C76_fails_shadowed_outside_parent"
   ],
   "note": "all function bodies and orders in which no variable of a block to be flattened has the name of one visible from outside the parent block; otherwise it is false, as only the scope of the parent block is searched: a block within an if or while that shadows a parameter makes later references find the wrong variable (witness). The assignments of default values at the end of a flattened block are not modelled"
  },
  {
   "property": "C77",
   "status": "partial",
   "theorems": [
    "Verif.Front.Types.same_iff",
    "Verif.Front.Types.same_open",
    "Verif.Front.Types.same_refl",
    "Verif.Front.Types.same_symm",
    "Verif.Front.Types.same_trans",
    "Verif.Front.Types.sameQualified_iff",
    "Verif.Front.Types.unify_facts",
    "Verif.Front.Types.same_unify",
    "Verif.Front.Types.unify_sets",
    "Verif.Front.Types.wide_same",
    "Verif.Front.Types.same_ignores",
    "Verif.Front.Types.same_any",
    "Verif.Front.Types.same_library",
    "Verif.Front.Types.same_stale"
   ],
   "note": "all types; names of C++ types must not contain a closing parenthesis (witness: tuples of one and of two library types are the same), and a unification set once is not updated when the type changes (hypothesis Current, preserved by unification: unify_facts; witness for a stale one). What does not count, and `any`: witnesses same_ignores, same_any. Not modelled: recursive types, operand lists in signatures of built-in operators, sameExceptForConstness"
  },
  {
   "property": "C78",
   "status": "partial",
   "theorems": [
    "Verif.Front.Names.normalize_valid",
    "Verif.Front.Names.normalize_eq_iff",
    "Verif.Front.Names.cxxID_eq_iff",
    "Verif.Front.Names.toIdentifier_valid",
    "Verif.Front.Names.toIdentifier_id",
    "Verif.Front.Names.toIdentifier_ub",
    "Verif.Front.Names.uniquer_fresh",
    "Verif.Front.Names.uniquer_unique",
    "Verif.Front.Names.uniquer_nodup",
    "Verif.Front.Names.normalize_examples",
    "Verif.Front.Names.normalize_clash",
    "Verif.Front.Names.normalize_missing",
    "Verif.Front.Names.toIdentifier_clash",
    "Verif.Front.Names.typeInfo_clash",
    "Verif.Front.Names.uniquer_examples"
   ],
   "note": "all identifiers of letters, digits and underscores. Different identifiers stay different but for exactly the pairs of Clash (while/while_, _Foo/_r_Foo: witnesses); throw and try are not in the list of keywords (they are keywords of the scanners, too). toIdentifier is not injective, so that the variables for type information of two types can coincide (witness), and undefined for text with non-ASCII characters (toIdentifier_ub)"
  },
  {
   "property": "C79",
   "status": "partial",
   "theorems": [
    "Verif.Front.Coerce.conversions_keep_values",
    "Verif.Front.Coerce.converted_type_partial",
    "Verif.Front.Coerce.only_bool_outside_conditions",
    "Verif.Front.Coerce.int_types_iff",
    "Verif.Front.Coerce.int_expression_iff",
    "Verif.Front.Coerce.int_constant_iff",
    "Verif.Front.Coerce.real_constant_iff",
    "Verif.Front.Coerce.int_to_real_iff",
    "Verif.Front.Coerce.toDouble_exact",
    "Verif.Front.Coerce.coerce_enough",
    "Verif.Front.Coerce.gen_ok",
    "Verif.Front.Coerce.Wt.value",
    "Verif.Front.Coerce.fits_true",
    "Verif.Front.Coerce.fits_false",
    "Verif.Front.Coerce.saturating_cast_changes_value",
    "Verif.Front.Coerce.smallest_int64_rejected",
    "Verif.Front.Coerce.constant_keeps_type",
    "Verif.Front.Coerce.error_lost",
    "Verif.Front.Coerce.error_lost'",
    "Verif.Front.Coerce.null_is_set"
   ],
   "note": "all expressions and types of the modelled kinds, provided optionals and results do not directly contain others (witnesses: a failed result<T> becomes an unset optional<result<T>>, Null a set optional<optional<T>>) and the undefined cast of 2^63 to int64_t does not saturate (witness: 9223372036854775807 becomes 9223372036854775808.0). -2^63 is not accepted for a real (witness). A constant converted to 64 bits keeps its own type (converted_type_partial; witness). Not modelled: structs, units, bitfields, bytes, references, unions, functions, wildcards, constness"
  },
  {
   "property": "C80",
   "status": "partial",
   "theorems": [
    "Verif.Front.Ctl.body_compiled",
    "Verif.Front.Ctl.break_compiled",
    "Verif.Front.Ctl.ends_together",
    "Verif.Front.Ctl.rounds_enough",
    "Verif.Front.Ctl.genB_run",
    "Verif.Front.Ctl.src_keeps",
    "Verif.Front.Ctl.example_ok",
    "Verif.Front.Ctl.example_runs",
    "Verif.Front.Ctl.lone_declaration",
    "Verif.Front.Ctl.own_initial_value",
    "Verif.Front.Ctl.break_with_else",
    "Verif.Front.Ctl.continue_in_else",
    "Verif.Front.Ctl.case_of_other_type",
    "Verif.Front.Ctl.only_default"
   ],
   "note": "all bodies in which no initial value mentions its own variable, no while with an else has a break or a continue in the else part, constants of a switch have the type of its control expression and a switch that is not for integers has a case; false otherwise (a witness for each). A block that is a lone declaration has no scope if code is generated without locations (witness lone_declaration; with locations, the default, it has). Not modelled: yield, assertions that expect exceptions, rethrowing, destructors, duplicate case labels (rejected by the C++ compiler), gotos other than to a label behind the loop"
  },
  {
   "property": "C81",
   "status": "partial",
   "theorems": [
    "Verif.Front.Enum.enum_accepted",
    "Verif.Front.Enum.enum_values",
    "Verif.Front.Enum.hasLabel_iff",
    "Verif.Front.Enum.print_iff",
    "Verif.Front.Enum.conversions",
    "Verif.Front.Enum.sample_fits",
    "Verif.Front.Enum.sample_values",
    "Verif.Front.Enum.large_values",
    "Verif.Front.Enum.largest_value",
    "Verif.Front.Enum.unknown_false"
   ],
   "note": "all lists of labels whose values, and those assigned above them, are below 2^31 - 1. Values are passed as int: others are changed, negative or rejected, and the largest int is undefined behaviour of the compiler (witnesses). Labels are taken to have different names"
  },
  {
   "property": "C82",
   "status": "partial",
   "theorems": [
    "Verif.Front.Scope.names_resolve_partial",
    "Verif.Front.Scope.validated_iff",
    "Verif.Front.Scope.find_module",
    "Verif.Front.Scope.push",
    "Verif.Front.Scope.body_ok",
    "Verif.Front.Scope.body_means",
    "Verif.Front.Scope.private_is_found",
    "Verif.Front.Scope.never_external",
    "Verif.Front.Scope.own_value",
    "Verif.Front.Scope.own_sequence",
    "Verif.Front.Scope.redefinitions"
   ],
   "note": "all modules, contexts and bodies in which no initial value, sequence of a loop or input of a comprehension mentions the variable it belongs to (witnesses own_value, own_sequence: they find the new variable). That private declarations of other modules cannot be used is false: the check never fires, as imports enter scopes as modules and never as imported modules (never_external; witness private_is_found). Not modelled: overloaded functions, IDs hidden with ~, the marker for $$, fully qualified IDs set by the optimizer"
  },
  {
   "property": "C83",
   "status": "partial",
   "theorems": [
    "Verif.Opt.Whole.dead_code_static_partial",
    "Verif.Opt.Whole.dead_code_static_plain",
    "Verif.Opt.Whole.kept_stays",
    "Verif.Opt.Whole.removed_only",
    "Verif.Opt.Whole.called_stays",
    "Verif.Opt.Whole.closed_iff",
    "Verif.Opt.Whole.closed_of_no_constants",
    "Verif.Opt.Whole.dead_code_static_ends",
    "Verif.Opt.Whole.plain_of_effects",
    "Verif.Opt.Whole.harmless_of_total",
    "Verif.Opt.Whole.Does.unique",
    "Verif.Opt.Whole.Witness.prog_kept",
    "Verif.Opt.Whole.Witness.prog_smaller",
    "Verif.Opt.Whole.Witness.prog_result",
    "Verif.Opt.Whole.Witness.hook_call_left",
    "Verif.Opt.Whole.Witness.hook_call_left_forever",
    "Verif.Opt.Whole.Witness.hook_call_skipped",
    "Verif.Opt.Whole.Witness.hook_call_has_no_outcome",
    "Verif.Opt.Whole.Witness.argument_dropped",
    "Verif.Opt.Whole.Witness.exception_dropped",
    "Verif.Opt.Whole.Witness.temporary_dropped"
   ],
   "note": "all programs, meanings of operators and external functions, functions, arguments and states, provided every function still called is still declared (equivalent to a condition on the hooks still called: closed_iff; true without constant conditions: closed_of_no_constants), arguments of calls of hooks without implementation have no effects, expression statements of constants, variables and operators do not throw, and no argument is a ternary operator with a constant condition that picks a variable. Each condition is needed (witnesses hook_call_left, hook_call_skipped, argument_dropped, exception_dropped, temporary_dropped). Not modelled: types, fields other than methods, features, structs and references, switch, for, several handlers of a try"
  },
  {
   "property": "C84",
   "status": "partial",
   "theorems": [
    "Verif.Opt.Whole.optimize_parameters_partial",
    "Verif.Opt.Whole.optimize_parameters_plain",
    "Verif.Opt.Whole.optimize_compiles",
    "Verif.Opt.Whole.optimize_calls",
    "Verif.Opt.Whole.unused_unmentioned",
    "Verif.Opt.Whole.unused_fixed",
    "Verif.Opt.Whole.writes_changed_b",
    "Verif.Opt.Whole.Witness.good_same",
    "Verif.Opt.Whole.Witness.good_compiles",
    "Verif.Opt.Whole.Witness.good_kinds",
    "Verif.Opt.Whole.Witness.good_runs",
    "Verif.Opt.Whole.Witness.hidden_breaks",
    "Verif.Opt.Whole.Witness.hooks_break",
    "Verif.Opt.Whole.Witness.nested_breaks",
    "Verif.Opt.Whole.Witness.alias_breaks",
    "Verif.Opt.Whole.Witness.effects_break",
    "Verif.Opt.Whole.Witness.function_call_kept"
   ],
   "note": "all programs, meanings of operators and external functions, functions that may not be changed, arguments and states, provided the generated code compiles before and after (proved from conditions on the program before: optimize_compiles), arguments for parameters no implementation mentions are constants, variables and operators that do not throw, and a variable passed for a copy parameter that is not changed is one of the caller itself and not changed by the same call. Each condition is needed: x++ in a declaration, return or source of an assignment is not seen (hidden_breaks; that it is all the analysis misses: writes_changed_b), hooks with several implementations get different kinds (hooks_break), calls nested in arguments keep arguments (nested_breaks), an in parameter is an alias of a variable that changes (alias_breaks), arguments with effects disappear (effects_break). Not modelled: default values of parameters, parameters of units and structs, containers and references"
  },
  {
   "property": "C85",
   "status": "partial",
   "theorems": [
    "Verif.Opt.Ret.propagate_keeps_partial",
    "Verif.Opt.Ret.Witness.pGood_good",
    "Verif.Opt.Ret.Witness.pGood_changed",
    "Verif.Opt.Ret.Witness.pGood_gives",
    "Verif.Opt.Ret.Witness.pGood_meaning",
    "Verif.Opt.Ret.Witness.pGood_same",
    "Verif.Opt.Ret.Witness.field_lost",
    "Verif.Opt.Ret.Witness.twice_lost",
    "Verif.Opt.Ret.Witness.both_lost",
    "Verif.Opt.Ret.Witness.glob_lost",
    "Verif.Opt.Ret.Witness.alias_lost",
    "Verif.Opt.Ret.Witness.passed_lost",
    "Verif.Opt.Ret.Witness.shadow_lost",
    "Verif.Opt.Ret.Witness.swap_lost",
    "Verif.Opt.Ret.Witness.tail_lost"
   ],
   "note": "all programs, meanings of operators and external functions, functions that may not be changed, arguments and states, provided the program satisfies Good: it compiles, no variable has the ID of a parameter, functions with tuples as results are not called in a return, a copy parameter that is always returned is not passed on for an inout parameter (and no parameter always returned is, within a returned tuple), and where such a parameter comes back to the variable it was passed from, all targets are different variables and this one is a variable of the caller itself, passed once and not changed by evaluating arguments. All but the one about evaluation within one expression are needed: the pass changes what programs do otherwise (nine witnesses, from a lost assignment to a field to swapped arguments of a tail call). Missing: tail calls that are harmless. Not modelled: assignments from groupings with temporaries, coerced tuples"
  },
  {
   "property": "C86",
   "status": "partial",
   "theorems": [
    "Verif.Front.Overload.call_is_best",
    "Verif.Front.Overload.best_is_called",
    "Verif.Front.Overload.nothing_iff",
    "Verif.Front.Overload.ambiguous_iff",
    "Verif.Front.Overload.order_irrelevant",
    "Verif.Front.Overload.new_overload_harmless",
    "Verif.Front.Overload.parameters_get",
    "Verif.Front.Overload.valid_overloads_told_apart_partial",
    "Verif.Front.Overload.settled_fits",
    "Verif.Front.Overload.settled_direct",
    "Verif.Front.Overload.settled_all_known",
    "Verif.Front.Overload.optional_no_worse",
    "Verif.Front.Overload.kinds_no_help",
    "Verif.Front.Overload.defaults_overlap",
    "Verif.Front.Overload.null_is_default",
    "Verif.Front.Overload.takes_over",
    "Verif.Front.Overload.late_overload",
    "Verif.Front.Overload.by_value"
   ],
   "note": "The choice, its independence of the order and what the parameters get are proved for all functions and arguments of the types modelled for C79. Partial: that accepted overloads can be told apart is proved for in parameters without defaults, optionals and results, and is false beyond (optional_no_worse, kinds_no_help, defaults_overlap); an overload whose types become known late is ignored (late_overload). Hooks, methods, operators, references, any and auto are left out."
  },
  {
   "property": "C87",
   "status": "partial",
   "theorems": [
    "Verif.Front.Emit.emit_groups_partial",
    "Verif.Front.Emit.cxx_unique",
    "Verif.Front.Emit.emit_sound",
    "Verif.Front.Emit.parenthesized_groups",
    "Verif.Front.Emit.bool_bit_misgrouped",
    "Verif.Front.Emit.bool_bit_wrong",
    "Verif.Front.Emit.assign_misgrouped",
    "Verif.Front.Emit.assign_wrong",
    "Verif.Front.Emit.size_misgrouped",
    "Verif.Front.Emit.in_misgrouped",
    "Verif.Front.Emit.swap_misgrouped",
    "Verif.Front.Emit.ternary_left"
   ],
   "note": "Proved for all expressions the parser can build except those with the operands listed in the property, for which the claim is false of the code: bool_bit_misgrouped, assign_misgrouped, size_misgrouped, in_misgrouped and swap_misgrouped say what C++ reads instead, for all operands; parenthesized_groups has no exception. Left out: list comprehensions, groupings with a local variable, tuple assignments, constants written with a sign (reals), and order of evaluation."
  },
  {
   "property": "C88",
   "status": "partial",
   "theorems": [
    "Verif.Opt.Fields.pass_keeps_partial",
    "Verif.Opt.Fields.rounds_keep_partial",
    "Verif.Opt.Fields.gone_not_mentioned",
    "Verif.Opt.Fields.gone_only_untouched",
    "Verif.Opt.Fields.kept_as_declared",
    "Verif.Opt.Fields.unread_gone",
    "Verif.Opt.Fields.Examples.good_safe",
    "Verif.Opt.Fields.Examples.printing_changes",
    "Verif.Opt.Fields.Examples.base_effect_lost",
    "Verif.Opt.Fields.Examples.base_effect_lost_read",
    "Verif.Opt.Fields.Examples.default_effect_lost",
    "Verif.Opt.Fields.Examples.tuple_order_changes",
    "Verif.Opt.Fields.Examples.init_exception_lost",
    "Verif.Opt.Fields.Examples.null_not_noticed"
   ],
   "note": "gone_not_mentioned, gone_only_untouched, kept_as_declared and unread_gone hold for all programs. That behaviour is kept is proved for all programs in which removed accesses are made on variables, dropped initializers, tuple elements and defaults only compute values, and no struct that loses fields is printed, up to runs through a null reference; without these conditions it is false (the Examples). One struct type; no exception handlers, no tuple assignments from a tuple-valued expression, no copies or comparisons of structs."
  },
  {
   "property": "C89",
   "status": "partial",
   "theorems": [
    "Verif.Opt.Peep.pass_keeps_partial",
    "Verif.Opt.Peep.rounds_keep_partial",
    "Verif.Opt.Peep.trX_same",
    "Verif.Opt.Peep.rethrow_same",
    "Verif.Opt.Peep.exGood_ok",
    "Verif.Opt.Peep.stale_error_differs"
   ],
   "note": "Proved for all function bodies, operators, hooks, states and numbers of rounds, provided the struct's error field is looked at (by hooks, too) only after it was set and before it is taken back in the same or a nested block; without this it is false (stale_error_differs). Expressions and catch blocks need no condition (trX_same, rethrow_same). Values are integers; groupings have one expression besides the local; default values and coercions in groupings are left out."
  },
  {
   "property": "C90",
   "status": "partial",
   "theorems": [
    "Verif.Opt.Feat.pass_keeps_partial",
    "Verif.Opt.Feat.stays_on_iff",
    "Verif.Opt.Feat.exNone_ok",
    "Verif.Opt.Feat.exOffset_ok",
    "Verif.Opt.Feat.exMove_ok",
    "Verif.Opt.Feat.else_branch_differs",
    "Verif.Opt.Feat.either_feature_differs",
    "Verif.Opt.Feat.effect_differs",
    "Verif.Opt.Feat.mixed_condition_differs"
   ],
   "note": "stays_on_iff holds for all programs. That behaviour is kept is proved for all programs whose guarded code keeps to what its features are for (okS), a condition met by the code generated around hooks and fields (exNone_ok, exOffset_ok, exMove_ok) and needed (else_branch_differs, either_feature_differs, effect_differs, mixed_condition_differs). One type and one value of it; expressions do not throw; the functions called are external; a feature off from the start must not be used outside of conditions on it."
  },
  {
   "property": "C91",
   "status": "proved",
   "theorems": [
    "Verif.Ref.Intrusive.pointers_safe",
    "Verif.Ref.Intrusive.step_points",
    "Verif.Ref.Intrusive.story_legal",
    "Verif.Ref.Intrusive.story_safe",
    "Verif.Ref.Intrusive.story_end",
    "Verif.Ref.Intrusive.adopted_twice",
    "Verif.Ref.Intrusive.never_adopted"
   ],
   "note": "pointers_safe is for the state at the end of any legal history, hence after every operation. The rule on adopting is needed (adopted_twice), and a released reference that nobody adopts keeps its object (never_adopted). Objects have no intrusive pointers as members, as is the case for the chunks of streams, the only user of the class."
  },
  {
   "property": "C92",
   "status": "proved",
   "theorems": [
    "Verif.Prof.measured",
    "Verif.Prof.measured_time",
    "Verif.Prof.recursion_measured",
    "Verif.Prof.overlap_wrong",
    "Verif.Prof.chain_wrong"
   ],
   "note": "measured holds for all histories; measured_time needs nesting, which overlap_wrong and chain_wrong show. Names are not empty; the report and the total at exit are not modelled."
  },
  {
   "property": "C93",
   "status": "proved",
   "theorems": [
    "Verif.Boot.startup",
    "Verif.Boot.post_legal",
    "Verif.Boot.startup_case",
    "Verif.Boot.late_module",
    "Verif.Boot.new_context_resets",
    "Verif.Boot.new_context_resets_all"
   ],
   "note": "For modules compiled with dynamic globals and one context, the only one the code base creates. A module is known by its name and scope; the code modules run at initialization is taken not to register modules. Shutting down with done() is not modelled."
  }
 ]
}