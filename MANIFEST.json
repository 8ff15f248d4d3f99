{
 "claims": [
  {
   "property": "C01",
   "status": "proved",
   "theorems": [
    "R53.Name.c01_from_wire_safe"
   ],
   "note": ""
  },
  {
   "property": "C02",
   "status": "proved",
   "theorems": [
    "R53.Name.c02_from_wire_iff",
    "R53.Name.c02_unique"
   ],
   "note": "against the inductive relation Decodes (Spec/Name.lean)"
  },
  {
   "property": "C03",
   "status": "proved",
   "theorems": [
    "R53.Name.c03_round_trip"
   ],
   "note": ""
  },
  {
   "property": "C04",
   "status": "partial",
   "theorems": [
    "R53.Name.c04_new_limits_partial",
    "R53.Name.c04_too_long",
    "R53.Name.c04_exact"
   ],
   "note": "never panics and all limits proved, except that a text ending in \\\\. can give 256 octets: c04_too_long; nothing else can (c04_exact)"
  },
  {
   "property": "C05",
   "status": "partial",
   "theorems": [
    "R53.Name.c05_print_parse_partial",
    "R53.Name.c05_violated",
    "R53.c05_text",
    "R53.c05_text_example",
    "R53.c05_exact",
    "R53.c05_prints"
   ],
   "note": "every name prints as its RFC 1035 text, from which an RFC 1035 reader gets its labels, so different names print differently (c05_text); reading back with this library gives the name again exactly if all its octets print as themselves (c05_exact); it is false for all others: c05_violated"
  },
  {
   "property": "C06",
   "status": "partial",
   "theorems": [
    "R53.Name.c06_plain_text_partial",
    "R53.Name.c06_escapes_violated",
    "R53.Name.c06_exact",
    "R53.Name.c06_notation_plain"
   ],
   "note": "proved for all texts without backslash; the code violates it for escapes: c06_escapes_violated. What the code does instead is proved exactly for every text: c06_exact against the reader readName of Spec/NameText"
  },
  {
   "property": "C07",
   "status": "proved",
   "theorems": [
    "R53.Name.c07_eq",
    "R53.Name.c07_refl",
    "R53.Name.c07_symm",
    "R53.Name.c07_trans"
   ],
   "note": ""
  },
  {
   "property": "C08",
   "status": "proved",
   "theorems": [
    "R53.Name.c08_hash"
   ],
   "note": ""
  },
  {
   "property": "C09",
   "status": "partial",
   "theorems": [
    "R53.Name.c09_cmp_canonical_partial",
    "R53.Name.c09_total_order_partial",
    "R53.Name.c09_not_antisymmetric",
    "R53.Name.c09_not_transitive",
    "R53.Name.c09_not_canonical",
    "R53.Name.c09_panics",
    "R53.Name.c09_exact",
    "R53.Name.c09_checked_partial"
   ],
   "note": "the code violates it: c09_not_antisymmetric, c09_not_transitive, c09_not_canonical, c09_panics are counterexamples with octets >= 0x80; proved for names of ASCII octets in both builds; what is computed is characterised for all names and both builds (c09_exact), and the answers of a debug build are consistent (c09_checked_partial)"
  },
  {
   "property": "C10",
   "status": "proved",
   "theorems": [
    "R53.Name.c10_cmp_eq_release",
    "R53.Name.c10_cmp_eq_debug"
   ],
   "note": "in a build with overflow checks cmp can panic (c09_panics); whenever it returns it agrees with =="
  },
  {
   "property": "C11",
   "status": "proved",
   "theorems": [
    "R53.Name.c11_get_relation",
    "R53.Name.c11_get_relation_debug"
   ],
   "note": "for all names without overflow checks; with overflow checks the same answer or a panic (octets >= 0x80)"
  },
  {
   "property": "C12",
   "status": "partial",
   "theorems": [
    "R53.Name.c12_complete_partial",
    "R53.Name.c12_sound_partial",
    "R53.Name.c12_exact",
    "R53.Name.c12_letters_exact",
    "R53.Name.c12_unsound"
   ],
   "note": "the code violates it (c12_unsound); proved: total, complete, and sound when the candidate starts at a label boundary with an equally long first label; what is decided is characterised exactly, in octets for every two names (c12_exact) and in labels for names of letters (c12_letters_exact)"
  },
  {
   "property": "C13",
   "status": "proved",
   "theorems": [
    "R53.Name.c13_split",
    "R53.Name.c13_strip_left",
    "R53.Name.c13_strip_right",
    "R53.Name.c13_parent",
    "R53.Name.c13_cut_join"
   ],
   "note": "counts whose sum with the start exceeds usize, and parent beyond the root without overflow checks (an error instead of a panic): C96"
  },
  {
   "property": "C14",
   "status": "partial",
   "theorems": [
    "R53.Name.c14_concat_all_partial",
    "R53.Name.c14_concat",
    "R53.Name.c14_concat_nothing_panics"
   ],
   "note": "concat proved in full; concat_all violates no-panic for an empty list (c14_concat_nothing_panics)"
  },
  {
   "property": "C15",
   "status": "proved",
   "theorems": [
    "R53.Name.c15_reverse",
    "R53.Name.c15_involution"
   ],
   "note": ""
  },
  {
   "property": "C16",
   "status": "proved",
   "theorems": [
    "R53.Name.c16_as_lowercase",
    "R53.Name.c16_idempotent",
    "R53.Name.c16_eq_iff"
   ],
   "note": ""
  },
  {
   "property": "C17",
   "status": "partial",
   "theorems": [
    "R53.LabelSequence.c17_into_label_sequence",
    "R53.LabelSequence.c17_split",
    "R53.LabelSequence.c17_concat_all_partial",
    "R53.LabelSequence.c17_exact",
    "R53.LabelSequence.c17_exact_example",
    "R53.LabelSequence.c17_cut_join_partial",
    "R53.LabelSequence.c17_relative_name",
    "R53.LabelSequence.c17_zero_octet_rejected",
    "R53.LabelSequence.c17_empty_panics"
   ],
   "note": "into_label_sequence and split in full; concat_all proved for runs whose labels do not end in a zero octet and at least one suffix; what concat_all answers for ALL runs (value, error or panic) is c17_exact; violations c17_relative_name, c17_zero_octet_rejected, c17_empty_panics"
  },
  {
   "property": "C18",
   "status": "proved",
   "theorems": [
    "R53.Name.c18_is_root",
    "R53.Name.c18_is_wildcard"
   ],
   "note": ""
  },
  {
   "property": "C19",
   "status": "partial",
   "theorems": [
    "R53.Name.c19_exact",
    "R53.Name.c19_example",
    "R53.Name.c19_made_valid_partial"
   ],
   "note": "LabelSequence::concat_all is restricted to a last suffix ending in the root label (c17_relative_name shows why); c19_exact: without the restriction what comes out is valid if and only if the last run ends in the root label"
  },
  {
   "property": "C20",
   "status": "proved",
   "theorems": [
    "R53.c20_read_u8",
    "R53.c20_read_u16",
    "R53.c20_read_u32",
    "R53.c20_read_bytes",
    "R53.c20_fail_unchanged",
    "R53.c20_ok_iff",
    "R53.c20_step_pos",
    "R53.c20_history",
    "R53.c20_set_data"
   ],
   "note": "lengths whose sum with the cursor exceeds usize: C96"
  },
  {
   "property": "C21",
   "status": "proved",
   "theorems": [
    "R53.c21_append",
    "R53.c21_patch",
    "R53.c21_skip",
    "R53.c21_truncate",
    "R53.c21_step",
    "R53.c21_history"
   ],
   "note": "sizes whose sum with the length exceeds usize: C96"
  },
  {
   "property": "C22",
   "status": "proved",
   "theorems": [
    "R53.c22_write_read",
    "R53.c22_write_ok"
   ],
   "note": ""
  },
  {
   "property": "C23",
   "status": "proved",
   "theorems": [
    "R53.Hex.c23_from_hex",
    "R53.Hex.c23_to_hex",
    "R53.Hex.c23_round_trip",
    "R53.Hex.c23_white_space"
   ],
   "note": ""
  },
  {
   "property": "C24",
   "status": "proved",
   "theorems": [
    "R53.c24_compression_lossless",
    "R53.c24_no_panic"
   ],
   "note": ""
  },
  {
   "property": "C25",
   "status": "proved",
   "theorems": [
    "R53.c25_pointer_backwards"
   ],
   "note": ""
  },
  {
   "property": "C26",
   "status": "proved",
   "theorems": [
    "R53.c26_append_only",
    "R53.c26_history_capacity"
   ],
   "note": "an error may also come from a hash collision (c72_collision_violated), with the octets present kept"
  },
  {
   "property": "C27",
   "status": "proved",
   "theorems": [
    "R53.c27_uncompressed_verbatim"
   ],
   "note": ""
  },
  {
   "property": "C28",
   "status": "proved",
   "theorems": [
    "R53.c28_never_enlarges"
   ],
   "note": ""
  },
  {
   "property": "C29",
   "status": "proved",
   "theorems": [
    "R53.c29_reset"
   ],
   "note": ""
  },
  {
   "property": "C30",
   "status": "proved",
   "theorems": [
    "R53.c30_type_number",
    "R53.c30_class_number",
    "R53.c30_type_injective",
    "R53.c30_class_injective",
    "R53.c30_type_assigned",
    "R53.c30_class_assigned",
    "R53.c30_type_wire",
    "R53.c30_class_wire"
   ],
   "note": ""
  },
  {
   "property": "C31",
   "status": "partial",
   "theorems": [
    "R53.c31_type_partial",
    "R53.c31_cert_violated",
    "R53.c31_type_distinct_partial",
    "R53.c31_class",
    "R53.c31_class_distinct",
    "R53.c31_rcode",
    "R53.c31_rcode_distinct",
    "R53.c31_only_mnemonics_partial",
    "R53.c31_unicode_violated",
    "R53.c31_exact"
   ],
   "note": "CERT is printed as \"URI\" by the code, so the property is false for that one type (c31_cert_violated); proved for every other named type, all classes and rcodes; Unicode case mapping makes the code accept texts such as n\u017f for NS (c31_unicode_violated): that nothing but mnemonics is accepted is proved for ASCII texts; exactly what is accepted of all texts is c31_exact"
  },
  {
   "property": "C32",
   "status": "partial",
   "theorems": [
    "R53.c32_partial",
    "R53.c32_exact",
    "R53.c32_named_covered",
    "R53.c32_unknown_violated"
   ],
   "note": "false for the public constructor Unknown(n) of an assigned number n (c32_unknown_violated); proved for every type that decodes from a number, and c32_exact says for exactly which values it holds"
  },
  {
   "property": "C33",
   "status": "proved",
   "theorems": [
    "R53.c33_opcode",
    "R53.c33_rcode",
    "R53.c33_code_number"
   ],
   "note": ""
  },
  {
   "property": "C34",
   "status": "proved",
   "theorems": [
    "R53.c34_write_read",
    "R53.c34_flag_bits",
    "R53.c34_twelve_octets",
    "R53.c34_read_write"
   ],
   "note": ""
  },
  {
   "property": "C35",
   "status": "proved",
   "theorems": [
    "R53.c35_set_flag",
    "R53.c35_setted_flags",
    "R53.c35_clear"
   ],
   "note": ""
  },
  {
   "property": "C36",
   "status": "proved",
   "theorems": [
    "R53.c36_exact",
    "R53.PieceSample.c36_example",
    "R53.c36_roundtrip",
    "R53.c36_size"
   ],
   "note": "c36_exact: the octets are the ones Seek.data computes over what has been written, for every renderer"
  },
  {
   "property": "C37",
   "status": "proved",
   "theorems": [
    "R53.c37_rdlength",
    "R53.c37_own_octets"
   ],
   "note": ""
  },
  {
   "property": "C38",
   "status": "partial",
   "theorems": [
    "R53.c38_exact",
    "R53.c38_string_violated",
    "R53.c38_rdlength_written",
    "R53.c38_length_violated",
    "R53.c38_rejected_partial"
   ],
   "note": "the code casts lengths (as u8, as u16) without a check: c38_string_violated, c38_length_violated, c38_rdlength_written; c38_exact says what is written in every case. Proved: with character-strings within 255 octets and buffers up to 65535 octets nothing is corrupted"
  },
  {
   "property": "C39",
   "status": "proved",
   "theorems": [
    "R53.c39_exact",
    "R53.c39_roundtrip",
    "R53.c39_roundtrip_empty"
   ],
   "note": "fitting data = at least one octet (a record with RDLENGTH 0 is refused by the decoder unless OPT), at most 65535"
  },
  {
   "property": "C40",
   "status": "partial",
   "theorems": [
    "R53.c40_total",
    "R53.c40_exact",
    "R53.c40_up_to_order",
    "R53.c40_iff_partial",
    "R53.c40_refl",
    "R53.c40_symm_partial",
    "R53.c40_trans",
    "R53.c40_violated"
   ],
   "note": "symmetry is false for sets of less than 4 data with a repeated one (c40_violated); reflexivity, transitivity, order-independence and totality proved in general, symmetry and the converse without such repeats; what is decided is characterised in full (c40_exact); the names in 4 and more data, which are sorted, must be ASCII (C09); sort_unstable specified by SortSpec"
  },
  {
   "property": "C41",
   "status": "partial",
   "theorems": [
    "R53.c41_read_iff",
    "R53.c41_read_err",
    "R53.c41_text_iff",
    "R53.c41_round_partial",
    "R53.c41_text_round_partial",
    "R53.c41_printed_ascii",
    "R53.c41_empty_violated",
    "R53.c41_trailing_blank_violated"
   ],
   "note": "what is accepted is characterised in full; the round trip is proved for every non-empty string; the code refuses the empty one (c41_empty_violated) and a blank after the last string (c41_trailing_blank_violated)"
  },
  {
   "property": "C42",
   "status": "proved",
   "theorems": [
    "R53.c42_every_text",
    "R53.c42_next_and_left"
   ],
   "note": ""
  },
  {
   "property": "C43",
   "status": "proved",
   "theorems": [
    "R53.c43_response_total",
    "R53.c43_request_total",
    "R53.c43_notify_total",
    "R53.c43_section_total"
   ],
   "note": "also: names valid, data typed, at least ten input octets per announced record"
  },
  {
   "property": "C44",
   "status": "partial",
   "theorems": [
    "R53.c44_whole_partial",
    "R53.c44_collision_violated",
    "R53.c44_roundtrip",
    "R53.c44_whole_iff",
    "R53.c44_cut_iff",
    "R53.c44_refused_violated"
   ],
   "note": "every Ok output decodes to the message or to its truncated form; with a buffer of the uncompressed size it is the full message (c44_whole_partial) unless hashes of two names of equal length collide, then the code truncates with plenty of room (c44_collision_violated), and some messages come out whole in no buffer (c44_refused_violated); exactly which messages come out whole and which cut, in which buffers, for all names: c44_whole_iff, c44_cut_iff against the reference encoder of Spec/Seek"
  },
  {
   "property": "C45",
   "status": "proved",
   "theorems": [
    "R53.c45_truncated"
   ],
   "note": "the code always cuts back to header and question: the records present are the empty prefix"
  },
  {
   "property": "C46",
   "status": "partial",
   "theorems": [
    "R53.c46_panic_iff",
    "R53.c46_safe_sizes",
    "R53.c46_err_iff",
    "R53.c46_panic_range_partial",
    "R53.c46_full_panics",
    "R53.c46_same_owner",
    "R53.c46_violated",
    "R53.c46_never_panics_partial",
    "R53.c46_no_records"
   ],
   "note": "the code panics when header and question fit but not the owner name of the first record (c46_violated, c46_full_panics); proved: exactly when it errs (c46_err_iff), exactly when it panics, for every message and buffer (c46_panic_iff), and that no buffer at least 255 octets larger than header and question panics (c46_safe_sizes)"
  },
  {
   "property": "C47",
   "status": "proved",
   "theorems": [
    "R53.c47_counts",
    "R53.c47_recalculated_fits"
   ],
   "note": ""
  },
  {
   "property": "C48",
   "status": "partial",
   "theorems": [
    "R53.c48_add",
    "R53.c48_data",
    "R53.c48_records_partial",
    "R53.c48_class_ttl_violated",
    "R53.c48_distinct",
    "R53.c48_total"
   ],
   "note": "merge/append, no data lost, uniqueness over all histories proved; class and TTL of records merged into an existing set are lost (c48_class_ttl_violated)"
  },
  {
   "property": "C49",
   "status": "partial",
   "theorems": [
    "R53.c49_first_partial",
    "R53.c49_twice_violated",
    "R53.c49_behind_violated",
    "R53.c49_exact",
    "R53.c49_seen"
   ],
   "note": "holds for the first edns on a section without OPT; a second call is ignored (c49_twice_violated) and sets added behind it hide it (c49_behind_violated); c49_exact and c49_seen: exactly what each call does and when the OPT is seen"
  },
  {
   "property": "C50",
   "status": "proved",
   "theorems": [
    "R53.c50_remove",
    "R53.c50_stateful"
   ],
   "note": ""
  },
  {
   "property": "C51",
   "status": "proved",
   "theorems": [
    "R53.c51_deque",
    "R53.c51_once",
    "R53.c51_fused"
   ],
   "note": ""
  },
  {
   "property": "C52",
   "status": "partial",
   "theorems": [
    "R53.c52_hint_partial",
    "R53.c52_violated"
   ],
   "note": "size_hint ignores next_back (c52_violated); proved: hint = left + taken from the back"
  },
  {
   "property": "C53",
   "status": "partial",
   "theorems": [
    "R53.c53_grouping",
    "R53.c53_accepts",
    "R53.c53_count",
    "R53.c53_class_ttl_violated",
    "R53.c53_written"
   ],
   "note": "all data kept, in order, grouped; class and TTL of a record joined to the one before are lost (c53_class_ttl_violated); c53_written gives the exact octets of a section"
  },
  {
   "property": "C54",
   "status": "partial",
   "theorems": [
    "R53.c54_exact",
    "R53.c54_violated",
    "R53.c54_first_partial",
    "R53.c54_opt_single"
   ],
   "note": "OPT behind another record in answer/authority is accepted (c54_violated); proved for the first record; c54_exact: exactly which sections are accepted"
  },
  {
   "property": "C55",
   "status": "proved",
   "theorems": [
    "R53.c55_record",
    "R53.c55_count",
    "R53.c55_count_exact",
    "R53.c55_from_record",
    "R53.c55_wire",
    "R53.c55_exact"
   ],
   "note": "c55_exact: the exact octets"
  },
  {
   "property": "C56",
   "status": "partial",
   "theorems": [
    "R53.c56_roundtrip",
    "R53.c56_new",
    "R53.c56_checks_partial",
    "R53.c56_authority_violated",
    "R53.c56_exact",
    "R53.AskSample.c56_example"
   ],
   "note": "the code tests the answer count twice and never the authority count (c56_authority_violated); the rest and the round trip are proved; c56_exact: written exactly when the buffer has the room, and with which octets"
  },
  {
   "property": "C57",
   "status": "partial",
   "theorems": [
    "R53.c57_new",
    "R53.c57_request_roundtrip",
    "R53.c57_response_new",
    "R53.c57_response_roundtrip",
    "R53.c57_response_violated",
    "R53.c57_request_exact",
    "R53.PieceSample.c57_written_example",
    "R53.c57_response_exact",
    "R53.c57_request_exact_partial",
    "R53.c57_reads",
    "R53.AskSample.c57_example"
   ],
   "note": "requests in full; responses round-trip as such, but announce an answer they do not carry when the request had a SOA (c57_response_violated); c57_request_exact, c57_response_exact, c57_reads: exact octets written and exact decoding"
  },
  {
   "property": "C58",
   "status": "partial",
   "theorems": [
    "R53.c58_map_partial",
    "R53.c58_map_example",
    "R53.c58_nonascii_violated",
    "R53.c58_insert_answer_violated"
   ],
   "note": "names inserted are ASCII (in a debug build names looked up or removed too, in a release build those have any octets), and `remove` only for names that are stored or have no stored ancestor; false for octets above 127 (c58_nonascii_violated), and insert of the name of a split node answers Some(None) (c58_insert_answer_violated); what all ASCII histories do, remove of an absent name included, is C83"
  },
  {
   "property": "C59",
   "status": "proved",
   "theorems": [
    "R53.c59_closest",
    "R53.c59_closest_example"
   ],
   "note": ""
  },
  {
   "property": "C60",
   "status": "partial",
   "theorems": [
    "R53.c60_violated",
    "R53.c60_remove_partial",
    "R53.c60_remove_example"
   ],
   "note": "false when an ancestor is stored: its value is removed (c60_violated); proved for stored names and names without stored ancestor; what is removed in every case is C83"
  },
  {
   "property": "C61",
   "status": "proved",
   "theorems": [
    "R53.c61_levels",
    "R53.c61_example"
   ],
   "note": ""
  },
  {
   "property": "C62",
   "status": "partial",
   "theorems": [
    "R53.c62_len_partial",
    "R53.c62_violated"
   ],
   "note": "proved for histories without clear; clear does not reset len (c62_violated); what len is after every history is C83"
  },
  {
   "property": "C63",
   "status": "partial",
   "theorems": [
    "R53.c63_exact",
    "R53.c63_chain_partial",
    "R53.c63_violated"
   ],
   "note": "proved when no inserted label ends with a zero octet; otherwise it can panic (c63_violated); exactly when it does is c63_exact"
  },
  {
   "property": "C64",
   "status": "partial",
   "theorems": [
    "R53.c64_clone_exact",
    "R53.c64_clone_exact_example",
    "R53.c64_clear_partial",
    "R53.c64_clone_partial",
    "R53.c64_clone_violated",
    "R53.c64_clone_empty_violated",
    "R53.c64_clone_remove_violated",
    "R53.c64_leak"
   ],
   "note": "clear is right except for len; clone keeps one node only (c64_clone_violated), panics on an empty tree, and remove on a clone uses a null pointer; c64_clone_exact: exactly what is found in a clone"
  },
  {
   "property": "C65",
   "status": "proved",
   "theorems": [
    "R53.c65_independent"
   ],
   "note": ""
  },
  {
   "property": "C66",
   "status": "partial",
   "theorems": [
    "R53.c66_exact",
    "R53.c66_callbacks_partial",
    "R53.c66_callbacks_example",
    "R53.c66_violated"
   ],
   "note": "proved when no inserted label ends with a zero octet; otherwise it can panic (c66_violated); exactly when it does is c66_exact"
  },
  {
   "property": "C67",
   "status": "proved",
   "theorems": [
    "R53.RandName.c67_text",
    "R53.RandName.c67_names",
    "R53.RandName.c67_range",
    "R53.RandName.c67_example"
   ],
   "note": "random source = arbitrary sequence of draws; c67_range: exactly which names are drawn by some sequence"
  },
  {
   "property": "C68",
   "status": "partial",
   "theorems": [
    "R53.c68_safe_partial",
    "R53.c68_nonascii_violated",
    "R53.c68_builds",
    "R53.c68_example"
   ],
   "note": "names inserted are ASCII, in a debug build all names: with octets above 127 it panics (c68_nonascii_violated); a release build with names of any octets is C85"
  },
  {
   "property": "C69",
   "status": "proved",
   "theorems": [
    "R53.c69_stable",
    "R53.c69_stable_example"
   ],
   "note": ""
  },
  {
   "property": "C70",
   "status": "partial",
   "theorems": [
    "R53.c70_std_partial",
    "R53.c70_std_rdata_partial",
    "R53.c70_layout",
    "R53.c70_rdata_partial",
    "R53.c70_round_partial",
    "R53.c70_lines",
    "R53.c70_round_example",
    "R53.c70_text_example",
    "R53.c70_cert_violated",
    "R53.c70_empty_violated",
    "R53.c70_unknown_violated",
    "R53.c70_name_violated",
    "R53.c70_merge_violated",
    "R53.c70_exact",
    "R53.c70_exact_example"
   ],
   "note": "exact: a record is read back if and only if it has a named class, a type other than CERT, names of octets that print as themselves and non-empty strings of at most 255 octets (c70_exact); the code violates the rest: c70_cert_violated, c70_empty_violated, c70_unknown_violated, c70_name_violated, and from_strs merges lines of different owners: c70_merge_violated. Texts of addresses and base64 are a parameter with round-trip laws (Ext.Laws), met by those of the standard library and the crate base64 as written out in Model/Std (c70_std_partial)"
  },
  {
   "property": "C71",
   "status": "partial",
   "theorems": [
    "R53.c71_stamp_exact",
    "R53.c71_set_exact",
    "R53.c71_rdata_exact",
    "R53.c71_sets_exact",
    "R53.c71_sets_example",
    "R53.c71_calls_ascii_partial",
    "R53.c71_calls_partial",
    "R53.c71_calls_violated",
    "R53.c71_rrset_ascii_partial",
    "R53.c71_rrset_unicode_partial",
    "R53.c71_rdata_partial",
    "R53.c71_rrset_lines_partial",
    "R53.c71_timestamp_violated",
    "R53.c71_blank_violated"
   ],
   "note": "proved for ASCII, and for any text without RRSIG; exactly which texts panic (record lines, several lines, data of one record, times) is c71_set_exact, c71_sets_exact, c71_rdata_exact, c71_stamp_exact; the code violates it: c71_timestamp_violated, c71_calls_violated, and in debug builds c71_blank_violated"
  },
  {
   "property": "C72",
   "status": "partial",
   "theorems": [
    "R53.c72_spelled_once",
    "R53.c72_again_two_octets",
    "R53.c72_collision_violated",
    "R53.c72_exact"
   ],
   "note": "proved while the buckets of the name and its parents have had at most 14 entries (a bucket of the table holds 15; beyond that a name is spelled again, c73_textbook_violated) and no two names of equal length collide under the hash function; a collision makes the code fail with room left (c72_collision_violated); what comes out after every history, without conditions, is c72_exact (which names are remembered, and that the next is found, spelled or refused as seekLabels of Spec/Seek says)"
  },
  {
   "property": "C73",
   "status": "partial",
   "theorems": [
    "R53.c73_outcome_partial",
    "R53.c73_textbook_partial",
    "R53.c73_whole_iff_partial",
    "R53.c73_decodes",
    "R53.c73_textbook_violated",
    "R53.c73_exact",
    "R53.c73_cases",
    "R53.c73_no_collision",
    "R53.c73_room_violated"
   ],
   "note": "the reference encoder (Spec/Encode) is correct without conditions (c73_decodes); the code agrees with it exactly, for every buffer size, while no two names of equal length collide under the hash function; the encoder remembers at most 15 names for each of the 64 buckets of the table, which makes a difference only when one is full (c73_textbook_partial, c73_textbook_violated); the code violates the property by a panic (C46) and by collisions (c44_collision_violated); the exact behaviour without any condition on the names is c73_exact and c73_cases, against the encoder of Spec/Seek, which says what a collision does (c73_no_collision: without one it is Spec/Encode); empty data needs one octet of room more than it has (c73_room_violated)"
  },
  {
   "property": "C74",
   "status": "partial",
   "theorems": [
    "R53.c74_old_types_partial",
    "R53.c74_decodes",
    "R53.c74_violated"
   ],
   "note": "false: the code compresses every name (c74_violated); proved for messages without such types, under the hypotheses of C73; that the decoder reads the encoding asked for is c74_decodes"
  },
  {
   "property": "C75",
   "status": "proved",
   "theorems": [
    "R53.c75_rdata",
    "R53.c75_record",
    "R53.c75_question",
    "R53.c75_header",
    "R53.c75_section",
    "R53.c75_message",
    "R53.c75_refused",
    "R53.c75_one_reading",
    "R53.c75_trailing",
    "R53.c75_request",
    "R53.c75_short"
   ],
   "note": "recogniser: Spec/Decode; unsupported types are not well-formed there, as the code has no data for them"
  },
  {
   "property": "C76",
   "status": "partial",
   "theorems": [
    "R53.c76_fits",
    "R53.c76_forward",
    "R53.c76_fits_partial",
    "R53.c76_forward_partial",
    "R53.c76_whole_partial",
    "R53.c76_normal_form_partial",
    "R53.c76_image",
    "R53.c76_collision_violated",
    "R53.c76_whole_iff"
   ],
   "note": "proved for buffers up to 65535 octets, the size of a DNS message (c76_forward); larger ones while the message has at most 65535 octets uncompressed or was received in at most 65000 (c76_forward_partial); \"the same message if the buffer is large enough\" needs names that do not collide under the hash function (c76_collision_violated); exactly when: c76_whole_iff"
  },
  {
   "property": "C77",
   "status": "partial",
   "theorems": [
    "R53.c77_build_partial",
    "R53.c77_refused",
    "R53.c77_total_partial",
    "R53.c77_fits_partial",
    "R53.c77_sent_partial",
    "R53.c77_sample",
    "R53.c77_udp_size_violated",
    "R53.c77_ttl_violated"
   ],
   "note": "the message is characterised for every text whose owner names have at most 255 octets (longer ones: C04); it can be sent when the lines have at most 510 octets and no backslash and are not OPT records; the code cuts UDP sizes beyond 16 bits (c77_udp_size_violated) and drops the TTL of joined lines (c77_ttl_violated); for ASCII texts with non-empty groups the call never panics and succeeds exactly when the name and every group parse (c77_total_partial)"
  },
  {
   "property": "C78",
   "status": "partial",
   "theorems": [
    "R53.c78_fits_partial",
    "R53.c78_plain_fits",
    "R53.c78_exact",
    "R53.c78_salt_violated",
    "R53.c78_exact_example",
    "R53.c78_name_violated",
    "R53.c78_std"
   ],
   "note": "proved for texts without names or length-prefixed strings beyond 255 octets, in particular lines of at most 510 octets without backslash; the code violates the rest: c78_name_violated, c78_salt_violated; c78_exact: these are exactly the ones that can be received by no message"
  },
  {
   "property": "C79",
   "status": "partial",
   "theorems": [
    "R53.c79_question",
    "R53.c79_exact",
    "R53.c79_total",
    "R53.c79_same",
    "R53.c79_iff_partial",
    "R53.c79_refl",
    "R53.c79_trans",
    "R53.c79_symm_violated"
   ],
   "note": "false for sets of fewer than 4 records with repeated data: not symmetric (c79_symm_violated, from C40); proved without repeats or with 4 records and more; totality, reflexivity, transitivity, \"same implies equal\" and what is decided exactly (c79_exact) without that condition"
  },
  {
   "property": "C80",
   "status": "partial",
   "theorems": [
    "R53.LabelSlice.c80_slice_new",
    "R53.LabelSlice.c80_slice_strip",
    "R53.LabelSlice.c80_slice_octets",
    "R53.LabelSlice.c80_slice_equals",
    "R53.LabelSlice.c80_slice_compare",
    "R53.LabelSlice.c80_slice_compare_debug",
    "R53.LabelSlice.c80_slice_order_exact",
    "R53.LabelSlice.c80_slice_order_partial",
    "R53.LabelSequence.c80_equals",
    "R53.LabelSequence.c80_cmp",
    "R53.LabelSequence.c80_cmp_exact",
    "R53.LabelSequence.c80_cmp_exact_example",
    "R53.LabelSequence.c80_cmp_partial",
    "R53.LabelSequence.c80_order_violated",
    "R53.LabelSequence.c80_empty_violated",
    "R53.LabelSequence.c80_empty_release",
    "R53.LabelSequence.c80_parse",
    "R53.LabelSequence.c80_parse_partial",
    "R53.LabelSequence.c80_roundtrip_partial",
    "R53.LabelSequence.c80_roundtrip_violated",
    "R53.c80_text_rfc",
    "R53.c80_text",
    "R53.c80_slice_text",
    "R53.LabelSequence.c80_exact"
   ],
   "note": "equality, number of common labels, relation and agreement of cmp with equality proved for all octets; the order for ASCII (c80_order_violated), and exactly for all octets in c80_cmp_exact and c80_slice_order_exact; every run and slice prints as its RFC 1035 text (c80_text, c80_slice_text); reading it back for exactly the octets that print as themselves (c80_exact, c80_roundtrip_violated); the rest of a split that took all labels cannot be printed, nor compared in a build with overflow checks (c80_empty_violated; without them: c80_empty_release)"
  },
  {
   "property": "C81",
   "status": "partial",
   "theorems": [
    "R53.c81_std_partial",
    "R53.c81_prints",
    "R53.c81_received",
    "R53.c81_notify",
    "R53.c81_layout_partial",
    "R53.c81_faithful_partial",
    "R53.c81_request_partial",
    "R53.c81_distinct_partial",
    "R53.c81_request_example",
    "R53.c81_title_violated",
    "R53.c81_rcode_violated",
    "R53.c81_exact",
    "R53.c81_exact_example"
   ],
   "note": "never failing proved for all messages; layout, lines reading back and same text implies same message proved for names, codes and data with a text of their own (as in C70) and, for the EDNS record, version, DO and UDP size; the extended rcode and types without a name are not told apart (c81_rcode_violated) and the question title is glued to the EDNS line (c81_title_violated); c81_exact: the text of every message, and exactly which of its lines read back"
  },
  {
   "property": "C82",
   "status": "proved",
   "theorems": [
    "R53.c82_call",
    "R53.c82_history",
    "R53.c82_done"
   ],
   "note": ""
  },
  {
   "property": "C83",
   "status": "proved",
   "theorems": [
    "R53.c83_meet",
    "R53.c83_closest",
    "R53.c83_history",
    "R53.c83_find",
    "R53.c83_find_told",
    "R53.c83_find_debug_violated",
    "R53.c83_insert",
    "R53.c83_history_example",
    "R53.c83_insert_example"
   ],
   "note": "exact node set for every ASCII history; stored names with octets above 127 break the order, see C58; a name looked up may have any octets in a release build, and in a debug build comparing it can panic (c83_find_debug_violated)"
  },
  {
   "property": "C84",
   "status": "proved",
   "theorems": [
    "R53.c84_set_iff",
    "R53.c84_unambiguous",
    "R53.c84_refused",
    "R53.c84_sets_iff",
    "R53.c84_rdata_iff",
    "R53.c84_words",
    "R53.c84_refused_exact",
    "R53.c84_behind_ignored"
   ],
   "note": "the outcome of every text is known (set: c84_set_iff, panic: c71_set_exact, error: c84_refused_exact); with the texts of std::net and base64 written out (Model/Std); that text behind the data is ignored is shown by c84_behind_ignored"
  },
  {
   "property": "C85",
   "status": "proved",
   "theorems": [
    "R53.c85_tree",
    "R53.c85_find",
    "R53.c85_example"
   ],
   "note": "any octets in release, ASCII in debug (c68_nonascii_violated)"
  },
  {
   "property": "C86",
   "status": "partial",
   "theorems": [
    "R53.c86_values",
    "R53.c86_source",
    "R53.c86_lost_violated",
    "R53.c86_stale_violated"
   ],
   "note": "conservation and origin of values proved for every history; that every inserted name is found is false for octets above 127 (c86_lost_violated, c86_stale_violated), and proved for ASCII names in C58"
  },
  {
   "property": "C87",
   "status": "proved",
   "theorems": [
    "R53.c87_dump",
    "R53.c87_faithful",
    "R53.c87_chain",
    "R53.c87_example"
   ],
   "note": "the depth argument times five is taken to fit usize"
  },
  {
   "property": "C88",
   "status": "proved",
   "theorems": [
    "R53.c88_write",
    "R53.c88_write_example"
   ],
   "note": ""
  },
  {
   "property": "C89",
   "status": "partial",
   "theorems": [
    "R53.c89_cmp_partial",
    "R53.c89_exact",
    "R53.c89_violated"
   ],
   "note": "false: only the labels a level adds are compared, so nodes at different places compare Equal without being equal (c89_violated); what is compared is proved for ASCII names, and exactly for all octets in c89_exact"
  },
  {
   "property": "C90",
   "status": "proved",
   "theorems": [
    "R53.c90_bounds",
    "R53.c90_datagram",
    "R53.c90_room"
   ],
   "note": "c90_bounds; c90_datagram for 65535 octets; c90_room adds that 52 n octets of buffer are enough to send it on when no two names collide under the hash function (C76)"
  },
  {
   "property": "C91",
   "status": "partial",
   "theorems": [
    "R53.c91_set_exact",
    "R53.c91_data_exact",
    "R53.c91_message_exact",
    "R53.c91_request_exact",
    "R53.c91_notify_exact",
    "R53.c91_set_partial",
    "R53.c91_data_partial",
    "R53.c91_message_partial",
    "R53.c91_request_partial",
    "R53.c91_std",
    "R53.c91_example",
    "R53.c91_exact_example",
    "R53.c91_violated"
   ],
   "note": "proved for all octets in names and data, empty strings included; classes without a name, and types without a name or CERT as the type a signature covers or a question asks for, print alike (c91_violated, c81_rcode_violated); the extended rcode is not printed; c91_set_exact, c91_data_exact, c91_message_exact, c91_request_exact and c91_notify_exact say exactly which ones have the same text"
  },
  {
   "property": "C92",
   "status": "proved",
   "theorems": [
    "R53.c92_find",
    "R53.c92_insert",
    "R53.c92_insert_rounds",
    "R53.c92_remove_rounds",
    "R53.c92_remove_name",
    "R53.StepSample.c92_example",
    "R53.StepSample.c92_rounds_example"
   ],
   "note": "c92_find, c92_insert (the place), c92_insert_rounds, c92_remove_rounds, c92_remove_name: all loops of the code with a limit on their rounds (Model/Limit) do the same as without"
  },
  {
   "property": "C93",
   "status": "partial",
   "theorems": [
    "R53.c93_allocated",
    "R53.c93_drop",
    "R53.c93_free_partial",
    "R53.c93_example",
    "R53.c93_violated"
   ],
   "note": "false: nodes taken out by remove and remove_node are never freed (c93_violated); proved exactly: dropping the tree leaves as many nodes allocated as removals took out of it, none without removals"
  },
  {
   "property": "C94",
   "status": "proved",
   "theorems": [
    "R53.c94_response",
    "R53.c94_request",
    "R53.c94_notify",
    "R53.c94_rrset",
    "R53.c94_history",
    "R53.c94_reused",
    "R53.c94_example",
    "R53.c94_refused_example"
   ],
   "note": "c94_response, c94_request, c94_notify, c94_rrset; c94_history for a renderer used again; the octets are compared after a success (after an error `data` may show a length field not yet filled in, c94_refused_example)"
  },
  {
   "property": "C95",
   "status": "proved",
   "theorems": [
    "R53.c95_name",
    "R53.c95_any",
    "R53.c95_long"
   ],
   "note": "c95_name, c95_any: the same loop with that many rounds always ends the same way; c95_long: the bound has to grow with the position"
  },
  {
   "property": "C96",
   "status": "partial",
   "theorems": [
    "R53.c96_read_bytes",
    "R53.c96_read_bytes_panics",
    "R53.c96_skip",
    "R53.c96_write_u16_at",
    "R53.c96_buffer_violated",
    "R53.c96_render",
    "R53.Name.c96_split",
    "R53.Name.c96_parent",
    "R53.Name.c96_split_violated",
    "R53.LabelSequence.c96_seq_split",
    "R53.LabelSequence.c96_seq_split_violated"
   ],
   "note": "false: sums that overflow usize panic (c96_buffer_violated, c96_split_violated, c96_seq_split_violated), and without overflow checks OutputBuffer::skip moves back over octets already written; what happens is proved exactly for every usize and both builds, and where the sum is a usize it is what C13, C17, C20, C21 say"
  },
  {
   "property": "C97",
   "status": "partial",
   "theorems": [
    "R53.c97_exact",
    "R53.c97_reads",
    "R53.c97_stream",
    "R53.OffsetSample.c97_example",
    "R53.c97_prefix_violated",
    "R53.c97_second_violated"
   ],
   "note": "false: pointers and the fields patched by truncation count from the start of the buffer, so a message behind a length prefix decodes to another one when cut out (c97_prefix_violated), and a second message that does not fit marks the first one as truncated (c97_second_violated). Proved: exactly what happens in every renderer (c97_exact), and that messages written whole are read back from their place in the buffer, any number of them (c97_reads, c97_stream)"
  },
  {
   "property": "C98",
   "status": "proved",
   "theorems": [
    "R53.c98_caught",
    "R53.c98_unchanged",
    "R53.c98_find",
    "R53.c98_table",
    "R53.c98_near",
    "R53.c98_near_table",
    "R53.c98_near_find",
    "R53.c98_near_chain",
    "R53.c98_near_callbacks",
    "R53.c98_near_levels",
    "R53.c98_near_stable",
    "R53.c98_upper",
    "R53.c98_far",
    "R53.c98_example",
    "R53.c98_table_example",
    "R53.c98_near_example",
    "R53.c98_release_example",
    "R53.c98_near_reached_example",
    "R53.c98_near_stable_example"
   ],
   "note": "c98_caught, c98_unchanged, c98_find: any legal names, overflow checks on; c98_near for both builds; c98_far: labels that are not near do panic. c98_table and c98_near_table: the same against the exact table of C83, so that also a remove of an absent name (C60) is covered; c98_near_find, c98_near_chain, c98_near_callbacks, c98_near_levels, c98_near_stable: C59, C61, C63, C66, C69 for all names whose labels can be compared, not only ASCII; in a release build this is asked only of the names put into the tree, those looked for or removed have any octets (c98_release_example)"
  },
  {
   "property": "C99",
   "status": "partial",
   "theorems": [
    "R53.c99_stack_partial",
    "R53.c99_bottom_violated",
    "R53.c99_stack_example",
    "R53.c99_array",
    "R53.c99_search_partial",
    "R53.c99_again",
    "R53.c99_example",
    "R53.c99_reuse_violated",
    "R53.c99_callback_violated"
   ],
   "note": "false: bottom of an emptied chain is still the old first node (c99_bottom_violated), nothing empties a chain between searches, so it overflows (c99_reuse_violated) and callbacks get a name put together with nodes of the search before (c99_callback_violated: panic). Proved exactly: every history of calls (c99_stack_partial), the array stands for the list of its live nodes in every search of every tree with any callback (c99_array), what a search leaves on any chain (c99_search_partial), how many searches a chain takes (c99_again)"
  },
  {
   "property": "C100",
   "status": "proved",
   "theorems": [
    "R53.c100_straight",
    "R53.c100_search",
    "R53.c100_read",
    "R53.c100_message"
   ],
   "note": "c100_straight: any history; c100_message: the places of all names of a message that fits (a truncated one has the name of the question only); c100_search: write_name with that many looks for each rest of the name does the same"
  },
  {
   "property": "C101",
   "status": "proved",
   "theorems": [
    "R53.c101_sendable",
    "R53.c101_answer",
    "R53.c101_data",
    "R53.c101_exchange",
    "R53.c101_example"
   ],
   "note": "c101_exchange: the whole conversation; c101_answer: the answer to any octets accepted as a request, calls that remove or replace included; c101_sendable: what any calls make can be sent; c101_data: nothing added is lost. Class and TTL of records joined to a set already there are those of that set (C48)"
  },
  {
   "property": "C102",
   "status": "partial",
   "theorems": [
    "R53.c102_request",
    "R53.c102_reply_partial",
    "R53.c102_reply_violated",
    "R53.c102_exact_partial",
    "R53.c102_example"
   ],
   "note": "false: the reply keeps the answer count of the request but not the record, so the reply to a NOTIFY with SOA can never be decoded (c102_reply_violated, for all of them); c102_request is the full claim for requests; c102_exact_partial: exactly the replies to a NOTIFY without SOA can be decoded"
  },
  {
   "property": "C103",
   "status": "proved",
   "theorems": [
    "R53.c103_serve",
    "R53.c103_told",
    "R53.c103_example"
   ],
   "note": "c103_serve: the server is a program of 5 calls (Spec/Server), the table that of C83; names in the tree ASCII, as C58 is false otherwise; names in requests of any octets in a release build, ASCII in a debug build (c83_find_debug_violated)"
  },
  {
   "property": "C104",
   "status": "proved",
   "theorems": [
    "R53.c104_zone",
    "R53.c104_example"
   ],
   "note": "c104_zone, with the texts of addresses and base64 as std and the base64 crate have them (Model/Std)"
  },
  {
   "property": "C105",
   "status": "partial",
   "theorems": [
    "R53.c105_find_partial",
    "R53.c105_order_partial",
    "R53.c105_shuffle_partial",
    "R53.c105_values_partial",
    "R53.c105_violated",
    "R53.c105_example"
   ],
   "note": "c105_order_partial and c105_shuffle_partial: all insert-only histories, find and len alike; c105_find_partial: what they answer, in words of the names put in; c105_values_partial: any two histories with removals never find two different values, and agree on every value found under the name asked for. False in full (c105_violated): the node where a removed name branched off stays, is found without a value, and is counted"
  },
  {
   "property": "C106",
   "status": "partial",
   "theorems": [
    "R53.c106_both",
    "R53.c106_response",
    "R53.c106_plain",
    "R53.c106_pass_partial",
    "R53.c106_violated",
    "R53.AgreeSample.c106_example"
   ],
   "note": "c106_both, c106_response, c106_plain: the decoders agree, for all octets; c106_pass_partial: a request written again is read as the same request, and as a message if and only if it announces no authority or additional records. False otherwise (c106_violated, for every such message): the counts are kept, the records are not, so a query with EDNS passed on announces a record that is not there"
  },
  {
   "property": "C107",
   "status": "partial",
   "theorems": [
    "R53.c107_exact",
    "R53.c107_lines_exact",
    "R53.RereadSample.c107_example",
    "R53.RereadSample.c107_violated"
   ],
   "note": "c107_exact: true if and only if all octets of the names print as themselves and CERT is not among the types named, so strings, octets, numbers, times, addresses and classes that come from text never fail; without a condition on the lines but their length in c107_lines_exact. False otherwise (c107_violated): names with a semicolon are read as another name each time, CERT is refused"
  },
  {
   "property": "C108",
   "status": "proved",
   "theorems": [
    "R53.c108_calls",
    "R53.c108_response",
    "R53.c108_whole",
    "R53.c108_threshold",
    "R53.c108_request",
    "R53.c108_notify",
    "R53.c108_example"
   ],
   "note": "c108_calls: any calls, no condition on arguments or order, on a buffer continued by any octets; c108_response, c108_whole, c108_threshold: all responses, any larger buffer; c108_request, c108_notify"
  },
  {
   "property": "C109",
   "status": "proved",
   "theorems": [
    "R53.c109_settled",
    "R53.c109_hops",
    "R53.c109_order",
    "R53.c109_example",
    "R53.c109_small_violated"
   ],
   "note": "c109_hops, c109_order, c109_settled; hop_iff says exactly what one forwarder sends; c109_small_violated: below 526 octets the panic of C46 makes a chain differ from its smallest member"
  },
  {
   "property": "C110",
   "status": "proved",
   "theorems": [
    "R53.c110_cache",
    "R53.c110_example"
   ],
   "note": "c110_cache: the resolver is a program of a user (Spec/Server: keep, told, learn, serve); names in the tree ASCII, as C58 is false otherwise; names in requests of any octets in a release build, ASCII in a debug build"
  },
  {
   "property": "C111",
   "status": "proved",
   "theorems": [
    "R53.c111_network",
    "R53.c111_example"
   ],
   "note": "c111_network by induction over Sent (Spec/Network); c103_told says it for one server, any buffer and any names (a debug build may panic, then nothing is sent). The participants are programs of a user (Spec/Server, Spec/Hops). That something is sent at all is in C103, C104, C109 and C110"
  },
  {
   "property": "C112",
   "status": "proved",
   "theorems": [
    "R53.c112_session",
    "R53.c112_example"
   ],
   "note": "c112_session by induction over the events; the server is a program of a user (Spec/Session). Sets can be sent (Stored): they fit, none is OPT, at most 65535 records of a name"
  },
  {
   "property": "C113",
   "status": "proved",
   "theorems": [
    "R53.c113_through",
    "R53.c113_lookup",
    "R53.c113_example",
    "R53.c113_forged"
   ],
   "note": "c113_through (with forwarders), c113_lookup (without); the client is a program of a user (Spec/Client), the server that of C103. Sets can be sent (Stored); octets of the network that decode to a response with the id and question but are not from the server are excluded (Unforged)"
  },
  {
   "property": "C114",
   "status": "proved",
   "theorems": [
    "R53.c114_zone",
    "R53.c114_example"
   ],
   "note": "c114_zone; loader, server, forwarder and client are programs of a user (Spec/Server, Spec/Hops, Spec/Client)"
  },
  {
   "property": "C115",
   "status": "proved",
   "theorems": [
    "R53.c115_resolver",
    "R53.c115_example"
   ],
   "note": "c115_resolver: the resolver program is in Spec/Resolver and is a user program, not code of the crate; c115_example meets every hypothesis with two queries, forwarders and noise. Queries for owners without lines are left out (the referral would be kept as data)."
  },
  {
   "property": "C116",
   "status": "proved",
   "theorems": [
    "R53.c116_chain",
    "R53.c116_example"
   ],
   "note": "c116_chain over the inductive definition Caches of Spec/Resolver; c116_example is a chain of three resolvers with forwarders and noise that meets every hypothesis. The resolver is a user program, not code of the crate."
  },
  {
   "property": "C117",
   "status": "partial",
   "theorems": [
    "R53.c117_restart_partial",
    "R53.c117_zone_partial",
    "R53.c117_example",
    "R53.c117_violated"
   ],
   "note": "proved for the record sets that are printable (Spec/Text: exactly those that C70 shows to be read back, c70_exact): then the state is identical, and the lines are the only ones the text can be cut into. The code violates the rest: a CERT record is printed as URI and refused, so the restart fails (c117_violated)"
  }
 ]
}