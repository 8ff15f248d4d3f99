STATUS={
'C01':('proved',''),
'C02':('proved','against the inductive relation Decodes (Spec/Name.lean)'),
'C03':('proved',''),
'C04':('partial','never panics and all limits proved, except that a text ending in \\\\. can give 256 octets: c04_too_long; nothing else can (c04_exact)'),
'C05':('partial','every name prints as its RFC 1035 text, from which an RFC 1035 reader gets its labels, so different names print differently (c05_text); reading back with this library gives the name again exactly if all its octets print as themselves (c05_exact); it is false for all others: c05_violated'),
'C06':('partial','proved for all texts without backslash; the code violates it for escapes: c06_escapes_violated. What the code does instead is proved exactly for every text: c06_exact against the reader readName of Spec/NameText'),
'C07':('proved',''),
'C08':('proved',''),
'C09':('partial','the code violates it: c09_not_antisymmetric, c09_not_transitive, c09_not_canonical, c09_panics are counterexamples with octets >= 0x80; proved for names of ASCII octets in both builds; what is computed is characterised for all names and both builds (c09_exact), and the answers of a debug build are consistent (c09_checked_partial)'),
'C10':('proved','in a build with overflow checks cmp can panic (c09_panics); whenever it returns it agrees with =='),
'C11':('proved','for all names without overflow checks; with overflow checks the same answer or a panic (octets >= 0x80)'),
'C12':('partial','the code violates it (c12_unsound); proved: total, complete, and sound when the candidate starts at a label boundary with an equally long first label; what is decided is characterised exactly, in octets for every two names (c12_exact) and in labels for names of letters (c12_letters_exact)'),
'C13':('proved','counts whose sum with the start exceeds usize, and parent beyond the root without overflow checks (an error instead of a panic): C96'),
'C14':('partial','concat proved in full; concat_all violates no-panic for an empty list (c14_concat_nothing_panics)'),
'C15':('proved',''),
'C16':('proved',''),
'C17':('partial','into_label_sequence and split in full; concat_all proved for runs whose labels do not end in a zero octet and at least one suffix; what concat_all answers for ALL runs (value, error or panic) is c17_exact; violations c17_relative_name, c17_zero_octet_rejected, c17_empty_panics'),
'C18':('proved',''),
'C19':('partial','LabelSequence::concat_all is restricted to a last suffix ending in the root label (c17_relative_name shows why); c19_exact: without the restriction what comes out is valid if and only if the last run ends in the root label'),
'C20':('proved','lengths whose sum with the cursor exceeds usize: C96'),
'C21':('proved','sizes whose sum with the length exceeds usize: C96'),
'C22':('proved',''),
'C23':('proved',''),
'C24':('proved',''),
'C25':('proved',''),
'C26':('proved','an error may also come from a hash collision (c72_collision_violated), with the octets present kept'),
'C27':('proved',''),
'C28':('proved',''),
'C29':('proved',''),
'C30':('proved',''),
'C31':('partial','CERT is printed as "URI" by the code, so the property is false for that one type (c31_cert_violated); proved for every other named type, all classes and rcodes; Unicode case mapping makes the code accept texts such as nſ for NS (c31_unicode_violated): that nothing but mnemonics is accepted is proved for ASCII texts; exactly what is accepted of all texts is c31_exact'),
'C32':('partial','false for the public constructor Unknown(n) of an assigned number n (c32_unknown_violated); proved for every type that decodes from a number, and c32_exact says for exactly which values it holds'),
'C33':('proved',''),
'C34':('proved',''),
'C35':('proved',''),
'C36':('proved','c36_exact: the octets are the ones Seek.data computes over what has been written, for every renderer'),
'C37':('proved',''),
'C38':('partial','the code casts lengths (as u8, as u16) without a check: c38_string_violated, c38_length_violated, c38_rdlength_written; c38_exact says what is written in every case. Proved: with character-strings within 255 octets and buffers up to 65535 octets nothing is corrupted'),
'C39':('proved','fitting data = at least one octet (a record with RDLENGTH 0 is refused by the decoder unless OPT), at most 65535'),
'C40':('partial','symmetry is false for sets of less than 4 data with a repeated one (c40_violated); reflexivity, transitivity, order-independence and totality proved in general, symmetry and the converse without such repeats; what is decided is characterised in full (c40_exact); the names in 4 and more data, which are sorted, must be ASCII (C09); sort_unstable specified by SortSpec'),
'C43':('proved','also: names valid, data typed, at least ten input octets per announced record'),
'C44':('partial','every Ok output decodes to the message or to its truncated form; with a buffer of the uncompressed size it is the full message (c44_whole_partial) unless hashes of two names of equal length collide, then the code truncates with plenty of room (c44_collision_violated), and some messages come out whole in no buffer (c44_refused_violated); exactly which messages come out whole and which cut, in which buffers, for all names: c44_whole_iff, c44_cut_iff against the reference encoder of Spec/Seek'),
'C45':('proved','the code always cuts back to header and question: the records present are the empty prefix'),
'C46':('partial','the code panics when header and question fit but not the owner name of the first record (c46_violated, c46_full_panics); proved: exactly when it errs (c46_err_iff), exactly when it panics, for every message and buffer (c46_panic_iff), and that no buffer at least 255 octets larger than header and question panics (c46_safe_sizes)'),
'C47':('proved',''),
'C53':('partial','all data kept, in order, grouped; class and TTL of a record joined to the one before are lost (c53_class_ttl_violated); c53_written gives the exact octets of a section'),
'C54':('partial','OPT behind another record in answer/authority is accepted (c54_violated); proved for the first record; c54_exact: exactly which sections are accepted'),
'C55':('proved','c55_exact: the exact octets'),
'C56':('partial','the code tests the answer count twice and never the authority count (c56_authority_violated); the rest and the round trip are proved; c56_exact: written exactly when the buffer has the room, and with which octets'),
'C57':('partial','requests in full; responses round-trip as such, but announce an answer they do not carry when the request had a SOA (c57_response_violated); c57_request_exact, c57_response_exact, c57_reads: exact octets written and exact decoding'),
'C48':('partial','merge/append, no data lost, uniqueness over all histories proved; class and TTL of records merged into an existing set are lost (c48_class_ttl_violated)'),
'C49':('partial','holds for the first edns on a section without OPT; a second call is ignored (c49_twice_violated) and sets added behind it hide it (c49_behind_violated); c49_exact and c49_seen: exactly what each call does and when the OPT is seen'),
'C50':('proved',''),
'C51':('proved',''),
'C52':('partial','size_hint ignores next_back (c52_violated); proved: hint = left + taken from the back'),
'C58':('partial','names inserted are ASCII (in a debug build names looked up or removed too, in a release build those have any octets), and `remove` only for names that are stored or have no stored ancestor; false for octets above 127 (c58_nonascii_violated), and insert of the name of a split node answers Some(None) (c58_insert_answer_violated); what all ASCII histories do, remove of an absent name included, is C83'),
'C59':('proved',''),
'C60':('partial','false when an ancestor is stored: its value is removed (c60_violated); proved for stored names and names without stored ancestor; what is removed in every case is C83'),
'C61':('proved',''),
'C62':('partial','proved for histories without clear; clear does not reset len (c62_violated); what len is after every history is C83'),
'C63':('partial','proved when no inserted label ends with a zero octet; otherwise it can panic (c63_violated); exactly when it does is c63_exact'),
'C64':('partial','clear is right except for len; clone keeps one node only (c64_clone_violated), panics on an empty tree, and remove on a clone uses a null pointer; c64_clone_exact: exactly what is found in a clone'),
'C65':('proved',''),
'C66':('partial','proved when no inserted label ends with a zero octet; otherwise it can panic (c66_violated); exactly when it does is c66_exact'),
'C67':('proved','random source = arbitrary sequence of draws; c67_range: exactly which names are drawn by some sequence'),
'C68':('partial','names inserted are ASCII, in a debug build all names: with octets above 127 it panics (c68_nonascii_violated); a release build with names of any octets is C85'),
'C69':('proved',''),
'C41':('partial','what is accepted is characterised in full; the round trip is proved for every non-empty string; the code refuses the empty one (c41_empty_violated) and a blank after the last string (c41_trailing_blank_violated)'),
'C42':('proved',''),
'C70':('partial','exact: a record is read back if and only if it has a named class, a type other than CERT, names of octets that print as themselves and non-empty strings of at most 255 octets (c70_exact); the code violates the rest: c70_cert_violated, c70_empty_violated, c70_unknown_violated, c70_name_violated, and from_strs merges lines of different owners: c70_merge_violated. Texts of addresses and base64 are a parameter with round-trip laws (Ext.Laws), met by those of the standard library and the crate base64 as written out in Model/Std (c70_std_partial)'),
'C71':('partial','proved for ASCII, and for any text without RRSIG; exactly which texts panic (record lines, several lines, data of one record, times) is c71_set_exact, c71_sets_exact, c71_rdata_exact, c71_stamp_exact; the code violates it: c71_timestamp_violated, c71_calls_violated, and in debug builds c71_blank_violated'),
'C72':('partial','proved while the buckets of the name and its parents have had at most 14 entries (a bucket of the table holds 15; beyond that a name is spelled again, c73_textbook_violated) and no two names of equal length collide under the hash function; a collision makes the code fail with room left (c72_collision_violated); what comes out after every history, without conditions, is c72_exact (which names are remembered, and that the next is found, spelled or refused as seekLabels of Spec/Seek says)'),
'C73':('partial','the reference encoder (Spec/Encode) is correct without conditions (c73_decodes); the code agrees with it exactly, for every buffer size, while no two names of equal length collide under the hash function; the encoder remembers at most 15 names for each of the 64 buckets of the table, which makes a difference only when one is full (c73_textbook_partial, c73_textbook_violated); the code violates the property by a panic (C46) and by collisions (c44_collision_violated); the exact behaviour without any condition on the names is c73_exact and c73_cases, against the encoder of Spec/Seek, which says what a collision does (c73_no_collision: without one it is Spec/Encode); empty data needs one octet of room more than it has (c73_room_violated)'),
'C74':('partial','false: the code compresses every name (c74_violated); proved for messages without such types, under the hypotheses of C73; that the decoder reads the encoding asked for is c74_decodes'),
'C75':('proved','recogniser: Spec/Decode; unsupported types are not well-formed there, as the code has no data for them'),
'C76':('partial','proved for buffers up to 65535 octets, the size of a DNS message (c76_forward); larger ones while the message has at most 65535 octets uncompressed or was received in at most 65000 (c76_forward_partial); "the same message if the buffer is large enough" needs names that do not collide under the hash function (c76_collision_violated); exactly when: c76_whole_iff'),
'C77':('partial','the message is characterised for every text whose owner names have at most 255 octets (longer ones: C04); it can be sent when the lines have at most 510 octets and no backslash and are not OPT records; the code cuts UDP sizes beyond 16 bits (c77_udp_size_violated) and drops the TTL of joined lines (c77_ttl_violated); for ASCII texts with non-empty groups the call never panics and succeeds exactly when the name and every group parse (c77_total_partial)'),
'C78':('partial','proved for texts without names or length-prefixed strings beyond 255 octets, in particular lines of at most 510 octets without backslash; the code violates the rest: c78_name_violated, c78_salt_violated; c78_exact: these are exactly the ones that can be received by no message'),
'C80':('partial','equality, number of common labels, relation and agreement of cmp with equality proved for all octets; the order for ASCII (c80_order_violated), and exactly for all octets in c80_cmp_exact and c80_slice_order_exact; every run and slice prints as its RFC 1035 text (c80_text, c80_slice_text); reading it back for exactly the octets that print as themselves (c80_exact, c80_roundtrip_violated); the rest of a split that took all labels cannot be printed, nor compared in a build with overflow checks (c80_empty_violated; without them: c80_empty_release)'),
'C79':('partial','false for sets of fewer than 4 records with repeated data: not symmetric (c79_symm_violated, from C40); proved without repeats or with 4 records and more; totality, reflexivity, transitivity, "same implies equal" and what is decided exactly (c79_exact) without that condition'),
'C81':('partial','never failing proved for all messages; layout, lines reading back and same text implies same message proved for names, codes and data with a text of their own (as in C70) and, for the EDNS record, version, DO and UDP size; the extended rcode and types without a name are not told apart (c81_rcode_violated) and the question title is glued to the EDNS line (c81_title_violated); c81_exact: the text of every message, and exactly which of its lines read back'),
'C82':('proved',''),
'C83':('proved','exact node set for every ASCII history; stored names with octets above 127 break the order, see C58; a name looked up may have any octets in a release build, and in a debug build comparing it can panic (c83_find_debug_violated)'),
'C84':('proved','the outcome of every text is known (set: c84_set_iff, panic: c71_set_exact, error: c84_refused_exact); with the texts of std::net and base64 written out (Model/Std); that text behind the data is ignored is shown by c84_behind_ignored'),
'C85':('proved','any octets in release, ASCII in debug (c68_nonascii_violated)'),
'C86':('partial','conservation and origin of values proved for every history; that every inserted name is found is false for octets above 127 (c86_lost_violated, c86_stale_violated), and proved for ASCII names in C58'),
'C87':('proved','the depth argument times five is taken to fit usize'),
'C88':('proved',''),
'C89':('partial','false: only the labels a level adds are compared, so nodes at different places compare Equal without being equal (c89_violated); what is compared is proved for ASCII names, and exactly for all octets in c89_exact'),
'C90':('proved','c90_bounds; c90_datagram for 65535 octets; c90_room adds that 52 n octets of buffer are enough to send it on when no two names collide under the hash function (C76)'),
'C91':('partial','proved for all octets in names and data, empty strings included; classes without a name, and types without a name or CERT as the type a signature covers or a question asks for, print alike (c91_violated, c81_rcode_violated); the extended rcode is not printed; c91_set_exact, c91_data_exact, c91_message_exact, c91_request_exact and c91_notify_exact say exactly which ones have the same text'),
'C92':('proved','c92_find, c92_insert (the place), c92_insert_rounds, c92_remove_rounds, c92_remove_name: all loops of the code with a limit on their rounds (Model/Limit) do the same as without'),
'C93':('partial','false: nodes taken out by remove and remove_node are never freed (c93_violated); proved exactly: dropping the tree leaves as many nodes allocated as removals took out of it, none without removals'),
'C94':('proved','c94_response, c94_request, c94_notify, c94_rrset; c94_history for a renderer used again; the octets are compared after a success (after an error `data` may show a length field not yet filled in, c94_refused_example)'),
'C95':('proved','c95_name, c95_any: the same loop with that many rounds always ends the same way; c95_long: the bound has to grow with the position'),
'C96':('partial','false: sums that overflow usize panic (c96_buffer_violated, c96_split_violated, c96_seq_split_violated), and without overflow checks OutputBuffer::skip moves back over octets already written; what happens is proved exactly for every usize and both builds, and where the sum is a usize it is what C13, C17, C20, C21 say'),
'C97':('partial','false: pointers and the fields patched by truncation count from the start of the buffer, so a message behind a length prefix decodes to another one when cut out (c97_prefix_violated), and a second message that does not fit marks the first one as truncated (c97_second_violated). Proved: exactly what happens in every renderer (c97_exact), and that messages written whole are read back from their place in the buffer, any number of them (c97_reads, c97_stream)'),
'C98':('proved','c98_caught, c98_unchanged, c98_find: any legal names, overflow checks on; c98_near for both builds; c98_far: labels that are not near do panic. c98_table and c98_near_table: the same against the exact table of C83, so that also a remove of an absent name (C60) is covered; c98_near_find, c98_near_chain, c98_near_callbacks, c98_near_levels, c98_near_stable: C59, C61, C63, C66, C69 for all names whose labels can be compared, not only ASCII; in a release build this is asked only of the names put into the tree, those looked for or removed have any octets (c98_release_example)'),
'C99':('partial','false: bottom of an emptied chain is still the old first node (c99_bottom_violated), nothing empties a chain between searches, so it overflows (c99_reuse_violated) and callbacks get a name put together with nodes of the search before (c99_callback_violated: panic). Proved exactly: every history of calls (c99_stack_partial), the array stands for the list of its live nodes in every search of every tree with any callback (c99_array), what a search leaves on any chain (c99_search_partial), how many searches a chain takes (c99_again)'),
'C100':('proved','c100_straight: any history; c100_message: the places of all names of a message that fits (a truncated one has the name of the question only); c100_search: write_name with that many looks for each rest of the name does the same'),
'C101':('proved','c101_exchange: the whole conversation; c101_answer: the answer to any octets accepted as a request, calls that remove or replace included; c101_sendable: what any calls make can be sent; c101_data: nothing added is lost. Class and TTL of records joined to a set already there are those of that set (C48)'),
'C102':('partial','false: the reply keeps the answer count of the request but not the record, so the reply to a NOTIFY with SOA can never be decoded (c102_reply_violated, for all of them); c102_request is the full claim for requests; c102_exact_partial: exactly the replies to a NOTIFY without SOA can be decoded'),
'C103':('proved','c103_serve: the server is a program of 5 calls (Spec/Server), the table that of C83; names in the tree ASCII, as C58 is false otherwise; names in requests of any octets in a release build, ASCII in a debug build (c83_find_debug_violated)'),
'C104':('proved','c104_zone, with the texts of addresses and base64 as std and the base64 crate have them (Model/Std)'),
'C105':('partial','c105_order_partial and c105_shuffle_partial: all insert-only histories, find and len alike; c105_find_partial: what they answer, in words of the names put in; c105_values_partial: any two histories with removals never find two different values, and agree on every value found under the name asked for. False in full (c105_violated): the node where a removed name branched off stays, is found without a value, and is counted'),
'C106':('partial','c106_both, c106_response, c106_plain: the decoders agree, for all octets; c106_pass_partial: a request written again is read as the same request, and as a message if and only if it announces no authority or additional records. False otherwise (c106_violated, for every such message): the counts are kept, the records are not, so a query with EDNS passed on announces a record that is not there'),
'C107':('partial','c107_exact: true if and only if all octets of the names print as themselves and CERT is not among the types named, so strings, octets, numbers, times, addresses and classes that come from text never fail; without a condition on the lines but their length in c107_lines_exact. False otherwise (c107_violated): names with a semicolon are read as another name each time, CERT is refused'),
'C108':('proved','c108_calls: any calls, no condition on arguments or order, on a buffer continued by any octets; c108_response, c108_whole, c108_threshold: all responses, any larger buffer; c108_request, c108_notify'),
'C109':('proved','c109_hops, c109_order, c109_settled; hop_iff says exactly what one forwarder sends; c109_small_violated: below 526 octets the panic of C46 makes a chain differ from its smallest member'),
'C110':('proved','c110_cache: the resolver is a program of a user (Spec/Server: keep, told, learn, serve); names in the tree ASCII, as C58 is false otherwise; names in requests of any octets in a release build, ASCII in a debug build'),
'C111':('proved','c111_network by induction over Sent (Spec/Network); c103_told says it for one server, any buffer and any names (a debug build may panic, then nothing is sent). The participants are programs of a user (Spec/Server, Spec/Hops). That something is sent at all is in C103, C104, C109 and C110'),
'C112':('proved','c112_session by induction over the events; the server is a program of a user (Spec/Session). Sets can be sent (Stored): they fit, none is OPT, at most 65535 records of a name'),
'C113':('proved','c113_through (with forwarders), c113_lookup (without); the client is a program of a user (Spec/Client), the server that of C103. Sets can be sent (Stored); octets of the network that decode to a response with the id and question but are not from the server are excluded (Unforged)'),
'C114':('proved','c114_zone; loader, server, forwarder and client are programs of a user (Spec/Server, Spec/Hops, Spec/Client)'),
'C115':('proved','c115_resolver: the resolver program is in Spec/Resolver and is a user program, not code of the crate; c115_example meets every hypothesis with two queries, forwarders and noise. Queries for owners without lines are left out (the referral would be kept as data).'),
'C116':('proved','c116_chain over the inductive definition Caches of Spec/Resolver; c116_example is a chain of three resolvers with forwarders and noise that meets every hypothesis. The resolver is a user program, not code of the crate.'),
'C117':('partial','proved for the record sets that are printable (Spec/Text: exactly those that C70 shows to be read back, c70_exact): then the state is identical, and the lines are the only ones the text can be cut into. The code violates the rest: a CERT record is printed as URI and refused, so the restart fails (c117_violated)'),
}
