{"id": "C01", "title": "Decoding a name is total and safe", "statement": "Name::from_wire on any buffer and cursor terminates, never panics and never reads outside the buffer; when it succeeds the result is a valid name (at most 255 octets, 1..63 octets per label, at most 128 labels, terminated by the root label) and the cursor moved forward, to a position inside the buffer.", "quantifier": "every byte buffer and every cursor position in it", "why_tests_cant": "the input space is all byte strings, including pointer loops and truncated labels; a fuzzer samples it", "anchors": ["src/name.rs: Name::from_wire", "src/util/input_buffer.rs: InputBuffer"]}
{"id": "C02", "title": "Decoding a name is exactly RFC 1035 decompression", "statement": "Name::from_wire succeeds with labels L and cursor q exactly when the octets at the cursor spell L under RFC 1035 label/pointer rules with every pointer strictly below the start and below every earlier pointer and L within the length limit; q is just past the root label or the first pointer.", "quantifier": "every buffer, cursor and label list", "why_tests_cant": "both directions (soundness and completeness) range over all byte strings and all label lists", "anchors": ["src/name.rs: Name::from_wire"]}
{"id": "C03", "title": "Uncompressed name encoding decodes to itself", "statement": "For every valid name, placing its wire form anywhere in any buffer and decoding there gives the same name, octet for octet and case preserved, consuming exactly its length.", "quantifier": "every valid name, prefix and suffix", "why_tests_cant": "unbounded set of names and contexts", "anchors": ["src/name.rs: Name::from_wire, Name::len", "src/message_render.rs: write_name"]}
{"id": "C04", "title": "Parsing a name from text respects the name limits", "statement": "Whenever Name::new succeeds the result is a valid name: total length at most 255, labels 1..63 octets, terminated by the root.", "quantifier": "every input string", "why_tests_cant": "the violating strings are long and use an escape at one exact position; sampled tests do not reach them", "anchors": ["src/name.rs: string_parse, Name::new"]}
{"id": "C05", "title": "A printed name parses back to itself", "statement": "Name::new(name.to_string()) succeeds and gives a name equal to the original.", "quantifier": "every valid name, with arbitrary octets in labels", "why_tests_cant": "labels hold arbitrary octets; tests only use letters and digits", "anchors": ["src/name.rs: string_parse", "src/label_slice.rs: Display"]}
{"id": "C06", "title": "Escape sequences in names mean what RFC 1035 says", "statement": "In Name::new, \\X stands for the single octet X (so \\. is a dot inside a label) and \\DDD for the octet with decimal value DDD; a string without escapes is split at the dots, with @ and . denoting the root, a missing final dot implied, and is accepted exactly when the labels obey the limits.", "quantifier": "every input string", "why_tests_cant": "the grammar is infinite", "anchors": ["src/name.rs: string_parse"]}
{"id": "C07", "title": "Name equality is case-insensitive label equality and an equivalence", "statement": "a == b holds exactly when a and b have the same number of labels and corresponding labels are equal up to ASCII case; it is reflexive, symmetric and transitive.", "quantifier": "all pairs and triples of valid names", "why_tests_cant": "relation over an unbounded domain", "anchors": ["src/name.rs: PartialEq for Name", "src/label_slice.rs: LabelSlice::equals"]}
{"id": "C08", "title": "Equal names hash equally", "statement": "If a == b then both feed the hasher the same octets, so any hash map keyed by names finds the entry under any letter case.", "quantifier": "all pairs of valid names, every hasher", "why_tests_cant": "hash/eq agreement must hold for every pair", "anchors": ["src/name.rs: Hash for Name"]}
{"id": "C09", "title": "Name ordering is the DNSSEC canonical order", "statement": "a.cmp(b) is the RFC 4034 canonical order (labels compared right to left as lower-cased unsigned octet strings, absent octets first); it is a total order: antisymmetric and transitive, and never panics.", "quantifier": "all pairs and triples of valid names", "why_tests_cant": "transitivity over all triples, arbitrary octets", "anchors": ["src/name.rs: Ord for Name, get_relation", "src/label_slice.rs: LabelSlice::compare"]}
{"id": "C10", "title": "Ordering agrees with equality", "statement": "a.cmp(b) is Equal exactly when a == b.", "quantifier": "all pairs of valid names", "why_tests_cant": "must hold for every pair", "anchors": ["src/name.rs: Ord for Name, PartialEq for Name", "src/label_slice.rs: LabelSlice::compare"]}
{"id": "C11", "title": "get_relation classifies two names correctly", "statement": "get_relation reports Equal, SubDomain, SuperDomain or CommonAncestor exactly according to whether the label lists are equal up to case, one is a proper suffix of the other, or neither, and common_label_count is the number of trailing labels (root included) they share.", "quantifier": "all pairs of valid names", "why_tests_cant": "unbounded pairs", "anchors": ["src/name.rs: get_relation", "src/label_slice.rs: LabelSlice::compare"]}
{"id": "C12", "title": "is_subdomain decides the suffix relation", "statement": "a.is_subdomain(b) is true exactly when b's label list is, up to case, a suffix of a's label list.", "quantifier": "all pairs of valid names", "why_tests_cant": "the wrong answers need octet coincidences across a label boundary", "anchors": ["src/name.rs: Name::is_subdomain"]}
{"id": "C13", "title": "Label surgery keeps names valid and selects the right labels", "statement": "split, strip_left, strip_right, parent, into_ancestor and into_child give the name made of exactly the selected labels (plus the root), fail or panic exactly outside the documented range, and never give an invalid name.", "quantifier": "every valid name and every label index (sums beyond usize: C96)", "why_tests_cant": "unbounded names and indices", "anchors": ["src/name.rs: split, parent, strip_left, strip_right, into_ancestor, into_child"]}
{"id": "C14", "title": "Name concatenation appends labels or reports the limit", "statement": "concat and concat_all give the name whose labels are those of the parts in order, and return Err exactly when the total exceeds 255 octets or 128 labels; they do not panic.", "quantifier": "every list of valid names", "why_tests_cant": "limit boundary over arbitrary lists", "anchors": ["src/name.rs: concat_all, concat"]}
{"id": "C15", "title": "reverse reverses the labels", "statement": "name.reverse() has the labels in opposite order under the root, is valid, and is an involution.", "quantifier": "every valid name", "why_tests_cant": "unbounded", "anchors": ["src/name.rs: reverse"]}
{"id": "C16", "title": "as_lowercase normalises", "statement": "as_lowercase yields a name equal to the original, with every ASCII capital replaced and every other octet kept; it is idempotent; two names are equal exactly when their lower-cased octets are identical.", "quantifier": "every valid name", "why_tests_cant": "unbounded", "anchors": ["src/name.rs: as_lowercase, MAP_TO_LOWER"]}
{"id": "C17", "title": "Label sequences partition and rebuild a name", "statement": "Splitting a label sequence returns exactly the requested labels and leaves exactly the others; concatenating label sequences under an absolute last one gives the name with all labels in order, with Err exactly at the documented misuse or limit.", "quantifier": "every valid name, index range (sums beyond usize: C96) and sequence list", "why_tests_cant": "unbounded", "anchors": ["src/label_sequence.rs: split, concat_all, is_absolute", "src/name.rs: into_label_sequence"]}
{"id": "C18", "title": "is_wildcard and is_root", "statement": "is_root holds exactly for the name with no labels; is_wildcard exactly when the first label is the single octet '*'.", "quantifier": "every valid name", "why_tests_cant": "unbounded", "anchors": ["src/name.rs: is_wildcard, is_root"]}
{"id": "C19", "title": "Every chain of name operations stays within the limits", "statement": "Starting from names decoded from wire or the root and applying any sequence of concat, split, reverse, lower-casing, stripping, ancestor/child and label-sequence operations, every name obtained is valid.", "quantifier": "every operation history", "why_tests_cant": "histories are unbounded", "anchors": ["src/name.rs: impl Name", "src/label_sequence.rs: impl LabelSequence"]}
{"id": "C20", "title": "Input cursor reads are bounded and transactional", "statement": "read_u8/u16/u32/read_bytes return the big-endian value of the next octets and advance by exactly that many; if too few octets remain they return Err and neither cursor nor data change; the cursor never passes the end; after set_data a cursor in any state reads the new octets from the front.", "quantifier": "every buffer, cursor and read sequence (lengths whose sum with the cursor exceeds usize: C96)", "why_tests_cant": "unbounded histories", "anchors": ["src/util/input_buffer.rs: InputBuffer"]}
{"id": "C21", "title": "Output buffer writes are append-only, bounded and atomic", "statement": "Every write either appends exactly its octets or returns Err leaving the buffer unchanged; positional writes change only the addressed octets; the length never exceeds the capacity; no operation panics.", "quantifier": "every operation history and capacity (sizes whose sum with the length exceeds usize: C96)", "why_tests_cant": "unbounded histories", "anchors": ["src/util/output_buffer.rs: OutputBuffer"]}
{"id": "C22", "title": "What is written is what is read", "statement": "Reading back with InputBuffer a sequence of integers and byte strings written with OutputBuffer gives the same values in order.", "quantifier": "every sequence of writes", "why_tests_cant": "unbounded sequences", "anchors": ["src/util/output_buffer.rs", "src/util/input_buffer.rs"]}
{"id": "C23", "title": "Hex text round trip", "statement": "from_hex(to_hex(b)) = b for every byte string, also with white space inserted anywhere; from_hex returns None exactly for a non-hex character or an odd number of digits.", "quantifier": "every byte string / text", "why_tests_cant": "unbounded strings", "anchors": ["src/util/hex.rs"]}
{"id": "C24", "title": "Name compression is lossless", "statement": "After any history of writes through one MessageRender (names compressed or not, integers, octets, skips and in-place integer patches of skipped space), decoding at the offset where a name was written gives exactly that name, case preserved, and consumes exactly the octets that write produced.", "quantifier": "every write history", "why_tests_cant": "depends on the whole history through the offset table and hash collisions", "anchors": ["src/message_render.rs: write_name, OffSetItem, find_offset", "src/name.rs: from_wire"]}
{"id": "C25", "title": "Compression pointers point strictly backwards and within 14 bits", "statement": "Every compression pointer a MessageRender emits is below 0x4000 and strictly below the offset of the name that contains it, so decoding terminates.", "quantifier": "every write history", "why_tests_cant": "whole-history invariant", "anchors": ["src/message_render.rs: write_name, MAX_COMPRESS_POINTER"]}
{"id": "C26", "title": "Rendering never exceeds capacity and never rewrites earlier output", "statement": "write_name either appends at the end of the buffer or fails; octets already present are never changed and the length never exceeds the capacity.", "quantifier": "every state and name", "why_tests_cant": "unbounded states", "anchors": ["src/message_render.rs: write_name, reset"]}
{"id": "C27", "title": "Uncompressed rendering is verbatim", "statement": "write_name(name,false) appends exactly the wire form of the name.", "quantifier": "every render state and valid name", "why_tests_cant": "unbounded", "anchors": ["src/message_render.rs: write_name"]}
{"id": "C28", "title": "Compression never enlarges", "statement": "write_name(name,true) never appends more octets than the wire form of the name.", "quantifier": "every render state and valid name", "why_tests_cant": "unbounded", "anchors": ["src/message_render.rs: write_name"]}
{"id": "C29", "title": "Resetting a renderer forgets everything", "statement": "After reset the renderer behaves as a new one with the same capacity: no earlier name is used as a compression target.", "quantifier": "every history before reset", "why_tests_cant": "unbounded histories", "anchors": ["src/message_render.rs: MessageRender, reset"]}
{"id": "C30", "title": "RR type and class numbers are faithful", "statement": "RRType::new(v).as_u16() = v and RRClass::new(v).as_u16() = v for every 16-bit v, distinct numbers give distinct values, and wire encoding is the two octets of the number.", "quantifier": "every 16-bit value", "why_tests_cant": "exhaustive table", "anchors": ["src/rr_type.rs", "src/rr_class.rs"]}
{"id": "C31", "title": "RR type, class and rcode mnemonics parse back", "statement": "For every known type, class and response code, parsing the printed mnemonic in any letter case gives the same value, distinct values print distinct mnemonics, and nothing but a mnemonic is accepted.", "quantifier": "every variant and every text", "why_tests_cant": "whole table and every letter case", "anchors": ["src/rr_type.rs: to_str, FromStr", "src/rr_class.rs", "src/rcode.rs"]}
{"id": "C32", "title": "RR type comparison agrees with equality", "statement": "Two RR types compare Equal exactly when they are ==, and the order is the numeric order.", "quantifier": "all pairs of types", "why_tests_cant": "all pairs", "anchors": ["src/rr_type.rs: Ord, PartialEq"]}
{"id": "C33", "title": "Opcode and rcode survive the header", "statement": "Opcode::new and Rcode::new map every number to the assigned code (others to Reserved) and to_u8 of a non-reserved code gives the number back.", "quantifier": "every octet", "why_tests_cant": "exhaustive table", "anchors": ["src/opcode.rs", "src/rcode.rs"]}
{"id": "C34", "title": "Header wire round trip", "statement": "Writing any header gives exactly 12 octets and reading them back gives the same id, flags, opcode, rcode and counts; reading any 12 octets and writing them back changes only the reserved Z bit and unassigned opcode/rcode values.", "quantifier": "every header / every 12 octets", "why_tests_cant": "2^96 headers", "anchors": ["src/header.rs: from_wire, to_wire"]}
{"id": "C35", "title": "Header flags are independent", "statement": "set_flag sets exactly the named flag, is_flag_set reads it, and setting or clearing one flag never changes another, nor opcode, rcode, id or counts.", "quantifier": "every flag word, pair of flags and value", "why_tests_cant": "every header value", "anchors": ["src/header_flag.rs", "src/header.rs: set_flag, is_flag_set"]}
{"id": "C36", "title": "Every record data type survives the wire", "statement": "For every RR type and every record data value whose fields fit their wire width, rendering it (names compressed against any earlier history) and decoding with the written RDLENGTH gives the same value and consumes exactly RDLENGTH octets.", "quantifier": "every type, value and render history", "why_tests_cant": "unbounded values and histories", "anchors": ["src/rdata.rs", "src/rdatas.rs", "src/rdatafield/wire_encode.rs", "src/rdatafield/wire_decode.rs", "rdata-derive/src"]}
{"id": "C37", "title": "Record data decoding honours RDLENGTH", "statement": "RData::from_wire with a given RDLENGTH either fails or consumes exactly RDLENGTH octets of the message, never reads past them except through name compression pointers, and never panics.", "quantifier": "every type, buffer and length", "why_tests_cant": "adversarial inputs", "anchors": ["src/rdata.rs: from_wire", "src/rdatafield/wire_decode.rs"]}
{"id": "C38", "title": "Oversized record data is rejected, not corrupted", "statement": "If a field does not fit its wire length prefix (character-string over 255 octets, RDATA over 65535) encoding returns Err rather than emitting octets that decode to something else.", "quantifier": "every record data value", "why_tests_cant": "values above the length-prefix limits", "anchors": ["src/rdatafield/wire_encode.rs: byte_binary_to_wire", "src/rrset.rs: to_wire"]}
{"id": "C39", "title": "RRset wire round trip", "statement": "Rendering an RRset and decoding that many records at its offset gives records with the same owner (case preserved), type, class, TTL and data in order.", "quantifier": "every RRset with fitting data and every render history", "why_tests_cant": "unbounded", "anchors": ["src/rrset.rs: to_wire, from_wire"]}
{"id": "C40", "title": "RRset equality is an equivalence", "statement": "RRset == is reflexive, symmetric and transitive, and two RRsets with the same owner, type, class, TTL and the same data up to order are equal.", "quantifier": "all RRsets", "why_tests_cant": "needs duplicate data to fail", "anchors": ["src/rrset.rs: PartialEq"]}
{"id": "C41", "title": "Character-strings survive text", "statement": "Printing any octet string as a quoted character-string and reading it back gives the same octets; a character-string is accepted exactly if it is quoted, correctly escaped and of at most 255 octets, and denotes what its escapes say.", "quantifier": "every octet string up to 255", "why_tests_cant": "arbitrary octets, escapes", "anchors": ["src/rdatafield/string_encode.rs", "src/rdatafield/string_decode.rs", "src/util/string_buffer.rs"]}
{"id": "C42", "title": "Tokenizing text never loses or duplicates input", "statement": "Calling next on a StringBuffer yields exactly the white-space separated words in order and then None, and read_left/left_str yields exactly the text behind the words already read.", "quantifier": "every text and number of calls", "why_tests_cant": "unbounded text", "anchors": ["src/util/string_buffer.rs"]}
{"id": "C43", "title": "Decoding a message is total", "statement": "Response::from_wire (and Request, Notify) on any octets returns Ok or Err and never panics or loops.", "quantifier": "every byte string", "why_tests_cant": "adversarial inputs", "anchors": ["src/response.rs: from_wire", "src/request.rs", "src/notify.rs"]}
{"id": "C44", "title": "Message wire round trip", "statement": "A response whose sections hold RRsets with fitting data and that fits the buffer decodes to the same header (with recalculated counts), question and sections.", "quantifier": "every such response and capacity", "why_tests_cant": "unbounded messages", "anchors": ["src/response.rs: to_wire, from_wire"]}
{"id": "C45", "title": "Truncation yields a valid prefix with TC set", "statement": "If the message does not fit the buffer, the output is at most the capacity, has the TC flag set, and decodes to the same id and question with section counts equal to the records actually present, which are a prefix of the message's records.", "quantifier": "every response and capacity", "why_tests_cant": "every cut point", "anchors": ["src/response.rs: to_wire, truncate"]}
{"id": "C46", "title": "Rendering a response never panics", "statement": "Response::to_wire returns Ok or Err for every response and buffer size.", "quantifier": "every response and capacity", "why_tests_cant": "the panic needs one exact capacity", "anchors": ["src/response.rs: to_wire, truncate", "src/util/output_buffer.rs: truncate"]}
{"id": "C47", "title": "Header counts describe the sections", "statement": "After recalculate_header the four counts equal the question count and the number of records each section puts on the wire.", "quantifier": "every response with fewer than 65536 records per section", "why_tests_cant": "unbounded sections", "anchors": ["src/response.rs: recalculate_header, Section::rr_count"]}
{"id": "C48", "title": "Builder adds records without losing any", "statement": "ResponseBuilder::add_rrset appends the records to the section: to the RRset with same owner and type if there is one, otherwise as a new RRset at the end; other sections and RRsets are untouched, so at any time no section has two RRsets of the same owner and type.", "quantifier": "every builder history", "why_tests_cant": "unbounded histories", "anchors": ["src/response_builder.rs: add_rrset"]}
{"id": "C49", "title": "Builder EDNS is what get_edns returns", "statement": "After edns(e) on a builder with no EDNS yet, the finished message's get_edns returns e (without options); setting it again replaces it.", "quantifier": "every builder history", "why_tests_cant": "histories", "anchors": ["src/response_builder.rs: edns", "src/edns.rs", "src/response.rs: get_edns"]}
{"id": "C50", "title": "Removing records removes exactly the matching ones", "statement": "remove_rrset_by removes from the named section exactly the RRsets satisfying the predicate and keeps the others in order.", "quantifier": "every section and predicate", "why_tests_cant": "unbounded", "anchors": ["src/response_builder.rs: remove_rrset_by"]}
{"id": "C51", "title": "Section iteration yields every RRset once", "statement": "Any interleaving of next and next_back over a message's RRsets yields each RRset exactly once, next from the front and next_back from the back, in section order, then None for ever.", "quantifier": "every message and interleaving", "why_tests_cant": "interleavings are unbounded", "anchors": ["src/response_iter.rs"]}
{"id": "C52", "title": "size_hint is exact at every point of iteration", "statement": "size_hint returns the exact number of RRsets not yet yielded.", "quantifier": "every message and interleaving", "why_tests_cant": "needs next_back before size_hint", "anchors": ["src/response_iter.rs: size_hint"]}
{"id": "C53", "title": "Parsing a section keeps every record", "statement": "Decoding a section of n records gives RRsets whose records in order are exactly the n records decoded; adjacent records of the same owner and type are grouped, never reordered.", "quantifier": "every section", "why_tests_cant": "unbounded", "anchors": ["src/response.rs: Section::from_wire"]}
{"id": "C54", "title": "OPT may only appear in the additional section", "statement": "Response::from_wire rejects every message with an OPT record in the answer or authority section.", "quantifier": "every message", "why_tests_cant": "position matters", "anchors": ["src/response.rs: Section::from_wire"]}
{"id": "C55", "title": "EDNS pseudo-record mapping is faithful", "statement": "Converting an EDNS value to its OPT record and back gives the same version, extended rcode, UDP size and DO flag; writing it directly and writing its record give the same octets.", "quantifier": "every EDNS value", "why_tests_cant": "all field values", "anchors": ["src/edns.rs"]}
{"id": "C56", "title": "Request decoding checks the section counts", "statement": "Request::from_wire accepts only messages with one question, no answer and no authority records; an encoded request decodes to the same header and question.", "quantifier": "every message / request", "why_tests_cant": "all counts", "anchors": ["src/request.rs"]}
{"id": "C57", "title": "Notify messages round trip", "statement": "A NOTIFY request or response built for a zone encodes to a message with opcode NOTIFY, AA set and one SOA question for the zone, and decodes to the same.", "quantifier": "every zone name and id", "why_tests_cant": "unbounded", "anchors": ["src/notify.rs"]}
{"id": "C58", "title": "The domain tree is a map from names to values", "statement": "After any history of insert and remove_node, exact find of a name returns the last value inserted under that name (up to letter case) and not removed since, and nothing otherwise; insert returns the replaced value.", "quantifier": "every operation history", "why_tests_cant": "node fission, rotations and cascaded deletions over unbounded histories", "anchors": ["src/domaintree/tree.rs: insert, find_node_ext, remove_node, node_fission", "src/domaintree/node.rs"]}
{"id": "C59", "title": "Partial match finds the closest encloser", "statement": "find of an absent name reports PartialMatch with the deepest tree node whose name is an ancestor, and NotFound exactly when there is none.", "quantifier": "every tree reachable by a history on ASCII names and every name (ASCII in a debug build, any octets in a release build)", "why_tests_cant": "all trees and names", "anchors": ["src/domaintree/tree.rs: find_node_ext"]}
{"id": "C60", "title": "remove(name) removes only that name", "statement": "remove(name) returns and deletes the value stored under name; if name is not stored it returns None and changes nothing.", "quantifier": "every tree and name", "why_tests_cant": "needs an absent name with a stored ancestor", "anchors": ["src/domaintree/tree.rs: remove"]}
{"id": "C61", "title": "Each level of the domain tree stays a balanced search tree", "statement": "After any history on ASCII names every level is a binary search tree in canonical order with the red-black properties, so its height is at most 2*log2(n+1).", "quantifier": "every operation history", "why_tests_cant": "rebalancing cases over unbounded histories", "anchors": ["src/domaintree/tree.rs: insert_fixup, remove_fixup, left_rotate, right_rotate"]}
{"id": "C62", "title": "len counts the nodes", "statement": "len() equals the number of names in the tree (nodes created and not deleted) after every history, and is 0 for an emptied tree.", "quantifier": "every operation history", "why_tests_cant": "unbounded histories", "anchors": ["src/domaintree/tree.rs: len, insert, remove_node, clear"]}
{"id": "C63", "title": "Node chain rebuilds the absolute name", "statement": "After find, the chain's absolute name is the name of the node found.", "quantifier": "every tree and name", "why_tests_cant": "unbounded", "anchors": ["src/domaintree/node_chain.rs"]}
{"id": "C64", "title": "Clearing and cloning the tree", "statement": "clear() leaves an empty tree of len 0 that finds nothing; clone() gives a tree with the same answers to every find, usable without panicking.", "quantifier": "every tree", "why_tests_cant": "unbounded", "anchors": ["src/domaintree/tree.rs: clear, clone, Drop", "src/domaintree/node.rs: deep_clone"]}
{"id": "C65", "title": "Node flags are independent", "statement": "Setting or reading one node flag (colour, subtree root, callback, wildcard) never affects another.", "quantifier": "every flag octet", "why_tests_cant": "all combinations", "anchors": ["src/domaintree/flag.rs"]}
{"id": "C66", "title": "Callbacks run on the path and can stop the search", "statement": "find with a callback calls it exactly on the callback-enabled ancestor nodes on the path, in root-to-leaf order, and stops with a partial match as soon as it returns true.", "quantifier": "every tree, name and callback", "why_tests_cant": "unbounded", "anchors": ["src/domaintree/tree.rs: find_node_ext"]}
{"id": "C67", "title": "Generated random names are valid", "statement": "Every name RandNameGenerator yields is valid: parsing never fails, for every outcome of the random source. The names it can yield are exactly the valid ones with at least one label, of lower case letters, digits and hyphens, whose labels but the last have at most 62 octets.", "quantifier": "every random outcome", "why_tests_cant": "random outcomes cannot be enumerated", "anchors": ["src/rand_name_generator.rs"]}
{"id": "C68", "title": "Tree operations are memory safe and terminate", "statement": "No history of tree operations dereferences a null or freed node, loops forever or fails an assertion.", "quantifier": "every operation history", "why_tests_cant": "unsafe pointer code over unbounded histories", "anchors": ["src/domaintree/tree.rs: insert, remove, remove_node, find, clear", "src/domaintree/node.rs"]}
{"id": "C69", "title": "Node pointers stay valid", "statement": "A NodePtr obtained for an ASCII name with a value stays the node of that name, whatever other names are inserted, removed or flagged (rotations, exchanges and splits never move a name to another node), as long as that name keeps a value and the tree is not cleared.", "quantifier": "every operation history", "why_tests_cant": "exchange/rotation relink nodes in many ways", "anchors": ["src/domaintree/tree.rs: remove_node, node_fission", "src/domaintree/node.rs: exchange, split_to_parent"]}
{"id": "C70", "title": "Record sets survive their text", "statement": "Printing a record set gives one line per record; each line parses (blanks, letter case of class and type, and a missing class IN do not matter) to that record, and RRset::from_strs of the lines is the set again; lines that are not of one set are refused.", "quantifier": "every record set of every record type", "why_tests_cant": "unbounded values in every field", "anchors": ["src/rrset.rs: Display, FromStr, from_strs, header", "src/rdata.rs: Display, from_str", "src/rdatafield/string_encode.rs", "src/rdatafield/string_decode.rs", "rdata-derive/src/expand.rs"]}
{"id": "C71", "title": "Parsing text never panics", "statement": "RRset::from_str, RRset::from_strs, RData::from_str and every sequence of StringBuffer calls return a value or Err on every text.", "quantifier": "every text, record type and call history", "why_tests_cant": "every Unicode text", "anchors": ["src/util/string_buffer.rs", "src/rrset.rs: FromStr", "src/rdata.rs: from_str", "src/rdatafield/string_decode.rs"]}
{"id": "C72", "title": "Names written before are not spelled again", "statement": "MessageRender::write_name with compression spells exactly the labels before the first one from which on the rest of the name was written before (as a name or as its parent), and puts a pointer there; it succeeds exactly when these octets fit. A name written before costs two octets.", "quantifier": "every history of writes of a message of at most 0x4000 octets, and every name", "why_tests_cant": "unbounded histories; depends on the whole hash table", "anchors": ["src/message_render.rs: write_name, find_offset, add_offset"]}
{"id": "C73", "title": "Messages are encoded as the RFC says, octet by octet", "statement": "Response::to_wire writes exactly the RFC 1035 encoding with full name compression (every name pointing at the first earlier copy of its longest known tail) whenever that fits the buffer; otherwise header with TC and question, and Err exactly if these do not fit.", "quantifier": "every message and every buffer size", "why_tests_cant": "unbounded messages; every buffer size", "anchors": ["src/response.rs: to_wire, truncate", "src/message_render.rs: write_name", "src/rrset.rs: to_wire"]}
{"id": "C74", "title": "Names in newer record types are not compressed", "statement": "As RFC 3597 section 4 asks, Response::to_wire writes names in the data of types newer than RFC 1035 (RP, SRV, NAPTR, DNAME, RRSIG, NSEC) in full, without pointers, and all other messages as in RFC 1035.", "quantifier": "every message", "why_tests_cant": "unbounded messages", "anchors": ["src/rdatafield/wire_encode.rs: name", "src/response.rs: to_wire"]}
{"id": "C75", "title": "The decoder accepts exactly the well-formed messages", "statement": "Response::from_wire(raw) is Ok(m) if and only if raw spells the message m as in RFC 1035 section 4: header, one question, and as many records of supported types as the header says, with names compressed in any legal way and data of exactly the announced length; runs of the same owner and type are one set. It is Err for all other octets. Octets behind the last record do not matter. The same for Request::from_wire, RRset::from_wire and Question::from_wire.", "quantifier": "every octet string", "why_tests_cant": "all octet strings, all compression layouts", "anchors": ["src/response.rs: from_wire", "src/request.rs: from_wire", "src/rrset.rs: from_wire", "src/rdata.rs: from_wire", "src/question.rs: from_wire", "src/header.rs: from_wire", "src/name.rs: from_wire"]}
{"id": "C76", "title": "Received messages can be sent on", "statement": "A message that from_wire returned is written by to_wire, whenever that returns Ok, so that the receiver decodes the same message, or its header with TC and its question; the same message if the buffer is large enough.", "quantifier": "every accepted octet string and every buffer", "why_tests_cant": "all octet strings and buffer sizes", "anchors": ["src/response.rs: from_wire, to_wire"]}
{"id": "C77", "title": "build makes the message its texts describe", "statement": "response_builder::build returns a response (QR and RD set, class IN, a NOERROR QUERY) whose question is the name and type given, whose sections hold exactly the records of the groups of lines of that section, in order, sets of the same owner and type joined, with an EDNS record behind the additional records if a UDP size is given and header counts that match; it fails if any text does not parse; and what it builds can be sent and is received unchanged.", "quantifier": "every name, type, groups of lines and UDP size", "why_tests_cant": "unbounded texts", "anchors": ["src/response_builder.rs: build, add_rrset, edns, done", "src/rrset.rs: from_strs"]}
{"id": "C78", "title": "Records parsed from text can be sent", "statement": "Every record set that RRset::from_strs accepts can be written in a message: all its names and strings are within the limits of the wire format, so the receiver decodes the same set.", "quantifier": "every text of every record type", "why_tests_cant": "every text", "anchors": ["src/rrset.rs: from_strs, to_wire", "src/rdatafield/string_decode.rs", "src/rdatafield/wire_encode.rs: byte_binary, name"]}
{"id": "C79", "title": "Message equality is the same header, question and sets", "statement": "Comparing two responses never panics and is true exactly if headers, questions (name without letter case, type, class) and, in every section, the sets one by one in order (owner, type and data in any order) are the same; it is an equivalence relation.", "quantifier": "every pair of messages", "why_tests_cant": "all pairs and all data orders", "anchors": ["src/response.rs: Response PartialEq, Section", "src/question.rs", "src/rrset.rs: PartialEq"]}
{"id": "C80", "title": "Label sequences and slices compare, print and parse by their labels", "statement": "Slices of names and sequences show the labels left after strip_left/strip_right (which panic only when none would be left); equals is equality of the labels, with or without letter case; compare gives the number of common labels at the right, the relation and the canonical order; LabelSequence cmp, Display and FromStr agree: Equal exactly for the same labels up to case, text is the labels joined by dots, and reading it back gives the sequence, with the root label exactly if the text ends with a dot.", "quantifier": "every run of labels, every slice of it, every text", "why_tests_cant": "all octets and runs of labels", "anchors": ["src/label_slice.rs: from_name, from_label_sequence, equals, compare, strip_left, strip_right, Display", "src/label_sequence.rs: equals, split, cmp, Display, FromStr"]}
{"id": "C81", "title": "Printed messages show the message", "statement": "Displaying a Response, Request or NotifyRequest never fails, for received messages in particular; the text of a response is the header (opcode, rcode, id, flags, counts), the EDNS line if the last additional record is OPT, the question and, under a title for every section with records, one line per record in order; each of these lines parses back to its record; and messages with the same text are the same.", "quantifier": "every message", "why_tests_cant": "unbounded messages; all pairs of messages", "anchors": ["src/response.rs: Display", "src/header.rs: Display", "src/question.rs: Display", "src/edns.rs: Display", "src/request.rs: Display", "src/notify.rs: Display", "src/rrset.rs: Display"]}
{"id": "C82", "title": "A builder call changes exactly what it names, and the last call wins", "statement": "After any sequence of calls on a ResponseBuilder the id, opcode, rcode, question and every flag are those of the last call that set them (or as before), a section no call named is unchanged, and the header counts change by done alone, after which they are the numbers of records.", "quantifier": "every sequence of builder calls and every message", "why_tests_cant": "unbounded call histories", "anchors": ["src/response_builder.rs: id, set_flag, clear_flag, opcode, rcode, question, make_response, clear_section, with_section, done", "src/header.rs: set_flag"]}
{"id": "C83", "title": "Which names have nodes in a domain tree, after every history", "statement": "After any sequence of insert, remove_node, remove, find, set_callback, set_wildcard and clear the nodes of a DomainTree are these: insert gives its name a node and, if the name branches off from a name with a node at a name without one, that name a node without a value, and changes nothing else; it answers the value replaced, or for a new node Some(None) if longer names end with it and None if not. Removing takes the value of its name (for remove: of the longest end of the name that has a node) and with it exactly the nodes without a value on the way up that have no other node below them. find gives the node of the longest end of the name that has one, with the value and flags last set; len is the number of nodes (plus, after clear, those cleared), is_empty tells if there are none.", "quantifier": "every history of operations, debug and release builds; names are legal, those inserted are of ASCII octets, and in a debug build so are those looked up and removed", "why_tests_cant": "unbounded histories and trees; all interleavings of splits, rotations and removals", "anchors": ["src/domaintree/tree.rs: insert, remove, remove_node, find, len, is_empty, clear", "src/domaintree/node.rs", "src/domaintree/flag.rs"]}
{"id": "C84", "title": "Which record lines are read, and as what", "statement": "RRset::from_str answers a record set exactly on the texts of this grammar, white space characters at both ends taken off: owner name, TTL, class (IN if missing), type and the data in the notation of the type, as words separated by blanks (character-strings in quotes, base64 and texts up to the end); the set has exactly the fields the words denote: names by their labels, numbers in decimal, addresses as dotted quads and RFC 4291 texts, octets in hexadecimal or base64, times as calendar dates, types and classes by mnemonic. What stands behind the data is ignored. No text has two readings. The same for RData::from_str and, line by line, RRset::from_strs.", "quantifier": "every text in UTF-8 and every record type, debug and release builds", "why_tests_cant": "every text", "anchors": ["src/rrset.rs: FromStr, from_strs", "src/rdata.rs: from_str, from_string_buffer", "src/rdatafield/string_decode.rs", "src/util/string_buffer.rs", "src/rr_type.rs: FromStr", "src/rr_class.rs: FromStr", "src/name.rs: new, string_parse"]}
{"id": "C85", "title": "A domain tree of any names stays a tree", "statement": "In a release build the names of a DomainTree may have any octets (in a debug build other than ASCII octets panic, C68). No sequence of operations panics or touches memory that is not a node of the tree; afterwards it is a tree of legal names, every level balanced (height at most twice the logarithm of its size); len counts the nodes; find ends and answers a node of the name, a node above it, or nothing. Only the order, and so finding every name, needs ASCII.", "quantifier": "every history of operations on legal names of any octets (debug build: ASCII), and every name searched", "why_tests_cant": "unbounded histories; a comparison that is not an order", "anchors": ["src/domaintree/tree.rs: insert, remove, remove_node, find, find_node_ext, clear, insert_fixup, remove_fixup, node_fission", "src/label_slice.rs: compare"]}
{"id": "C86", "title": "A domain tree neither loses nor copies values", "statement": "The values given to insert are exactly those handed back by insert, remove and remove_node, those still stored and those dropped by clear. A value is answered only if it was inserted before under the name asked for (for remove: that name or one above it) and not cleared since. Every inserted name is found.", "quantifier": "every history of operations on legal names of any octets (debug build: ASCII)", "why_tests_cant": "unbounded histories; a comparison that is not an order", "anchors": ["src/domaintree/tree.rs: insert, remove, remove_node, find, clear", "src/domaintree/node.rs: set_value, get_value", "src/label_slice.rs: compare"]}
{"id": "C87", "title": "A printed domain tree shows the tree", "statement": "DomainTree::dump ends and prints the size and, indented by level, one line for every node with its labels, colour, place under its parent and whether it has a value, each level below between two lines with its first node; trees with the same text have the same size, shape, labels, colours and nodes without value. The NodeChain of any search displays the labels of its nodes.", "quantifier": "every history of operations on legal names of any octets (debug build: ASCII), every search", "why_tests_cant": "unbounded trees; all pairs of trees", "anchors": ["src/domaintree/tree.rs: dump, dump_helper, indent", "src/domaintree/node_chain.rs: Display", "src/label_sequence.rs: Display"]}
{"id": "C88", "title": "Writing through a search result changes one value", "statement": "Assigning through FindResult::get_value_mut after find changes the value of the node found (the node of the name, or of the closest one above on a partial match) and nothing else in the tree; there is nothing to assign if nothing was found or the node has no value.", "quantifier": "every history of operations and every name", "why_tests_cant": "unbounded histories", "anchors": ["src/domaintree/tree.rs: FindResult::get_value_mut, find"]}
{"id": "C89", "title": "Nodes compare as their names", "statement": "Comparing two NodePtr of a tree with Ord gives the canonical order of their names, Equal exactly for the same node.", "quantifier": "every history of operations and every pair of nodes", "why_tests_cant": "unbounded histories; all pairs", "anchors": ["src/domaintree/node.rs: Ord, PartialOrd, PartialEq"]}
{"id": "C90", "title": "A received message is not much larger than its octets", "statement": "A message that Response::from_wire accepts from n octets holds exactly the records its header announces, at most (n-17)/11 of them, and with all its names written out (as they are kept in memory) it has at most 52 n octets: compression pointers cannot make a small message decode to an unbounded one.", "quantifier": "every octet string that is accepted", "why_tests_cant": "all messages of all lengths; needs a bound on every compressed name, record and section", "anchors": ["src/response.rs: from_wire", "src/name.rs: from_wire", "src/rrset.rs: from_wire"]}
{"id": "C91", "title": "Printed texts tell things apart", "statement": "Two record sets, two data of one type, two requests with the same text are equal, and two messages with the same text agree in header, question, records and EDNS: no owner name, data octet, empty string, quote, blank or escape can make a text be read as that of another value.", "quantifier": "all pairs of record sets, data, requests and messages of valid names with any octets", "why_tests_cant": "all pairs of values of unbounded size", "anchors": ["src/rrset.rs: Display", "src/rdata.rs: Display", "src/rdatafield/string_encode.rs", "src/response.rs: Display", "src/request.rs: Display", "rdata-derive/src/expand.rs"]}
{"id": "C92", "title": "Searches and changes of a domain tree visit few nodes", "statement": "find, find_node and find_node_ext (with any callback) compare the name with at most (labels of the name, the root included) times 2 log2(nodes+1) nodes, and insert finds its place after at most 3 more, whatever the history of insertions and removals was. The same holds of the work of repairing the tree: every loop of insert ends within 4 + (labels) times 2 log2(nodes+2) rounds, and remove and remove_node take out at most one node for each label of the name, with at most 1 + 2 log2(nodes+1) rounds of every loop for each.", "quantifier": "every history of operations on legal names of any octets (debug build: ASCII), every name and callback", "why_tests_cant": "unbounded histories; the worst case over all of them", "anchors": ["src/domaintree/tree.rs: find_node_ext, insert, insert_fixup, remove_fixup, node_fission"]}
{"id": "C93", "title": "Dropping a domain tree frees its memory", "statement": "While a DomainTree is in use, the memory it holds is that of its nodes, and dropping or clearing it frees all of it: nothing is leaked by any history of operations.", "quantifier": "every history of operations on legal names (exact count: ASCII names; no leak without removals: names of any octets)", "why_tests_cant": "unbounded histories; every path of insertion, splitting, rebalancing and removal", "anchors": ["src/domaintree/tree.rs: Drop, clear, clear_recurse, insert, node_fission, remove, remove_node", "src/domaintree/node.rs: new, split_to_parent"]}
{"id": "C94", "title": "Nothing a buffer held before gets into a message", "statement": "What to_wire of a Response, Request or NotifyRequest answers, errors and panics included, and the octets it sends are determined by the message and the size of the buffer: what the buffer held before, and what was sent with the same renderer before a reset (complete, cut short or refused), changes nothing.", "quantifier": "every message of legal names and typed data, every pair of buffers of one size and every history of a renderer; names whose compression hashes collide included", "why_tests_cant": "all old contents of all buffers, all histories", "anchors": ["src/message_render.rs: new, reset, skip, write_name, find_offset, add_offset", "src/util/output_buffer.rs", "src/rrset.rs: to_wire", "src/response.rs: to_wire, truncate", "src/request.rs: to_wire", "src/notify.rs: to_wire"]}
{"id": "C95", "title": "Decoding a name takes bounded work", "statement": "Whatever the octets of a message, reading a name at position p ends - with the name or an error - after reading at most 257 + 2*min(p, 16384) octets, so never more than 33025 in all: compression pointers cannot be made to loop or to cost more than that. (The bound cannot be made a constant near 255: a message of 2k+1 octets can make the name at its last pointer cost more than 2k reads while all it says is the root.)", "quantifier": "all octet strings, all read positions", "why_tests_cant": "a fuzzer that does not hang shows nothing about the worst input; the bound must hold for every arrangement of labels and pointers", "anchors": ["src/name.rs: Name::from_wire"]}
{"id": "C96", "title": "Any size or position can be asked for", "statement": "Every usize passed as a length, count, level or position to InputBuffer::read_bytes, OutputBuffer and MessageRender skip and write_u16_at, Name::split and parent and LabelSequence::split is either within range or refused with an error that changes nothing; no argument makes the call panic or corrupts the buffer, in either build profile.", "quantifier": "all usize arguments (64 bit), all buffers, names and label runs, builds with and without overflow checks", "why_tests_cant": "the failing arguments are within a few of 2^64, where no test looks; the sums must be followed through wrapping arithmetic", "anchors": ["src/util/input_buffer.rs: read_bytes", "src/util/output_buffer.rs: skip, write_u16_at", "src/message_render.rs: skip, write_u16_at", "src/name.rs: split, parent", "src/label_sequence.rs: split"]}
{"id": "C97", "title": "A message does not depend on where in a buffer it is written", "statement": "Writing a Response to a MessageRender that already holds octets - two skipped for the length prefix of TCP, or an earlier message, with no reset between - appends a message that can be cut out of the buffer and decoded; if it does not fit it is cut short like any other; and what was in the buffer before stays as it was.", "quantifier": "all messages, all renderers reached by any calls, any number of messages in one renderer", "why_tests_cant": "all histories and all room left; tests write each message to a fresh renderer, where start of buffer and start of message are the same", "anchors": ["src/response.rs: to_wire, truncate", "src/message_render.rs: write_name, add_offset, find_offset, skip, write_u16_at"]}
{"id": "C98", "title": "A debug build's domain tree survives its panics", "statement": "In a build with overflow checks and with names of any octets, an operation on a DomainTree either does and answers exactly what it should, or panics and leaves every node, link and counter as it was: a caller who catches the panic can go on, and the answers are those of a map of the operations that did not panic. It panics only where labels first differ in octets (lower case, signed) more than eight bits apart; for names without such labels - all ASCII names, all names without ASCII octets - no operation panics and both builds answer as a map.", "quantifier": "every history of operations on legal names of any octets, each panic caught", "why_tests_cant": "unbounded histories and trees; every octet pair; where in an operation the panic strikes", "anchors": ["src/domaintree/tree.rs: insert, find_node_ext, remove, remove_node", "src/label_slice.rs: compare"]}
{"id": "C99", "title": "A node chain is a stack of the nodes a search passes", "statement": "A NodeChain answers push, pop, top and bottom as a stack of up to 128 nodes does. find_node leaves on it the nodes above the name asked for, from the top down, the node found last, and there is room for every name; a chain can be used for any number of searches, each answering as on a new chain, and callbacks get the full name of their node.", "quantifier": "every history of calls on a chain, every history of operations on legal names (debug build: ASCII), every name searched, every chain in use", "why_tests_cant": "all histories; what popped nodes leave behind shows only in certain ones, and the chain fills only after many searches", "anchors": ["src/domaintree/node_chain.rs: new, push, pop, top, bottom, get_absolute_name", "src/domaintree/tree.rs: find_node, find_node_ext"]}
{"id": "C100", "title": "Compression pointers go straight to a label", "statement": "Every name that a MessageRender writes, in any history of writes and in every message of Response::to_wire, stands in its place (one place for each name of the message, in order, not overlapping) so that each compression pointer on the way leads backwards to the length octet of a label below 16384: never to another pointer, never to the root. So a reader follows at most one pointer for each label, and the search for a name of n octets in what was written before looks at no more than 3n+3 octets of the message, however long it is and however many names it holds.", "quantifier": "every history of a renderer, every name searched, every message of legal names and typed data", "why_tests_cant": "all histories, chains of pointers of any length; that a decoder which accepts pointers to pointers reads the message back does not show it", "anchors": ["src/message_render.rs: write_name, add_offset, find_offset, NameComparator::compare, next_label", "src/response.rs: to_wire", "src/rrset.rs: to_wire"]}
{"id": "C101", "title": "A question is answered, as asked, completely or marked as cut", "statement": "A client sends Request::new of any legal name and any type; a server that sees only those octets decodes the same request, and answers with the id and question of it and any further calls on a ResponseBuilder, in any order, that add record sets, set codes and flags, give EDNS, remove or clear. Every such call succeeds, with 271 octets more than the name in the buffer something is always sent, and the client, seeing only those octets (and whatever follows them), decodes a response with its own id and question and the codes of the last calls: either it is complete - every section has exactly the data added to it, of the owners and types it was added for - or it is marked as truncated and has no records; never a part of a set, never anything else. It is complete if the buffer can hold it with all its names written out and no two of those names collide under the hash of the renderer.", "quantifier": "all names and types, all lists of calls (record sets of legal names and data within the limits of their fields, of other types than OPT; at most 65535 records in a section), all buffer sizes", "why_tests_cant": "all conversations: any calls in any order, any buffer, composed through both encoders and both decoders", "anchors": ["src/request.rs: new, to_wire, from_wire", "src/response_builder.rs: ResponseBuilder", "src/response.rs: with_question, to_wire, truncate, from_wire, recalculate_header", "src/message_render.rs"]}
{"id": "C102", "title": "NOTIFY messages and their replies can be decoded", "statement": "A NOTIFY request for any zone, with or without its SOA record, is read by the decoder for responses as a message with its header and question and that record only; and the reply made of it is read as a response with its id and question and no records.", "quantifier": "every zone name, SOA record, id and buffer", "why_tests_cant": "all names, records and buffer sizes; the module has no tests and its own decoders cannot be called", "anchors": ["src/notify.rs: NotifyRequest::new, to_wire, NotifyResponse::new, to_wire", "src/response.rs: from_wire"]}
{"id": "C103", "title": "A name server made of the parts answers from what it was told", "statement": "A server keeps record sets in a DomainTree under their names, changed by any history of insert, remove and the rest; it decodes requests with Request::from_wire, looks their name up with find, builds the response with ResponseBuilder and sends it with Response::to_wire. Whatever octets it accepts as a request, for a name in any letter case (of ASCII octets if it was built for debugging), it sends a response which the client decodes, with the client's id and question, and which says exactly what the last changes left: for a name that is there its sets of the type asked for, for another one the name servers of the closest name above; or which is marked as truncated and empty. It is complete if the buffer can hold it with all its names written out and no two of those names collide under the hash of the renderer.", "quantifier": "all histories of the tree (legal names, ASCII where inserted or in a debug build, sets that fit), all octets accepted as a request, all buffers with 271 octets more than the name", "why_tests_cant": "all histories times all requests; every part of the library is on the way", "anchors": ["src/domaintree/tree.rs: insert, remove, remove_node, find", "src/request.rs: from_wire", "src/response_builder.rs: ResponseBuilder", "src/response.rs: to_wire, from_wire"]}
{"id": "C104", "title": "What a zone file says is what is answered", "statement": "A zone written as lines of text is read with RRset::from_strs, group by group, and each set kept in a DomainTree with the others of its owner. A server with that tree answers every request, for a name in any letter case (of ASCII octets if it was built for debugging), so that the client decodes, with its own id and question, exactly the data of the lines of that owner and of the type it asked for, all of it and nothing else; or a response marked as truncated and empty. It is complete if the buffer can hold it with all its names written out and no two of those names collide under the hash of the renderer.", "quantifier": "all texts of lines up to 510 octets without backslash which the library reads (ASCII owner names, no OPT, up to 65535 records of one owner), all octets accepted as a request, all buffers with 271 octets more than the name", "why_tests_cant": "all zones times all requests; text reader, tree, renderer and both decoders are on the way", "anchors": ["src/rrset.rs: from_strs", "src/domaintree/tree.rs: insert, find", "src/request.rs: from_wire", "src/response_builder.rs: ResponseBuilder", "src/response.rs: to_wire, from_wire"]}
{"id": "C105", "title": "A domain tree answers by what it holds, not by how it came to hold it", "statement": "Two DomainTrees that hold the same values under the same names answer every find alike - the same kind of match and the same value - and have the same len, in whatever order the names were inserted, however often values were replaced, and whatever else was there and was removed.", "quantifier": "all pairs of histories of operations on legal names (ASCII where inserted or in a debug build) that leave the same values, all names searched (of any octets in release builds)", "why_tests_cant": "pairs of unbounded histories; rebalancing and splitting depend on the order", "anchors": ["src/domaintree/tree.rs: insert, find, node_fission, remove_node, len", "src/domaintree/node.rs: split_to_parent"]}
{"id": "C106", "title": "The decoders agree, and a request can be passed on", "statement": "Octets that Request::from_wire and Response::from_wire both accept have the same header and question for both; what Response::from_wire accepts, Request::from_wire accepts if and only if no answer is announced; what Request::from_wire accepts without announcing records, Response::from_wire reads as a message without records. And a request that was read and is written again is a message: every decoder that reads the records it announces accepts it and reads the same header and question.", "quantifier": "all octet strings, all requests read from them, all buffers of 271 octets or more", "why_tests_cant": "all octets, through two decoders and the encoder; tests decode each message with one decoder", "anchors": ["src/request.rs: from_wire, to_wire", "src/response.rs: from_wire", "src/header.rs: from_wire, to_wire"]}
{"id": "C107", "title": "What was read from text and printed reads back as the same", "statement": "Whatever lines RRset::from_strs accepts, the record set it answers can be printed, one line for each record, and from_strs of the printed lines answers the very same set: no data is lost or changed by reading, printing and reading again.", "quantifier": "all lists of lines of any UTF-8 text that are accepted (names of up to 255 octets), both build profiles", "why_tests_cant": "all accepted texts; sets that come from a parser are not all sets, and the values printed are not those of any test", "anchors": ["src/rrset.rs: from_strs, from_str, Display", "src/rdata.rs: from_str, Display", "src/name.rs: string_parse, Display", "src/rr_type.rs: Display"]}
{"id": "C108", "title": "A larger buffer never hurts", "statement": "Whatever succeeds on a buffer succeeds on every larger one: calls on a MessageRender, in any order and with any arguments, records, requests and NOTIFY requests write the same octets there; a response is sent in the same octets, or, where the smaller buffer held only its truncated form, in whole. So for each response there is one size, and one sequence of octets, such that it is sent whole exactly in the buffers of at least that size and always in these octets (or it is sent whole in none).", "quantifier": "all sequences of calls, all messages of legal names and typed data (colliding suffixes included), all pairs of buffers", "why_tests_cant": "all pairs of buffer sizes; compression, the shared search cursor and truncation all depend on what fitted before", "anchors": ["src/message_render.rs: write_name, skip, write_u16_at, truncate", "src/util/output_buffer.rs", "src/response.rs: to_wire", "src/request.rs: to_wire", "src/notify.rs: to_wire", "src/rrset.rs: to_wire"]}
{"id": "C109", "title": "Any number of forwarders are like one", "statement": "A message goes through any number of forwarders, each of which decodes the octets it gets with Response::from_wire and sends the result on with Response::to_wire from a buffer of its own. It arrives, as it was or truncated, in the very octets that one forwarder with the smallest of the buffers would have sent: nothing is lost, changed or re-encoded in another way by the others, and neither their order nor their number matters. What one forwarder has sent, every later one whose buffer is not smaller sends on octet by octet.", "quantifier": "all octets that Response::from_wire accepts, all lists of buffers of 526 to 65535 octets with any contents (one more forwarder: of any size up to 65535)", "why_tests_cant": "all messages and all chains; a test sends a message through the codec once or twice", "anchors": ["src/response.rs: from_wire, to_wire", "src/message_render.rs: write_name", "src/rrset.rs: to_wire, from_wire"]}
{"id": "C110", "title": "What was received is what is answered", "statement": "A resolver decodes the responses it receives with Response::from_wire and keeps the record sets of all their sections (but OPT) in a DomainTree, each with the others of its owner; later it answers requests from that tree with ResponseBuilder and Response::to_wire. Whatever octets it received and accepted, it answers every request, for a name in any letter case (of ASCII octets if it was built for debugging), so that the client decodes, with its own id and question, exactly the data received for that name and of the type it asked for, all of it and nothing else; or a response marked as truncated and empty. It is complete if the buffer can hold it with all its names written out and no two of those names collide under the hash of the renderer.", "quantifier": "all lists of octet strings that Response::from_wire accepts (ASCII owner names, up to 65535 records of one owner), all requests accepted, all buffers from 271 octets more than the name up to 65535", "why_tests_cant": "all messages received, in any number and from any encoder, through decoder, tree, builder, encoder and decoder", "anchors": ["src/response.rs: from_wire, to_wire", "src/domaintree/tree.rs: insert, find", "src/response_builder.rs: add_rrset", "src/request.rs: from_wire"]}
{"id": "C111", "title": "A network says only what its zones say", "statement": "Name servers load zones given as text into DomainTrees; caches decode with Response::from_wire what servers, forwarders and other caches send and keep it in DomainTrees; forwarders decode and send on with Response::to_wire; servers and caches answer whatever they accept with Request::from_wire. However many of them there are, whoever sends to whom, however often, with whatever requests and buffers up to 65535 octets: every octet string sent in this network decodes as a response, each fact in its sections (owner, type and data) is written in one of the zones, its answers are about the name and type in its question, and its authority section has only name servers of that name or of a name above it.", "quantifier": "all lists of zones of lines of at most 510 octets without backslash (ASCII owner names, no OPT), all finite networks and orders of messages, all requests of any octets, all buffers up to 65535 octets, both builds; no tree with more than 65535 records of one name", "why_tests_cant": "every message of every run of every network; an induction over all that was sent before", "anchors": ["src/rrset.rs: from_strs", "src/domaintree/tree.rs: insert, find", "src/response_builder.rs: add_rrset", "src/response.rs: from_wire, to_wire", "src/request.rs: from_wire"]}
{"id": "C112", "title": "A long-running server answers with its data of that moment", "statement": "A name server keeps its record sets in a DomainTree and uses one MessageRender for all its answers, with a reset before each. Its data change by tree operations and octets come in, in any number and any order. It never panics; octets that are no request it does not answer; every request it answers with a response that the client decodes, with its own id and question, which says exactly what the tree holds at that moment (the sets of the name and type; else the name servers of the closest name above; else that it is refused) or is marked as truncated and empty - nothing of earlier data, requests or answers; and it is complete if the buffer holds it with all names written out and no two of the names collide under the hash of the renderer.", "quantifier": "all sequences of tree operations and received octets (ASCII names put into the tree; in a debug build all names), all initial contents of a buffer of 526 octets or more, both builds", "why_tests_cant": "all interleavings of changes and requests, of any length, and what they leave behind in tree, table and buffer", "anchors": ["src/message_render.rs: reset", "src/domaintree/tree.rs", "src/response_builder.rs: add_rrset", "src/response.rs: to_wire, from_wire", "src/request.rs: from_wire"]}
{"id": "C113", "title": "A lookup gets what the server has, over any network, or nothing", "statement": "A client makes a request with Request::new, sends it, takes the first of the octets that arrive which decode to a response with its id and its question (compared with ==), and asks again in a larger buffer if that is marked as truncated. The server answers from a DomainTree; on each of the two ways any number of forwarders may decode the response and send it on. The network may lose, repeat and delay messages and bring any other octets between, as long as nobody else guesses the id and the question. The client never panics; the message it gets, if any, has its id and question and says exactly what the tree says of the name and type (letter case aside), with the same response code, or is marked as truncated and empty; and if the network brings what the server sends, the larger buffer holds the answer with all names written out, the forwarders on that way have buffers of that size, and no two of the names collide under the hash of the renderer, it does get exactly what the tree says.", "quantifier": "all histories of tree operations, all names (ASCII in a debug build), types and ids, all buffers of the stated minimal sizes, all behaviours of the network, both builds", "why_tests_cant": "all losses, repetitions, orders and foreign octets between client and server, together with all data and histories", "anchors": ["src/request.rs: new, to_wire, from_wire", "src/response.rs: to_wire, from_wire", "src/question.rs: eq", "src/domaintree/tree.rs: find", "src/header.rs: is_flag_set"]}
{"id": "C114", "title": "From the lines of a zone to the client: a lookup gets the data that were typed", "statement": "The lines of a zone are read with RRset::from_strs and put into a DomainTree under their owners; a server answers from it; forwarders decode responses and send them on; a client makes a request, takes the first acceptable response that arrives and asks again in a larger buffer if it is truncated. Loading never fails, the client never panics; the answer that the client gets, if any, holds exactly the data of the lines of that owner (letter case aside) and type, all of them and nothing else, or the message is marked as truncated and empty. If the owner has lines, the network brings what is sent, the buffers on the second way hold the answer with all names written out and no two of the names collide under the hash of the renderer, the client gets exactly these data, with NoError.", "quantifier": "all groups of lines of at most 510 octets without backslash that are read as record sets with ASCII owners, none of them OPT, at most 65535 records of one owner; all names (ASCII in a debug build), types and ids asked for; all buffers of the stated minimal sizes; all forwarders; all behaviours of the network that do not forge id and question; both builds", "why_tests_cant": "all zones, questions, forwarders, losses, repetitions, orders and foreign octets together", "anchors": ["src/rrset.rs: from_strs", "src/domaintree/tree.rs: insert, find", "src/request.rs: new, to_wire, from_wire", "src/response_builder.rs: add_rrset", "src/response.rs: to_wire, from_wire", "src/message_render.rs"]}
{"id": "C115", "title": "A caching resolver answers as the zone does", "statement": "The lines of a zone are loaded by a server as in C114. A resolver looks up a list of different (owner, type) pairs with it as in C113 - over a network, through forwarders, again in a larger buffer when truncated - and puts all record sets of the responses except OPT into a DomainTree of its own under their owners. The resolver never panics. Afterwards whoever asks the resolver for one of these pairs, in any letter case, gets a response that decodes, echoes id and question, fits the buffer, and whose answer holds exactly the data of the lines of that owner and type, all of them and nothing else, whatever was looked up before or after; or it is marked as truncated and empty. If there are such data, the buffer holds them with all names written out and no two of the names (the owner in each of its spellings) collide under the hash of the renderer, the answer is the data.", "quantifier": "all groups of lines as in C114; all lists of queries (any length, order, letter case and ids) with different (owner, type) pairs, for owners that have lines and whose data fit the larger buffer without colliding hashes; all networks that bring what is sent and do not forge id and question; all forwarders and buffers of the stated minimal sizes; all later requests for one of the pairs; both builds", "why_tests_cant": "all zones, lists of queries, networks and later requests together; the state of the tree depends on the whole history", "anchors": ["src/rrset.rs: from_strs", "src/domaintree/tree.rs: insert, find", "src/request.rs: new, to_wire, from_wire", "src/response_builder.rs: add_rrset", "src/response.rs: to_wire, from_wire", "src/message_render.rs"]}
{"id": "C116", "title": "Resolvers that ask resolvers, to any depth, answer as the zone does", "statement": "The lines of a zone are loaded by a server as in C114. Resolvers as in C115 look up different (owner, type) pairs with that server, or with resolvers that have looked these pairs up before, and so on to any depth, each over its own network, forwarders and buffers. No resolver panics. Whoever asks any of them for a pair it has looked up (any pair, for the server), in any letter case, gets a response that decodes, echoes id and question, fits the buffer, and whose answer holds exactly the data of the lines of that owner and type, all of them and nothing else; or it is marked as truncated and empty. If there are such data, the buffer holds them with all names written out and no two of the names (the owner in each of its spellings) collide under the hash of the renderer, the answer is the data.", "quantifier": "all groups of lines as in C114; all finite hierarchies of resolvers of any depth and their lists of queries (different pairs for which the zone has data that fit the larger buffer without colliding hashes); all networks that bring what is sent and do not forge id and question; all forwarders and buffers of the stated minimal sizes; all later requests; both builds", "why_tests_cant": "induction over the depth of the hierarchy: nothing may be lost, doubled or mixed up by any number of decodings, trees and encodings", "anchors": ["src/rrset.rs: from_strs", "src/domaintree/tree.rs: insert, find", "src/request.rs: new, to_wire, from_wire", "src/response_builder.rs: add_rrset", "src/response.rs: to_wire, from_wire", "src/message_render.rs"]}
{"id": "C117", "title": "A server restarted from what it printed is in the same state", "statement": "A server keeps the record sets of the responses it has received (or of the lines of a zone) in a DomainTree. It prints each set with Display and cuts the text into lines; a new server reads the lines with RRset::from_strs and keeps the sets in its own tree. The new tree is the same, so every later answer, change and lookup is the same, in both builds.", "quantifier": "all octets received that decode as responses, whoever made them, in any number and order; all zones of lines that are read; all trees to begin with; both builds", "why_tests_cant": "all messages and texts together: any octet of any name, string, number, time or address that is printed in one way and read in another would change a later answer", "anchors": ["src/rrset.rs: Display, from_strs", "src/rdata.rs", "src/name.rs: Display, new", "src/response.rs: from_wire", "src/domaintree/tree.rs: insert, find"]}
