#!/usr/bin/env python3
"""Generates /verif/properties.jsonl (one JSON object per line)."""
import json, os
P=[]
def p(title, statement, quantifier, why, anchors):
    P.append(dict(id="C%02d"%(len(P)+1), title=title, statement=statement, quantifier=quantifier,
                  why_tests_cant=why, anchors=anchors))
N="src/name.rs"; LS="src/label_slice.rs"; LQ="src/label_sequence.rs"; MR="src/message_render.rs"
p("Decoding a name is total and safe",
  "Name::from_wire on any buffer and cursor terminates, never panics and never reads outside the buffer; when it succeeds the result is a valid name (at most 255 octets, 1..63 octets per label, at most 128 labels, terminated by the root label) and the cursor moved forward, to a position inside the buffer.",
  "every byte buffer and every cursor position in it", "the input space is all byte strings, including pointer loops and truncated labels; a fuzzer samples it",
  [N+": Name::from_wire","src/util/input_buffer.rs: InputBuffer"])
p("Decoding a name is exactly RFC 1035 decompression",
  "Name::from_wire succeeds with labels L and cursor q exactly when the octets at the cursor spell L under RFC 1035 label/pointer rules with every pointer strictly below the start and below every earlier pointer and L within the length limit; q is just past the root label or the first pointer.",
  "every buffer, cursor and label list", "both directions (soundness and completeness) range over all byte strings and all label lists",
  [N+": Name::from_wire"])
p("Uncompressed name encoding decodes to itself",
  "For every valid name, placing its wire form anywhere in any buffer and decoding there gives the same name, octet for octet and case preserved, consuming exactly its length.",
  "every valid name, prefix and suffix", "unbounded set of names and contexts", [N+": Name::from_wire, Name::len","src/message_render.rs: write_name"])
p("Parsing a name from text respects the name limits",
  "Whenever Name::new succeeds the result is a valid name: total length at most 255, labels 1..63 octets, terminated by the root.",
  "every input string", "the violating strings are long and use an escape at one exact position; sampled tests do not reach them",
  [N+": string_parse, Name::new"])
p("A printed name parses back to itself",
  "Name::new(name.to_string()) succeeds and gives a name equal to the original.",
  "every valid name, with arbitrary octets in labels", "labels hold arbitrary octets; tests only use letters and digits", [N+": string_parse", LS+": Display"])
p("Escape sequences in names mean what RFC 1035 says",
  "In Name::new, \\X stands for the single octet X (so \\. is a dot inside a label) and \\DDD for the octet with decimal value DDD; a string without escapes is split at the dots, with @ and . denoting the root, a missing final dot implied, and is accepted exactly when the labels obey the limits.",
  "every input string", "the grammar is infinite", [N+": string_parse"])
p("Name equality is case-insensitive label equality and an equivalence",
  "a == b holds exactly when a and b have the same number of labels and corresponding labels are equal up to ASCII case; it is reflexive, symmetric and transitive.",
  "all pairs and triples of valid names", "relation over an unbounded domain", [N+": PartialEq for Name", LS+": LabelSlice::equals"])
p("Equal names hash equally",
  "If a == b then both feed the hasher the same octets, so any hash map keyed by names finds the entry under any letter case.",
  "all pairs of valid names, every hasher", "hash/eq agreement must hold for every pair", [N+": Hash for Name"])
p("Name ordering is the DNSSEC canonical order",
  "a.cmp(b) is the RFC 4034 canonical order (labels compared right to left as lower-cased unsigned octet strings, absent octets first); it is a total order: antisymmetric and transitive, and never panics.",
  "all pairs and triples of valid names", "transitivity over all triples, arbitrary octets", [N+": Ord for Name, get_relation", LS+": LabelSlice::compare"])
p("Ordering agrees with equality",
  "a.cmp(b) is Equal exactly when a == b.", "all pairs of valid names", "must hold for every pair", [N+": Ord for Name, PartialEq for Name", LS+": LabelSlice::compare"])
p("get_relation classifies two names correctly",
  "get_relation reports Equal, SubDomain, SuperDomain or CommonAncestor exactly according to whether the label lists are equal up to case, one is a proper suffix of the other, or neither, and common_label_count is the number of trailing labels (root included) they share.",
  "all pairs of valid names", "unbounded pairs", [N+": get_relation", LS+": LabelSlice::compare"])
p("is_subdomain decides the suffix relation",
  "a.is_subdomain(b) is true exactly when b's label list is, up to case, a suffix of a's label list.", "all pairs of valid names",
  "the wrong answers need octet coincidences across a label boundary", [N+": Name::is_subdomain"])
p("Label surgery keeps names valid and selects the right labels",
  "split, strip_left, strip_right, parent, into_ancestor and into_child give the name made of exactly the selected labels (plus the root), fail or panic exactly outside the documented range, and never give an invalid name.",
  "every valid name and every label index (sums beyond usize: C96)", "unbounded names and indices", [N+": split, parent, strip_left, strip_right, into_ancestor, into_child"])
p("Name concatenation appends labels or reports the limit",
  "concat and concat_all give the name whose labels are those of the parts in order, and return Err exactly when the total exceeds 255 octets or 128 labels; they do not panic.",
  "every list of valid names", "limit boundary over arbitrary lists", [N+": concat_all, concat"])
p("reverse reverses the labels",
  "name.reverse() has the labels in opposite order under the root, is valid, and is an involution.", "every valid name", "unbounded", [N+": reverse"])
p("as_lowercase normalises",
  "as_lowercase yields a name equal to the original, with every ASCII capital replaced and every other octet kept; it is idempotent; two names are equal exactly when their lower-cased octets are identical.",
  "every valid name", "unbounded", [N+": as_lowercase, MAP_TO_LOWER"])
p("Label sequences partition and rebuild a name",
  "Splitting a label sequence returns exactly the requested labels and leaves exactly the others; concatenating label sequences under an absolute last one gives the name with all labels in order, with Err exactly at the documented misuse or limit.",
  "every valid name, index range (sums beyond usize: C96) and sequence list", "unbounded", [LQ+": split, concat_all, is_absolute", N+": into_label_sequence"])
p("is_wildcard and is_root",
  "is_root holds exactly for the name with no labels; is_wildcard exactly when the first label is the single octet '*'.", "every valid name", "unbounded", [N+": is_wildcard, is_root"])
p("Every chain of name operations stays within the limits",
  "Starting from names decoded from wire or the root and applying any sequence of concat, split, reverse, lower-casing, stripping, ancestor/child and label-sequence operations, every name obtained is valid.",
  "every operation history", "histories are unbounded", [N+": impl Name", LQ+": impl LabelSequence"])
p("Input cursor reads are bounded and transactional",
  "read_u8/u16/u32/read_bytes return the big-endian value of the next octets and advance by exactly that many; if too few octets remain they return Err and neither cursor nor data change; the cursor never passes the end; after set_data a cursor in any state reads the new octets from the front.",
  "every buffer, cursor and read sequence (lengths whose sum with the cursor exceeds usize: C96)", "unbounded histories", ["src/util/input_buffer.rs: InputBuffer"])
p("Output buffer writes are append-only, bounded and atomic",
  "Every write either appends exactly its octets or returns Err leaving the buffer unchanged; positional writes change only the addressed octets; the length never exceeds the capacity; no operation panics.",
  "every operation history and capacity (sizes whose sum with the length exceeds usize: C96)", "unbounded histories", ["src/util/output_buffer.rs: OutputBuffer"])
p("What is written is what is read",
  "Reading back with InputBuffer a sequence of integers and byte strings written with OutputBuffer gives the same values in order.", "every sequence of writes", "unbounded sequences", ["src/util/output_buffer.rs","src/util/input_buffer.rs"])
p("Hex text round trip",
  "from_hex(to_hex(b)) = b for every byte string, also with white space inserted anywhere; from_hex returns None exactly for a non-hex character or an odd number of digits.",
  "every byte string / text", "unbounded strings", ["src/util/hex.rs"])
p("Name compression is lossless",
  "After any history of writes through one MessageRender (names compressed or not, integers, octets, skips and in-place integer patches of skipped space), decoding at the offset where a name was written gives exactly that name, case preserved, and consumes exactly the octets that write produced.",
  "every write history", "depends on the whole history through the offset table and hash collisions", [MR+": write_name, OffSetItem, find_offset", N+": from_wire"])
p("Compression pointers point strictly backwards and within 14 bits",
  "Every compression pointer a MessageRender emits is below 0x4000 and strictly below the offset of the name that contains it, so decoding terminates.", "every write history", "whole-history invariant", [MR+": write_name, MAX_COMPRESS_POINTER"])
p("Rendering never exceeds capacity and never rewrites earlier output",
  "write_name either appends at the end of the buffer or fails; octets already present are never changed and the length never exceeds the capacity.", "every state and name", "unbounded states", [MR+": write_name, reset"])
p("Uncompressed rendering is verbatim",
  "write_name(name,false) appends exactly the wire form of the name.", "every render state and valid name", "unbounded", [MR+": write_name"])
p("Compression never enlarges",
  "write_name(name,true) never appends more octets than the wire form of the name.", "every render state and valid name", "unbounded", [MR+": write_name"])
p("Resetting a renderer forgets everything",
  "After reset the renderer behaves as a new one with the same capacity: no earlier name is used as a compression target.", "every history before reset", "unbounded histories", [MR+": MessageRender, reset"])
p("RR type and class numbers are faithful",
  "RRType::new(v).as_u16() = v and RRClass::new(v).as_u16() = v for every 16-bit v, distinct numbers give distinct values, and wire encoding is the two octets of the number.", "every 16-bit value", "exhaustive table", ["src/rr_type.rs","src/rr_class.rs"])
p("RR type, class and rcode mnemonics parse back",
  "For every known type, class and response code, parsing the printed mnemonic in any letter case gives the same value, distinct values print distinct mnemonics, and nothing but a mnemonic is accepted.", "every variant and every text", "whole table and every letter case", ["src/rr_type.rs: to_str, FromStr","src/rr_class.rs","src/rcode.rs"])
p("RR type comparison agrees with equality",
  "Two RR types compare Equal exactly when they are ==, and the order is the numeric order.", "all pairs of types", "all pairs", ["src/rr_type.rs: Ord, PartialEq"])
p("Opcode and rcode survive the header",
  "Opcode::new and Rcode::new map every number to the assigned code (others to Reserved) and to_u8 of a non-reserved code gives the number back.", "every octet", "exhaustive table", ["src/opcode.rs","src/rcode.rs"])
p("Header wire round trip",
  "Writing any header gives exactly 12 octets and reading them back gives the same id, flags, opcode, rcode and counts; reading any 12 octets and writing them back changes only the reserved Z bit and unassigned opcode/rcode values.", "every header / every 12 octets", "2^96 headers", ["src/header.rs: from_wire, to_wire"])
p("Header flags are independent",
  "set_flag sets exactly the named flag, is_flag_set reads it, and setting or clearing one flag never changes another, nor opcode, rcode, id or counts.", "every flag word, pair of flags and value", "every header value", ["src/header_flag.rs","src/header.rs: set_flag, is_flag_set"])
p("Every record data type survives the wire",
  "For every RR type and every record data value whose fields fit their wire width, rendering it (names compressed against any earlier history) and decoding with the written RDLENGTH gives the same value and consumes exactly RDLENGTH octets.", "every type, value and render history", "unbounded values and histories", ["src/rdata.rs","src/rdatas.rs","src/rdatafield/wire_encode.rs","src/rdatafield/wire_decode.rs","rdata-derive/src"])
p("Record data decoding honours RDLENGTH",
  "RData::from_wire with a given RDLENGTH either fails or consumes exactly RDLENGTH octets of the message, never reads past them except through name compression pointers, and never panics.", "every type, buffer and length", "adversarial inputs", ["src/rdata.rs: from_wire","src/rdatafield/wire_decode.rs"])
p("Oversized record data is rejected, not corrupted",
  "If a field does not fit its wire length prefix (character-string over 255 octets, RDATA over 65535) encoding returns Err rather than emitting octets that decode to something else.", "every record data value", "values above the length-prefix limits", ["src/rdatafield/wire_encode.rs: byte_binary_to_wire","src/rrset.rs: to_wire"])
p("RRset wire round trip",
  "Rendering an RRset and decoding that many records at its offset gives records with the same owner (case preserved), type, class, TTL and data in order.", "every RRset with fitting data and every render history", "unbounded", ["src/rrset.rs: to_wire, from_wire"])
p("RRset equality is an equivalence",
  "RRset == is reflexive, symmetric and transitive, and two RRsets with the same owner, type, class, TTL and the same data up to order are equal.", "all RRsets", "needs duplicate data to fail", ["src/rrset.rs: PartialEq"])
p("Character-strings survive text",
  "Printing any octet string as a quoted character-string and reading it back gives the same octets; a character-string is accepted exactly if it is quoted, correctly escaped and of at most 255 octets, and denotes what its escapes say.", "every octet string up to 255", "arbitrary octets, escapes", ["src/rdatafield/string_encode.rs","src/rdatafield/string_decode.rs","src/util/string_buffer.rs"])
p("Tokenizing text never loses or duplicates input",
  "Calling next on a StringBuffer yields exactly the white-space separated words in order and then None, and read_left/left_str yields exactly the text behind the words already read.", "every text and number of calls", "unbounded text", ["src/util/string_buffer.rs"])
p("Decoding a message is total",
  "Response::from_wire (and Request, Notify) on any octets returns Ok or Err and never panics or loops.", "every byte string", "adversarial inputs", ["src/response.rs: from_wire","src/request.rs","src/notify.rs"])
p("Message wire round trip",
  "A response whose sections hold RRsets with fitting data and that fits the buffer decodes to the same header (with recalculated counts), question and sections.", "every such response and capacity", "unbounded messages", ["src/response.rs: to_wire, from_wire"])
p("Truncation yields a valid prefix with TC set",
  "If the message does not fit the buffer, the output is at most the capacity, has the TC flag set, and decodes to the same id and question with section counts equal to the records actually present, which are a prefix of the message's records.", "every response and capacity", "every cut point", ["src/response.rs: to_wire, truncate"])
p("Rendering a response never panics",
  "Response::to_wire returns Ok or Err for every response and buffer size.", "every response and capacity", "the panic needs one exact capacity", ["src/response.rs: to_wire, truncate","src/util/output_buffer.rs: truncate"])
p("Header counts describe the sections",
  "After recalculate_header the four counts equal the question count and the number of records each section puts on the wire.", "every response with fewer than 65536 records per section", "unbounded sections", ["src/response.rs: recalculate_header, Section::rr_count"])
p("Builder adds records without losing any",
  "ResponseBuilder::add_rrset appends the records to the section: to the RRset with same owner and type if there is one, otherwise as a new RRset at the end; other sections and RRsets are untouched, so at any time no section has two RRsets of the same owner and type.", "every builder history", "unbounded histories", ["src/response_builder.rs: add_rrset"])
p("Builder EDNS is what get_edns returns",
  "After edns(e) on a builder with no EDNS yet, the finished message's get_edns returns e (without options); setting it again replaces it.", "every builder history", "histories", ["src/response_builder.rs: edns","src/edns.rs","src/response.rs: get_edns"])
p("Removing records removes exactly the matching ones",
  "remove_rrset_by removes from the named section exactly the RRsets satisfying the predicate and keeps the others in order.", "every section and predicate", "unbounded", ["src/response_builder.rs: remove_rrset_by"])
p("Section iteration yields every RRset once",
  "Any interleaving of next and next_back over a message's RRsets yields each RRset exactly once, next from the front and next_back from the back, in section order, then None for ever.", "every message and interleaving", "interleavings are unbounded", ["src/response_iter.rs"])
p("size_hint is exact at every point of iteration",
  "size_hint returns the exact number of RRsets not yet yielded.", "every message and interleaving", "needs next_back before size_hint", ["src/response_iter.rs: size_hint"])
p("Parsing a section keeps every record",
  "Decoding a section of n records gives RRsets whose records in order are exactly the n records decoded; adjacent records of the same owner and type are grouped, never reordered.", "every section", "unbounded", ["src/response.rs: Section::from_wire"])
p("OPT may only appear in the additional section",
  "Response::from_wire rejects every message with an OPT record in the answer or authority section.", "every message", "position matters", ["src/response.rs: Section::from_wire"])
p("EDNS pseudo-record mapping is faithful",
  "Converting an EDNS value to its OPT record and back gives the same version, extended rcode, UDP size and DO flag; writing it directly and writing its record give the same octets.", "every EDNS value", "all field values", ["src/edns.rs"])
p("Request decoding checks the section counts",
  "Request::from_wire accepts only messages with one question, no answer and no authority records; an encoded request decodes to the same header and question.", "every message / request", "all counts", ["src/request.rs"])
p("Notify messages round trip",
  "A NOTIFY request or response built for a zone encodes to a message with opcode NOTIFY, AA set and one SOA question for the zone, and decodes to the same.", "every zone name and id", "unbounded", ["src/notify.rs"])
T="src/domaintree/tree.rs"
p("The domain tree is a map from names to values",
  "After any history of insert and remove_node, exact find of a name returns the last value inserted under that name (up to letter case) and not removed since, and nothing otherwise; insert returns the replaced value.", "every operation history", "node fission, rotations and cascaded deletions over unbounded histories", [T+": insert, find_node_ext, remove_node, node_fission","src/domaintree/node.rs"])
p("Partial match finds the closest encloser",
  "find of an absent name reports PartialMatch with the deepest tree node whose name is an ancestor, and NotFound exactly when there is none.", "every tree reachable by a history on ASCII names and every name (ASCII in a debug build, any octets in a release build)", "all trees and names", [T+": find_node_ext"])
p("remove(name) removes only that name",
  "remove(name) returns and deletes the value stored under name; if name is not stored it returns None and changes nothing.", "every tree and name", "needs an absent name with a stored ancestor", [T+": remove"])
p("Each level of the domain tree stays a balanced search tree",
  "After any history on ASCII names every level is a binary search tree in canonical order with the red-black properties, so its height is at most 2*log2(n+1).", "every operation history", "rebalancing cases over unbounded histories", [T+": insert_fixup, remove_fixup, left_rotate, right_rotate"])
p("len counts the nodes",
  "len() equals the number of names in the tree (nodes created and not deleted) after every history, and is 0 for an emptied tree.", "every operation history", "unbounded histories", [T+": len, insert, remove_node, clear"])
p("Node chain rebuilds the absolute name",
  "After find, the chain's absolute name is the name of the node found.", "every tree and name", "unbounded", ["src/domaintree/node_chain.rs"])
p("Clearing and cloning the tree",
  "clear() leaves an empty tree of len 0 that finds nothing; clone() gives a tree with the same answers to every find, usable without panicking.", "every tree", "unbounded", [T+": clear, clone, Drop","src/domaintree/node.rs: deep_clone"])
p("Node flags are independent",
  "Setting or reading one node flag (colour, subtree root, callback, wildcard) never affects another.", "every flag octet", "all combinations", ["src/domaintree/flag.rs"])
p("Callbacks run on the path and can stop the search",
  "find with a callback calls it exactly on the callback-enabled ancestor nodes on the path, in root-to-leaf order, and stops with a partial match as soon as it returns true.", "every tree, name and callback", "unbounded", [T+": find_node_ext"])
p("Generated random names are valid",
  "Every name RandNameGenerator yields is valid: parsing never fails, for every outcome of the random source. The names it can yield are exactly the valid ones with at least one label, of lower case letters, digits and hyphens, whose labels but the last have at most 62 octets.", "every random outcome", "random outcomes cannot be enumerated", ["src/rand_name_generator.rs"])
p("Tree operations are memory safe and terminate",
  "No history of tree operations dereferences a null or freed node, loops forever or fails an assertion.", "every operation history", "unsafe pointer code over unbounded histories", [T+": insert, remove, remove_node, find, clear","src/domaintree/node.rs"])
p("Node pointers stay valid",
  "A NodePtr obtained for an ASCII name with a value stays the node of that name, whatever other names are inserted, removed or flagged (rotations, exchanges and splits never move a name to another node), as long as that name keeps a value and the tree is not cleared.", "every operation history", "exchange/rotation relink nodes in many ways", [T+": remove_node, node_fission","src/domaintree/node.rs: exchange, split_to_parent"])
p("Record sets survive their text",
  "Printing a record set gives one line per record; each line parses (blanks, letter case of class and type, and a missing class IN do not matter) to that record, and RRset::from_strs of the lines is the set again; lines that are not of one set are refused.", "every record set of every record type", "unbounded values in every field", ["src/rrset.rs: Display, FromStr, from_strs, header","src/rdata.rs: Display, from_str","src/rdatafield/string_encode.rs","src/rdatafield/string_decode.rs","rdata-derive/src/expand.rs"])
p("Parsing text never panics",
  "RRset::from_str, RRset::from_strs, RData::from_str and every sequence of StringBuffer calls return a value or Err on every text.", "every text, record type and call history", "every Unicode text", ["src/util/string_buffer.rs","src/rrset.rs: FromStr","src/rdata.rs: from_str","src/rdatafield/string_decode.rs"])
p("Names written before are not spelled again",
  "MessageRender::write_name with compression spells exactly the labels before the first one from which on the rest of the name was written before (as a name or as its parent), and puts a pointer there; it succeeds exactly when these octets fit. A name written before costs two octets.", "every history of writes of a message of at most 0x4000 octets, and every name", "unbounded histories; depends on the whole hash table", ["src/message_render.rs: write_name, find_offset, add_offset"])
p("Messages are encoded as the RFC says, octet by octet",
  "Response::to_wire writes exactly the RFC 1035 encoding with full name compression (every name pointing at the first earlier copy of its longest known tail) whenever that fits the buffer; otherwise header with TC and question, and Err exactly if these do not fit.", "every message and every buffer size", "unbounded messages; every buffer size", ["src/response.rs: to_wire, truncate","src/message_render.rs: write_name","src/rrset.rs: to_wire"])
p("Names in newer record types are not compressed",
  "As RFC 3597 section 4 asks, Response::to_wire writes names in the data of types newer than RFC 1035 (RP, SRV, NAPTR, DNAME, RRSIG, NSEC) in full, without pointers, and all other messages as in RFC 1035.", "every message", "unbounded messages", ["src/rdatafield/wire_encode.rs: name","src/response.rs: to_wire"])
p("The decoder accepts exactly the well-formed messages",
  "Response::from_wire(raw) is Ok(m) if and only if raw spells the message m as in RFC 1035 section 4: header, one question, and as many records of supported types as the header says, with names compressed in any legal way and data of exactly the announced length; runs of the same owner and type are one set. It is Err for all other octets. Octets behind the last record do not matter. The same for Request::from_wire, RRset::from_wire and Question::from_wire.", "every octet string", "all octet strings, all compression layouts", ["src/response.rs: from_wire","src/request.rs: from_wire","src/rrset.rs: from_wire","src/rdata.rs: from_wire","src/question.rs: from_wire","src/header.rs: from_wire","src/name.rs: from_wire"])
p("Received messages can be sent on",
  "A message that from_wire returned is written by to_wire, whenever that returns Ok, so that the receiver decodes the same message, or its header with TC and its question; the same message if the buffer is large enough.", "every accepted octet string and every buffer", "all octet strings and buffer sizes", ["src/response.rs: from_wire, to_wire"])
p("build makes the message its texts describe",
  "response_builder::build returns a response (QR and RD set, class IN, a NOERROR QUERY) whose question is the name and type given, whose sections hold exactly the records of the groups of lines of that section, in order, sets of the same owner and type joined, with an EDNS record behind the additional records if a UDP size is given and header counts that match; it fails if any text does not parse; and what it builds can be sent and is received unchanged.", "every name, type, groups of lines and UDP size", "unbounded texts", ["src/response_builder.rs: build, add_rrset, edns, done","src/rrset.rs: from_strs"])
p("Records parsed from text can be sent",
  "Every record set that RRset::from_strs accepts can be written in a message: all its names and strings are within the limits of the wire format, so the receiver decodes the same set.", "every text of every record type", "every text", ["src/rrset.rs: from_strs, to_wire","src/rdatafield/string_decode.rs","src/rdatafield/wire_encode.rs: byte_binary, name"])
p("Message equality is the same header, question and sets",
  "Comparing two responses never panics and is true exactly if headers, questions (name without letter case, type, class) and, in every section, the sets one by one in order (owner, type and data in any order) are the same; it is an equivalence relation.", "every pair of messages", "all pairs and all data orders", ["src/response.rs: Response PartialEq, Section","src/question.rs","src/rrset.rs: PartialEq"])
p("Label sequences and slices compare, print and parse by their labels",
  "Slices of names and sequences show the labels left after strip_left/strip_right (which panic only when none would be left); equals is equality of the labels, with or without letter case; compare gives the number of common labels at the right, the relation and the canonical order; LabelSequence cmp, Display and FromStr agree: Equal exactly for the same labels up to case, text is the labels joined by dots, and reading it back gives the sequence, with the root label exactly if the text ends with a dot.", "every run of labels, every slice of it, every text", "all octets and runs of labels", ["src/label_slice.rs: from_name, from_label_sequence, equals, compare, strip_left, strip_right, Display","src/label_sequence.rs: equals, split, cmp, Display, FromStr"])
p("Printed messages show the message",
  "Displaying a Response, Request or NotifyRequest never fails, for received messages in particular; the text of a response is the header (opcode, rcode, id, flags, counts), the EDNS line if the last additional record is OPT, the question and, under a title for every section with records, one line per record in order; each of these lines parses back to its record; and messages with the same text are the same.", "every message", "unbounded messages; all pairs of messages", ["src/response.rs: Display","src/header.rs: Display","src/question.rs: Display","src/edns.rs: Display","src/request.rs: Display","src/notify.rs: Display","src/rrset.rs: Display"])
p("A builder call changes exactly what it names, and the last call wins",
  "After any sequence of calls on a ResponseBuilder the id, opcode, rcode, question and every flag are those of the last call that set them (or as before), a section no call named is unchanged, and the header counts change by done alone, after which they are the numbers of records.", "every sequence of builder calls and every message", "unbounded call histories", ["src/response_builder.rs: id, set_flag, clear_flag, opcode, rcode, question, make_response, clear_section, with_section, done","src/header.rs: set_flag"])
p("Which names have nodes in a domain tree, after every history",
  "After any sequence of insert, remove_node, remove, find, set_callback, set_wildcard and clear the nodes of a DomainTree are these: insert gives its name a node and, if the name branches off from a name with a node at a name without one, that name a node without a value, and changes nothing else; it answers the value replaced, or for a new node Some(None) if longer names end with it and None if not. Removing takes the value of its name (for remove: of the longest end of the name that has a node) and with it exactly the nodes without a value on the way up that have no other node below them. find gives the node of the longest end of the name that has one, with the value and flags last set; len is the number of nodes (plus, after clear, those cleared), is_empty tells if there are none.", "every history of operations, debug and release builds; names are legal, those inserted are of ASCII octets, and in a debug build so are those looked up and removed", "unbounded histories and trees; all interleavings of splits, rotations and removals", ["src/domaintree/tree.rs: insert, remove, remove_node, find, len, is_empty, clear","src/domaintree/node.rs","src/domaintree/flag.rs"])
p("Which record lines are read, and as what",
  "RRset::from_str answers a record set exactly on the texts of this grammar, white space characters at both ends taken off: owner name, TTL, class (IN if missing), type and the data in the notation of the type, as words separated by blanks (character-strings in quotes, base64 and texts up to the end); the set has exactly the fields the words denote: names by their labels, numbers in decimal, addresses as dotted quads and RFC 4291 texts, octets in hexadecimal or base64, times as calendar dates, types and classes by mnemonic. What stands behind the data is ignored. No text has two readings. The same for RData::from_str and, line by line, RRset::from_strs.", "every text in UTF-8 and every record type, debug and release builds", "every text", ["src/rrset.rs: FromStr, from_strs","src/rdata.rs: from_str, from_string_buffer","src/rdatafield/string_decode.rs","src/util/string_buffer.rs","src/rr_type.rs: FromStr","src/rr_class.rs: FromStr","src/name.rs: new, string_parse"])
p("A domain tree of any names stays a tree",
  "In a release build the names of a DomainTree may have any octets (in a debug build other than ASCII octets panic, C68). No sequence of operations panics or touches memory that is not a node of the tree; afterwards it is a tree of legal names, every level balanced (height at most twice the logarithm of its size); len counts the nodes; find ends and answers a node of the name, a node above it, or nothing. Only the order, and so finding every name, needs ASCII.", "every history of operations on legal names of any octets (debug build: ASCII), and every name searched", "unbounded histories; a comparison that is not an order", ["src/domaintree/tree.rs: insert, remove, remove_node, find, find_node_ext, clear, insert_fixup, remove_fixup, node_fission","src/label_slice.rs: compare"])
p("A domain tree neither loses nor copies values",
  "The values given to insert are exactly those handed back by insert, remove and remove_node, those still stored and those dropped by clear. A value is answered only if it was inserted before under the name asked for (for remove: that name or one above it) and not cleared since. Every inserted name is found.", "every history of operations on legal names of any octets (debug build: ASCII)", "unbounded histories; a comparison that is not an order", ["src/domaintree/tree.rs: insert, remove, remove_node, find, clear","src/domaintree/node.rs: set_value, get_value","src/label_slice.rs: compare"])
p("A printed domain tree shows the tree",
  "DomainTree::dump ends and prints the size and, indented by level, one line for every node with its labels, colour, place under its parent and whether it has a value, each level below between two lines with its first node; trees with the same text have the same size, shape, labels, colours and nodes without value. The NodeChain of any search displays the labels of its nodes.", "every history of operations on legal names of any octets (debug build: ASCII), every search", "unbounded trees; all pairs of trees", ["src/domaintree/tree.rs: dump, dump_helper, indent","src/domaintree/node_chain.rs: Display","src/label_sequence.rs: Display"])
p("Writing through a search result changes one value",
  "Assigning through FindResult::get_value_mut after find changes the value of the node found (the node of the name, or of the closest one above on a partial match) and nothing else in the tree; there is nothing to assign if nothing was found or the node has no value.", "every history of operations and every name", "unbounded histories", ["src/domaintree/tree.rs: FindResult::get_value_mut, find"])
p("Nodes compare as their names",
  "Comparing two NodePtr of a tree with Ord gives the canonical order of their names, Equal exactly for the same node.", "every history of operations and every pair of nodes", "unbounded histories; all pairs", ["src/domaintree/node.rs: Ord, PartialOrd, PartialEq"])
p("A received message is not much larger than its octets",
  "A message that Response::from_wire accepts from n octets holds exactly the records its header announces, at most (n-17)/11 of them, and with all its names written out (as they are kept in memory) it has at most 52 n octets: compression pointers cannot make a small message decode to an unbounded one.", "every octet string that is accepted", "all messages of all lengths; needs a bound on every compressed name, record and section", ["src/response.rs: from_wire","src/name.rs: from_wire","src/rrset.rs: from_wire"])
p("Printed texts tell things apart",
  "Two record sets, two data of one type, two requests with the same text are equal, and two messages with the same text agree in header, question, records and EDNS: no owner name, data octet, empty string, quote, blank or escape can make a text be read as that of another value.", "all pairs of record sets, data, requests and messages of valid names with any octets", "all pairs of values of unbounded size", ["src/rrset.rs: Display","src/rdata.rs: Display","src/rdatafield/string_encode.rs","src/response.rs: Display","src/request.rs: Display","rdata-derive/src/expand.rs"])
p("Searches and changes of a domain tree visit few nodes",
  "find, find_node and find_node_ext (with any callback) compare the name with at most (labels of the name, the root included) times 2 log2(nodes+1) nodes, and insert finds its place after at most 3 more, whatever the history of insertions and removals was. The same holds of the work of repairing the tree: every loop of insert ends within 4 + (labels) times 2 log2(nodes+2) rounds, and remove and remove_node take out at most one node for each label of the name, with at most 1 + 2 log2(nodes+1) rounds of every loop for each.", "every history of operations on legal names of any octets (debug build: ASCII), every name and callback", "unbounded histories; the worst case over all of them", ["src/domaintree/tree.rs: find_node_ext, insert, insert_fixup, remove_fixup, node_fission"])
p("Dropping a domain tree frees its memory",
  "While a DomainTree is in use, the memory it holds is that of its nodes, and dropping or clearing it frees all of it: nothing is leaked by any history of operations.", "every history of operations on legal names (exact count: ASCII names; no leak without removals: names of any octets)", "unbounded histories; every path of insertion, splitting, rebalancing and removal", ["src/domaintree/tree.rs: Drop, clear, clear_recurse, insert, node_fission, remove, remove_node","src/domaintree/node.rs: new, split_to_parent"])
p("Nothing a buffer held before gets into a message",
  "What to_wire of a Response, Request or NotifyRequest answers, errors and panics included, and the octets it sends are determined by the message and the size of the buffer: what the buffer held before, and what was sent with the same renderer before a reset (complete, cut short or refused), changes nothing.", "every message of legal names and typed data, every pair of buffers of one size and every history of a renderer; names whose compression hashes collide included", "all old contents of all buffers, all histories", ["src/message_render.rs: new, reset, skip, write_name, find_offset, add_offset","src/util/output_buffer.rs","src/rrset.rs: to_wire","src/response.rs: to_wire, truncate","src/request.rs: to_wire","src/notify.rs: to_wire"])
p("Decoding a name takes bounded work","Whatever the octets of a message, reading a name at position p ends - with the name or an error - after reading at most 257 + 2*min(p, 16384) octets, so never more than 33025 in all: compression pointers cannot be made to loop or to cost more than that. (The bound cannot be made a constant near 255: a message of 2k+1 octets can make the name at its last pointer cost more than 2k reads while all it says is the root.)","all octet strings, all read positions","a fuzzer that does not hang shows nothing about the worst input; the bound must hold for every arrangement of labels and pointers",["src/name.rs: Name::from_wire"])
p("Any size or position can be asked for","Every usize passed as a length, count, level or position to InputBuffer::read_bytes, OutputBuffer and MessageRender skip and write_u16_at, Name::split and parent and LabelSequence::split is either within range or refused with an error that changes nothing; no argument makes the call panic or corrupts the buffer, in either build profile.","all usize arguments (64 bit), all buffers, names and label runs, builds with and without overflow checks","the failing arguments are within a few of 2^64, where no test looks; the sums must be followed through wrapping arithmetic",["src/util/input_buffer.rs: read_bytes","src/util/output_buffer.rs: skip, write_u16_at","src/message_render.rs: skip, write_u16_at","src/name.rs: split, parent","src/label_sequence.rs: split"])
p("A message does not depend on where in a buffer it is written","Writing a Response to a MessageRender that already holds octets - two skipped for the length prefix of TCP, or an earlier message, with no reset between - appends a message that can be cut out of the buffer and decoded; if it does not fit it is cut short like any other; and what was in the buffer before stays as it was.","all messages, all renderers reached by any calls, any number of messages in one renderer","all histories and all room left; tests write each message to a fresh renderer, where start of buffer and start of message are the same",["src/response.rs: to_wire, truncate","src/message_render.rs: write_name, add_offset, find_offset, skip, write_u16_at"])
p("A debug build's domain tree survives its panics",
  "In a build with overflow checks and with names of any octets, an operation on a DomainTree either does and answers exactly what it should, or panics and leaves every node, link and counter as it was: a caller who catches the panic can go on, and the answers are those of a map of the operations that did not panic. It panics only where labels first differ in octets (lower case, signed) more than eight bits apart; for names without such labels - all ASCII names, all names without ASCII octets - no operation panics and both builds answer as a map.", "every history of operations on legal names of any octets, each panic caught", "unbounded histories and trees; every octet pair; where in an operation the panic strikes", ["src/domaintree/tree.rs: insert, find_node_ext, remove, remove_node", "src/label_slice.rs: compare"])
p("A node chain is a stack of the nodes a search passes",
  "A NodeChain answers push, pop, top and bottom as a stack of up to 128 nodes does. find_node leaves on it the nodes above the name asked for, from the top down, the node found last, and there is room for every name; a chain can be used for any number of searches, each answering as on a new chain, and callbacks get the full name of their node.", "every history of calls on a chain, every history of operations on legal names (debug build: ASCII), every name searched, every chain in use", "all histories; what popped nodes leave behind shows only in certain ones, and the chain fills only after many searches", ["src/domaintree/node_chain.rs: new, push, pop, top, bottom, get_absolute_name", "src/domaintree/tree.rs: find_node, find_node_ext"])
p("Compression pointers go straight to a label",
  "Every name that a MessageRender writes, in any history of writes and in every message of Response::to_wire, stands in its place (one place for each name of the message, in order, not overlapping) so that each compression pointer on the way leads backwards to the length octet of a label below 16384: never to another pointer, never to the root. So a reader follows at most one pointer for each label, and the search for a name of n octets in what was written before looks at no more than 3n+3 octets of the message, however long it is and however many names it holds.", "every history of a renderer, every name searched, every message of legal names and typed data", "all histories, chains of pointers of any length; that a decoder which accepts pointers to pointers reads the message back does not show it", ["src/message_render.rs: write_name, add_offset, find_offset, NameComparator::compare, next_label", "src/response.rs: to_wire", "src/rrset.rs: to_wire"])
p("A question is answered, as asked, completely or marked as cut",
  "A client sends Request::new of any legal name and any type; a server that sees only those octets decodes the same request, and answers with the id and question of it and any further calls on a ResponseBuilder, in any order, that add record sets, set codes and flags, give EDNS, remove or clear. Every such call succeeds, with 271 octets more than the name in the buffer something is always sent, and the client, seeing only those octets (and whatever follows them), decodes a response with its own id and question and the codes of the last calls: either it is complete - every section has exactly the data added to it, of the owners and types it was added for - or it is marked as truncated and has no records; never a part of a set, never anything else. It is complete if the buffer can hold it with all its names written out and no two of those names collide under the hash of the renderer.", "all names and types, all lists of calls (record sets of legal names and data within the limits of their fields, of other types than OPT; at most 65535 records in a section), all buffer sizes", "all conversations: any calls in any order, any buffer, composed through both encoders and both decoders", ["src/request.rs: new, to_wire, from_wire", "src/response_builder.rs: ResponseBuilder", "src/response.rs: with_question, to_wire, truncate, from_wire, recalculate_header", "src/message_render.rs"])
p("NOTIFY messages and their replies can be decoded",
  "A NOTIFY request for any zone, with or without its SOA record, is read by the decoder for responses as a message with its header and question and that record only; and the reply made of it is read as a response with its id and question and no records.", "every zone name, SOA record, id and buffer", "all names, records and buffer sizes; the module has no tests and its own decoders cannot be called", ["src/notify.rs: NotifyRequest::new, to_wire, NotifyResponse::new, to_wire", "src/response.rs: from_wire"])
p("A name server made of the parts answers from what it was told",
  "A server keeps record sets in a DomainTree under their names, changed by any history of insert, remove and the rest; it decodes requests with Request::from_wire, looks their name up with find, builds the response with ResponseBuilder and sends it with Response::to_wire. Whatever octets it accepts as a request, for a name in any letter case (of ASCII octets if it was built for debugging), it sends a response which the client decodes, with the client's id and question, and which says exactly what the last changes left: for a name that is there its sets of the type asked for, for another one the name servers of the closest name above; or which is marked as truncated and empty. It is complete if the buffer can hold it with all its names written out and no two of those names collide under the hash of the renderer.", "all histories of the tree (legal names, ASCII where inserted or in a debug build, sets that fit), all octets accepted as a request, all buffers with 271 octets more than the name", "all histories times all requests; every part of the library is on the way", ["src/domaintree/tree.rs: insert, remove, remove_node, find", "src/request.rs: from_wire", "src/response_builder.rs: ResponseBuilder", "src/response.rs: to_wire, from_wire"])
p("What a zone file says is what is answered",
  "A zone written as lines of text is read with RRset::from_strs, group by group, and each set kept in a DomainTree with the others of its owner. A server with that tree answers every request, for a name in any letter case (of ASCII octets if it was built for debugging), so that the client decodes, with its own id and question, exactly the data of the lines of that owner and of the type it asked for, all of it and nothing else; or a response marked as truncated and empty. It is complete if the buffer can hold it with all its names written out and no two of those names collide under the hash of the renderer.", "all texts of lines up to 510 octets without backslash which the library reads (ASCII owner names, no OPT, up to 65535 records of one owner), all octets accepted as a request, all buffers with 271 octets more than the name", "all zones times all requests; text reader, tree, renderer and both decoders are on the way", ["src/rrset.rs: from_strs", "src/domaintree/tree.rs: insert, find", "src/request.rs: from_wire", "src/response_builder.rs: ResponseBuilder", "src/response.rs: to_wire, from_wire"])
p("A domain tree answers by what it holds, not by how it came to hold it",
  "Two DomainTrees that hold the same values under the same names answer every find alike - the same kind of match and the same value - and have the same len, in whatever order the names were inserted, however often values were replaced, and whatever else was there and was removed.", "all pairs of histories of operations on legal names (ASCII where inserted or in a debug build) that leave the same values, all names searched (of any octets in release builds)", "pairs of unbounded histories; rebalancing and splitting depend on the order", ["src/domaintree/tree.rs: insert, find, node_fission, remove_node, len", "src/domaintree/node.rs: split_to_parent"])
p("The decoders agree, and a request can be passed on",
  "Octets that Request::from_wire and Response::from_wire both accept have the same header and question for both; what Response::from_wire accepts, Request::from_wire accepts if and only if no answer is announced; what Request::from_wire accepts without announcing records, Response::from_wire reads as a message without records. And a request that was read and is written again is a message: every decoder that reads the records it announces accepts it and reads the same header and question.", "all octet strings, all requests read from them, all buffers of 271 octets or more", "all octets, through two decoders and the encoder; tests decode each message with one decoder", ["src/request.rs: from_wire, to_wire", "src/response.rs: from_wire", "src/header.rs: from_wire, to_wire"])
p("What was read from text and printed reads back as the same",
  "Whatever lines RRset::from_strs accepts, the record set it answers can be printed, one line for each record, and from_strs of the printed lines answers the very same set: no data is lost or changed by reading, printing and reading again.", "all lists of lines of any UTF-8 text that are accepted (names of up to 255 octets), both build profiles", "all accepted texts; sets that come from a parser are not all sets, and the values printed are not those of any test", ["src/rrset.rs: from_strs, from_str, Display", "src/rdata.rs: from_str, Display", "src/name.rs: string_parse, Display", "src/rr_type.rs: Display"])
p("A larger buffer never hurts",
  "Whatever succeeds on a buffer succeeds on every larger one: calls on a MessageRender, in any order and with any arguments, records, requests and NOTIFY requests write the same octets there; a response is sent in the same octets, or, where the smaller buffer held only its truncated form, in whole. So for each response there is one size, and one sequence of octets, such that it is sent whole exactly in the buffers of at least that size and always in these octets (or it is sent whole in none).", "all sequences of calls, all messages of legal names and typed data (colliding suffixes included), all pairs of buffers", "all pairs of buffer sizes; compression, the shared search cursor and truncation all depend on what fitted before", ["src/message_render.rs: write_name, skip, write_u16_at, truncate", "src/util/output_buffer.rs", "src/response.rs: to_wire", "src/request.rs: to_wire", "src/notify.rs: to_wire", "src/rrset.rs: to_wire"])
p("Any number of forwarders are like one",
  "A message goes through any number of forwarders, each of which decodes the octets it gets with Response::from_wire and sends the result on with Response::to_wire from a buffer of its own. It arrives, as it was or truncated, in the very octets that one forwarder with the smallest of the buffers would have sent: nothing is lost, changed or re-encoded in another way by the others, and neither their order nor their number matters. What one forwarder has sent, every later one whose buffer is not smaller sends on octet by octet.", "all octets that Response::from_wire accepts, all lists of buffers of 526 to 65535 octets with any contents (one more forwarder: of any size up to 65535)", "all messages and all chains; a test sends a message through the codec once or twice", ["src/response.rs: from_wire, to_wire", "src/message_render.rs: write_name", "src/rrset.rs: to_wire, from_wire"])
p("What was received is what is answered",
  "A resolver decodes the responses it receives with Response::from_wire and keeps the record sets of all their sections (but OPT) in a DomainTree, each with the others of its owner; later it answers requests from that tree with ResponseBuilder and Response::to_wire. Whatever octets it received and accepted, it answers every request, for a name in any letter case (of ASCII octets if it was built for debugging), so that the client decodes, with its own id and question, exactly the data received for that name and of the type it asked for, all of it and nothing else; or a response marked as truncated and empty. It is complete if the buffer can hold it with all its names written out and no two of those names collide under the hash of the renderer.", "all lists of octet strings that Response::from_wire accepts (ASCII owner names, up to 65535 records of one owner), all requests accepted, all buffers from 271 octets more than the name up to 65535", "all messages received, in any number and from any encoder, through decoder, tree, builder, encoder and decoder", ["src/response.rs: from_wire, to_wire", "src/domaintree/tree.rs: insert, find", "src/response_builder.rs: add_rrset", "src/request.rs: from_wire"])
p("A network says only what its zones say",
  "Name servers load zones given as text into DomainTrees; caches decode with Response::from_wire what servers, forwarders and other caches send and keep it in DomainTrees; forwarders decode and send on with Response::to_wire; servers and caches answer whatever they accept with Request::from_wire. However many of them there are, whoever sends to whom, however often, with whatever requests and buffers up to 65535 octets: every octet string sent in this network decodes as a response, each fact in its sections (owner, type and data) is written in one of the zones, its answers are about the name and type in its question, and its authority section has only name servers of that name or of a name above it.", "all lists of zones of lines of at most 510 octets without backslash (ASCII owner names, no OPT), all finite networks and orders of messages, all requests of any octets, all buffers up to 65535 octets, both builds; no tree with more than 65535 records of one name", "every message of every run of every network; an induction over all that was sent before", ["src/rrset.rs: from_strs", "src/domaintree/tree.rs: insert, find", "src/response_builder.rs: add_rrset", "src/response.rs: from_wire, to_wire", "src/request.rs: from_wire"])
p("A long-running server answers with its data of that moment",
  "A name server keeps its record sets in a DomainTree and uses one MessageRender for all its answers, with a reset before each. Its data change by tree operations and octets come in, in any number and any order. It never panics; octets that are no request it does not answer; every request it answers with a response that the client decodes, with its own id and question, which says exactly what the tree holds at that moment (the sets of the name and type; else the name servers of the closest name above; else that it is refused) or is marked as truncated and empty - nothing of earlier data, requests or answers; and it is complete if the buffer holds it with all names written out and no two of the names collide under the hash of the renderer.", "all sequences of tree operations and received octets (ASCII names put into the tree; in a debug build all names), all initial contents of a buffer of 526 octets or more, both builds", "all interleavings of changes and requests, of any length, and what they leave behind in tree, table and buffer", ["src/message_render.rs: reset", "src/domaintree/tree.rs", "src/response_builder.rs: add_rrset", "src/response.rs: to_wire, from_wire", "src/request.rs: from_wire"])
p("A lookup gets what the server has, over any network, or nothing",
  "A client makes a request with Request::new, sends it, takes the first of the octets that arrive which decode to a response with its id and its question (compared with ==), and asks again in a larger buffer if that is marked as truncated. The server answers from a DomainTree; on each of the two ways any number of forwarders may decode the response and send it on. The network may lose, repeat and delay messages and bring any other octets between, as long as nobody else guesses the id and the question. The client never panics; the message it gets, if any, has its id and question and says exactly what the tree says of the name and type (letter case aside), with the same response code, or is marked as truncated and empty; and if the network brings what the server sends, the larger buffer holds the answer with all names written out, the forwarders on that way have buffers of that size, and no two of the names collide under the hash of the renderer, it does get exactly what the tree says.", "all histories of tree operations, all names (ASCII in a debug build), types and ids, all buffers of the stated minimal sizes, all behaviours of the network, both builds", "all losses, repetitions, orders and foreign octets between client and server, together with all data and histories", ["src/request.rs: new, to_wire, from_wire", "src/response.rs: to_wire, from_wire", "src/question.rs: eq", "src/domaintree/tree.rs: find", "src/header.rs: is_flag_set"])
p("From the lines of a zone to the client: a lookup gets the data that were typed",
  "The lines of a zone are read with RRset::from_strs and put into a DomainTree under their owners; a server answers from it; forwarders decode responses and send them on; a client makes a request, takes the first acceptable response that arrives and asks again in a larger buffer if it is truncated. Loading never fails, the client never panics; the answer that the client gets, if any, holds exactly the data of the lines of that owner (letter case aside) and type, all of them and nothing else, or the message is marked as truncated and empty. If the owner has lines, the network brings what is sent, the buffers on the second way hold the answer with all names written out and no two of the names collide under the hash of the renderer, the client gets exactly these data, with NoError.", "all groups of lines of at most 510 octets without backslash that are read as record sets with ASCII owners, none of them OPT, at most 65535 records of one owner; all names (ASCII in a debug build), types and ids asked for; all buffers of the stated minimal sizes; all forwarders; all behaviours of the network that do not forge id and question; both builds", "all zones, questions, forwarders, losses, repetitions, orders and foreign octets together", ["src/rrset.rs: from_strs", "src/domaintree/tree.rs: insert, find", "src/request.rs: new, to_wire, from_wire", "src/response_builder.rs: add_rrset", "src/response.rs: to_wire, from_wire", "src/message_render.rs"])
p("A caching resolver answers as the zone does",
  "The lines of a zone are loaded by a server as in C114. A resolver looks up a list of different (owner, type) pairs with it as in C113 - over a network, through forwarders, again in a larger buffer when truncated - and puts all record sets of the responses except OPT into a DomainTree of its own under their owners. The resolver never panics. Afterwards whoever asks the resolver for one of these pairs, in any letter case, gets a response that decodes, echoes id and question, fits the buffer, and whose answer holds exactly the data of the lines of that owner and type, all of them and nothing else, whatever was looked up before or after; or it is marked as truncated and empty. If there are such data, the buffer holds them with all names written out and no two of the names (the owner in each of its spellings) collide under the hash of the renderer, the answer is the data.", "all groups of lines as in C114; all lists of queries (any length, order, letter case and ids) with different (owner, type) pairs, for owners that have lines and whose data fit the larger buffer without colliding hashes; all networks that bring what is sent and do not forge id and question; all forwarders and buffers of the stated minimal sizes; all later requests for one of the pairs; both builds", "all zones, lists of queries, networks and later requests together; the state of the tree depends on the whole history", ["src/rrset.rs: from_strs", "src/domaintree/tree.rs: insert, find", "src/request.rs: new, to_wire, from_wire", "src/response_builder.rs: add_rrset", "src/response.rs: to_wire, from_wire", "src/message_render.rs"])
p("Resolvers that ask resolvers, to any depth, answer as the zone does",
  "The lines of a zone are loaded by a server as in C114. Resolvers as in C115 look up different (owner, type) pairs with that server, or with resolvers that have looked these pairs up before, and so on to any depth, each over its own network, forwarders and buffers. No resolver panics. Whoever asks any of them for a pair it has looked up (any pair, for the server), in any letter case, gets a response that decodes, echoes id and question, fits the buffer, and whose answer holds exactly the data of the lines of that owner and type, all of them and nothing else; or it is marked as truncated and empty. If there are such data, the buffer holds them with all names written out and no two of the names (the owner in each of its spellings) collide under the hash of the renderer, the answer is the data.", "all groups of lines as in C114; all finite hierarchies of resolvers of any depth and their lists of queries (different pairs for which the zone has data that fit the larger buffer without colliding hashes); all networks that bring what is sent and do not forge id and question; all forwarders and buffers of the stated minimal sizes; all later requests; both builds", "induction over the depth of the hierarchy: nothing may be lost, doubled or mixed up by any number of decodings, trees and encodings", ["src/rrset.rs: from_strs", "src/domaintree/tree.rs: insert, find", "src/request.rs: new, to_wire, from_wire", "src/response_builder.rs: add_rrset", "src/response.rs: to_wire, from_wire", "src/message_render.rs"])
p("A server restarted from what it printed is in the same state",
  "A server keeps the record sets of the responses it has received (or of the lines of a zone) in a DomainTree. It prints each set with Display and cuts the text into lines; a new server reads the lines with RRset::from_strs and keeps the sets in its own tree. The new tree is the same, so every later answer, change and lookup is the same, in both builds.", "all octets received that decode as responses, whoever made them, in any number and order; all zones of lines that are read; all trees to begin with; both builds", "all messages and texts together: any octet of any name, string, number, time or address that is printed in one way and read in another would change a later answer", ["src/rrset.rs: Display, from_strs", "src/rdata.rs", "src/name.rs: Display, new", "src/response.rs: from_wire", "src/domaintree/tree.rs: insert, find"])
out=os.path.join(os.path.dirname(__file__),"..","properties.jsonl")
with open(out,"w") as f:
    for x in P: f.write(json.dumps(x)+"\n")
print(len(P))
