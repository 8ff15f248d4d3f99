# r53 in Lean 4: design

`/verif/lean` holds a formal model of the Rust crate `r53` (`/repo`, read as text) and machine-checked
proofs about that model. `properties.jsonl` lists the properties (C01…); `MANIFEST.json` maps each to
theorem names; `seeded/LOG.jsonl` records the mutation tests.

## 1. Trusted base

* Lean 4.33.0's kernel. Every property theorem depends on at most `propext`, `Classical.choice`,
  `Quot.sound`. No axiom is declared, no proof is left open, no compiled-code decision procedure is used.
* The reading of the Rust source. Every model definition cites file and lines in its doc comment; where it
  simplifies, the comment says so. The tie between code and model is this reading only: nothing was run.
* The specification files `Verif/Spec/*.lean`, which are deliberately small and do not use model helpers.

### Modelling conventions

* `u8/u16/u32/u64` data are Lean `UInt8/16/32/64`; `usize` counters are `Nat` (buffers are far below 2^64);
  the functions that add an argument of the caller's to a length are also modelled with 64-bit arithmetic (`Model/Word`, C96).
  Narrowing casts are explicit (`% 256`, `UInt8.ofNat`).
* `Result`/panic: `Res α = ok | err | panic`. Every Rust operation that can panic (index, slice, `unwrap`,
  `assert!`, unsigned subtraction/addition under overflow checks) is an explicit `panic` branch in the model,
  so "never panics" is a theorem. Error messages are dropped (all `Err` are one `err`).
* `&mut self` becomes `St σ α = σ → Res α × σ`; the state after `Err` is kept, as Rust does.
* Loops are recursive functions with the loop variables as arguments. Unbounded loops carry a termination
  proof.
* Not modelled: allocation and its failure, `Vec::with_capacity`, `anyhow` messages, `Debug`, `rand` (an arbitrary sequence of draws).
  The raw pointers of the domain tree are modelled, as addresses in a store with an explicit panic for a dangling or null access (C68).
* Text is the list of its UTF-8 octets. Written out in the model (`Model/Text`, `Model/Codes`), from the documentation of the
  standard library and the crate `time`: UTF-8 validity, decimal parsing and printing, `str::trim`, the Gregorian calendar
  between 1970 and 2106 and the parts of `to_uppercase` with an ASCII result. Address texts and base64 are a parameter `Ext` of
  that model; theorems that need them assume only `Ext.Laws` (a printed address or octet string is a word and reads back) or `Ext.Sized`.
  `Model/Std` writes out the parameter itself, `stdExt`, following the sources of `core::net` (since Rust 1.57) and `base64` 0.13 as known;
  neither source is in the sandbox. `stdExt` meets both sets of laws, and C84 and the `…_std…` theorems are about it.

## 2. Modules

| module | models |
|---|---|
| `Verif/Basic` | `Res`, `St`, checked arithmetic, list lemmas |
| `Verif/Spec/*` | label lists, wire form, RFC 1035 decompression, canonical order, master-file text |
| `Verif/Model/Buffer` | `util/input_buffer.rs`, `util/output_buffer.rs` |
| `Verif/Model/Hex` | `util/hex.rs` |
| `Verif/Model/Name` | `name.rs`, `label_slice.rs`, `label_sequence.rs` |
| `Verif/Model/Render` | `message_render.rs` |
| `Verif/Model/Codes`, `Header` | `rr_type.rs rr_class.rs opcode.rs rcode.rs header_flag.rs header.rs` |
| `Verif/Model/Rdata`, `RRset`, `Message` | `rdata*.rs rdatafield/* rrset.rs edns.rs question.rs response.rs request.rs notify.rs`, the calls of `response_builder.rs`, `response_iter.rs` |
| `Verif/Model/Word` | the functions of buffers, names and label runs whose `usize` arguments can overflow, in both build profiles |
| `Verif/Model/Limit` | `insert` and `remove_node` of the tree with a limit on the rounds of every loop |
| `Verif/Model/LimitRender` | `find_offset` and `write_name` of the renderer with a limit on the octets a search looks at |
| `Verif/Model/Chain` | `node_chain.rs` as stored: array, `level_count`, and the search on it |
| `Verif/Model/Build` | `response_builder::build` |
| `Verif/Model/Show` | `Display` of headers, questions, EDNS records, sections, responses, requests, notifies |
| `Verif/Model/Std` | address texts of `std::net`, base64 of the crate `base64` |
| `Verif/Model/Text` | `util/string_buffer.rs`, `rdatafield/string_*.rs`, text halves of `rdata.rs`, `rrset.rs` and the derive macro |
| `Verif/Model/Tree` | `domaintree/*` |
| `Verif/Model/RandName` | `rand_name_generator.rs`; the random source is an arbitrary sequence of draws |
| `Verif/Proofs/*` | helper lemmas |
| `Verif/Props/*` | the property theorems with satisfiability examples |

## 3. Plan per property

| id | model | proof method |
|---|---|---|
| C01 C02 C03 | `from_wire` loop with its four state variables, well-founded recursion | equivalence with an inductive RFC 1035 relation; totality from the termination proof |
| C04 C05 C06 | `string_parse` state machine over octets | invariant of the machine; concrete witness where the property fails; `_partial` for the escape-free language; the printed text of any name against the RFC 1035 notation and a reader for it (Spec/Present) |
| C07 C08 C10 C16 | loops of `eq`, `hash`, `as_lowercase` | loops = list functions on label lists by induction |
| C09 C11 | `LabelSlice::compare` with `i8` arithmetic (debug: panic, release: wrap) | equals RFC 4034 order for octets < 0x80; exact order for all octets (Spec/Signed); witnesses against the full claim |
| C12 | `is_subdomain` backward octet loop | completeness for all names; witness against soundness; exact characterisation of what it computes |
| C13–C15, C17–C19 | each method on `raw`/`offsets` | commutes with list operation on labels; reachability induction |
| C20–C23 | cursor/buffer structures | case analysis, big-endian arithmetic, induction over histories |
| C24–C29 | renderer with packed offset table, hash, comparator | whole-history invariant: each table item decodes, inside frozen octets, to a name of the recorded length |
| C30–C35 | enums and bit masks | finite tables (`decide +kernel`) or bit lemmas |
| C36–C39 | field codecs per type as a schema list (what the derive macro expands to) | per-field round trip lemma over any render history, induction on schema; exact octets in Props/Pieces |
| C40 | `PartialEq for RRset` | witness against symmetry with duplicates; equivalence on duplicate-free sets |
| C41 C42 | `StringBuffer`, escapes | the reader accepts exactly the language of a small grammar (`Quoted`); induction on text; witness for the empty string |
| C43–C47, C53, C54 | `Response` encode/decode/truncate | composition of C34, C39; witnesses for the panics |
| C48–C52 | builder, iterators as state machines | refinement to list operations |
| C55–C57 | EDNS, request, notify | composition; exact octets and exact decoding in Props/Requests and Props/Pieces |
| C58–C66 | tree of red-black trees | refinement to a finite map, red-black invariants |
| C68 C69 | the same tree, as a heap of nodes with raw pointers | every history keeps a shape invariant, in which each dereference is of a live node; node identities are preserved by rotation, exchange and fission |
| C70 | `Display`/`FromStr` of record sets, field by field over the schema | print then parse per field; composition; free layout theorem; the converse from the grammar of C84: a field read back is printable (Proofs/TextExact) |
| C71 | the same, with panics of slicing inside a character and of `from_utf8().unwrap()` | a compositional "safe on texts" predicate; exactly the panicking texts by `Panics m B`, composed with the `Takes` of C84; witnesses |
| C44 C46 (exact) | the same, with the sizes of `Spec/Size` | without hash clashes each writer succeeds when its uncompressed size fits; exact error range and panic range of `to_wire` |
| C72 | the compression table over histories of writes | invariant: while no bucket is full every suffix written below 0x4000 is in the table; the search is exact when no two names clash; witness for a clash |
| C73 | the renderer against a reference encoder (`Spec/Encode`: dictionary of names, no hash collisions and no buffer; which names it remembers is a parameter: all, or at most 15 for each of the 64 buckets) | simulation: the buckets of the table hold the dictionary; each writer yields the reference octets when they fit and fails otherwise; exact outcome for every buffer size; the reference octets satisfy the recogniser of C75, by induction on the message with the dictionary's entries placed in the octets so far |
| C44 C73 C76 (all names) | `Spec/Seek`: the reference encoder with the renderer's search, entries of equal hash and length compared one after the other with what the last comparison left of the name; a name may be found, spelled again or refused | simulation as for C73 with a dictionary that may hold a name twice: the buckets hold the dictionary, the shared cursor is the rest of the name (`Tracks`); refused or no room = failure of the records; whole or cut is told by the header octets |
| C74 | the same, against the encoder that leaves names of newer types alone | equal where no such type occurs; witness |
| C75 | every decoder, against a recogniser (`Spec/Decode`: relations between positions of the octets; record data by the table `Spec/Layout` that the reference encoder also uses) | a compositional "exact" predicate on readers: success if and only if the relation holds, with the same end; sets are determined by the records (uniqueness of the grouping) |
| C76 | decoder and encoder together | what the relation of C75 admits fits the wire, then C44, C73 |
| C77 | `Model/Build`: `build` over the text parser and the builder | the relation `AddedAll` (Spec/Builder) between parsed sets and sections; C44 for sending |
| C78 | text parser | a logic `Gives` of what each field parser can return; schema by schema the result `Fits` |
| C79 | derived `==` of Response, Section, Question | from C40 set by set against Spec/Same |
| C80 | LabelSlice and LabelSequence: construction, strip, equals, compare, cmp, Display, FromStr | slices as views of runs of labels (`Shows`); comparison generic in letter case (Proofs/SliceCmp) against Spec/Slice; FromStr related to Name::new step by step (Proofs/SeqText); exactly the runs read back from their text (Props/SeqExact) |
| C81 | `Display` of Header, Question, Edns, Section, Response, Request, NotifyRequest (Model/Show) | totality from C05/C23 field by field; injectivity by cutting the text at its titles and line ends (Proofs/Show); record lines by C70 |
| C82 | all builder calls as one operation type | frame theorem per call; induction over the call list against "last call that sets it" |
| C83 | histories of tree operations against `Table`, a list of names with what is seen of their nodes (Spec/Nodes: no levels, links, colours, addresses) | how any two nodes of a tree lie to each other (`place_cases`: same, below, above, or apart at a node); from it closure under meets, the exact split in insert and the exact nodes that go in removal; induction over histories; a search for a name with other octets than the stored ones (release build) ends where the labels differ, whatever the wrapped comparison says (Proofs/TreeAny) |
| C84 | `stdExt`, `RRset::from_str`, `RData::from_str` down to the single word | a Hoare-style predicate `Takes m R` (the successes of a parser are exactly the readings `R`) with rules for sequence and choice, one lemma per kind of field against `Spec/Grammar`; names by an exact simulation of `string_parse` (Proofs/NameDialect) |
| C85 C86 | the same tree, without any assumption on the order of labels: `compare` may answer less or greater at will, only its equal, below, above and common-part answers mean something | the shape, colour and name invariants of C61/C68 again with the sortedness left out (Proofs/TreeFree); the multiset of entries before and after each operation; induction over histories (Proofs/TreeValues) |
| C87 C88 C89 | `dump`, `Display` of chains, `get_value_mut`, `Ord` of `NodePtr` (Model/Dump) as texts and writes | recursion over the tree in memory (`Represents`) against `Tr.drawn` (Spec/Dump); texts are cut at the first octet that is no visible character, so the drawing is injective; labels by the RFC 1035 reader of Spec/Present |
| C90 | nothing new: the decoder, through `MessageAt` (C75) | each spelled name, field, record and section is measured against the octets it takes (Proofs/Bomb): a name of two or more octets is at most 255 long, a record takes at least eleven octets |
| C91 | nothing new: the printing side of C70 and C81 | every field text ends before a blank: words have none, quoted strings are cut with an unescaping function (Proofs/Tell); lines have no line feed; by induction over fields, records, sections (Proofs/Tell2); names through the RFC reader of C05. Partial: codes without a name of their own print alike; the `_exact` theorems state when two texts are equal, both ways, over what is shown (`blur`, `SameShown` in Spec/Show) |
| C92 | the loops of the tree model already take the number of rounds they may make; `Model/Limit` writes `insert` and `remove_node` with that number as an argument for every loop | a measure `steps k t` of the nodes a search for `k` labels can meet, by induction on the tree that memory represents; every step down uses a label (common label count at least 1); levels balanced by C85; the way up in a level is at most its height, and two runs that differ in their limits agree when both end (`Agree`, Proofs/TreeRounds) |
| C93 | nothing new: `alloc` and `free` of the tree model are its only changes of which addresses are allocated | a footprint for every function of the tree (programs that only read and write nodes keep the allocated addresses, proved by a walk through the code; `insert` allocates as many nodes as `len` grows by); the table of C83 counts the nodes; a separate specification counts the nodes removals take out |
| C94 | nothing new: the buffer of the model holds its old octets, `skip` leaves them in place | two runs side by side: every lookup in the compression table reads only octets that were written since the start (invariant of C24), so on another buffer each writer answers the same, changes the table the same way and appends the same octets; composed over fields, records, sections and truncation |
| C95 | the loop of `Name.from_wire` again, with a number of rounds it may take (it panics when they are used up) | a measure of the rounds left, octets the name may still get plus two for each smaller pointer target, falls in every round; a family of pointer ladders for the other direction |
| C96 | the seven functions that add a number of the caller's to a length, once more, with 64-bit `usize` and both build profiles (`Model/Word`) | case distinction on the overflow; without it, equality with the model used everywhere else |
| C97 | `Response::to_wire` on a renderer with any history (no new model) | the search of C73 (`Spec/Seek`) started with the names the history left (C72) and the length already written; the overwritten octets of truncation as a function of the whole buffer (`stamped`) |
| C98 | nothing new: `TOp.caught` runs a history and threads the memory through panics | the invariants of C58–C61 again, for any set of labels that can be compared (`Near`) or, with overflow checks, for all labels: every comparison panics before anything is written, or its sign is that of the order of signed octets (Proofs/LabelOrd), which is a strict order of all labels; the splitting of a node repeats only comparisons that went through (`Cool.upper`, `Cool.lower`) |
| C99 | `NodeChain` with its array of 128 pointers and `level_count` (Model/Chain), and the search on it; Model/Tree keeps the list of nodes below `level_count` only | simulation: the array up to `level_count` is the list (`run_stack`, `search_same`); a search without callback on a used chain is the one on a new chain, put behind the nodes already there (`findLoop_behind`); the nodes on the way by the invariant of C85 (`Way`) |
| C100 | the renderer of C24; `Model/LimitRender` is its search once more with a limit on the octets of the message it looks at | the invariant of C72 (every table item was made when its name was written) extended: every item and every place of the log is `Straight` (`Reached.straight`), kept since names are written once and never overwritten; a comparison then looks at one pointer for each label at most (`write_name_in_eq`); a message is a history with its names in order (`Made`) |
| C101 | request, builder, response as in C56, C48, C82, C44; `Spec/Exchange` says which calls a server may make | an invariant of the sections over all calls (`Proper`), empty sections as none (`tidy`), the flag word stays within its mask (`flag_run`); then composition of C56, C82, C44, C46, C48 |
| C102 | notify.rs (as in C57) and `Response.from_wire` | C57 and the exactness of the decoder (`from_wire_iff`): the end of the question is the end of the reply, where no record can stand |
| C103 | `Spec/Server`: a user's program on top of the models of request, tree, builder and response | composition of C83 (find is the exact table), C101 and C82; every value in the table was inserted (`Table.kept`) |
| C104 | the loader of `Spec/Server` on top of the text reader and the tree, then the server of C103 | the table is a map under `insert` (`Table.valueOf_insert`), an invariant of loading (`Loaded`), C78 for the sets read, C103 |
| C105 | the tree and the table of C83; `Spec/History`: what was put in last, where two names branch | the nodes after insertions only are exactly the ends that two names put in share (`meet` is ultrametric: `meet_meet`), an invariant over the history (`Filled`); a witness with a removal |
| C106 | both decoders and the encoder of requests | the exact readings of C75 (`MessageAt`, header and question are determined by the octets), C56 for what is written; no record can start at the end of the octets (`section_end`); refuted in full for every message with records and no answers |
| C107 | the text parsers and printers of C70 and C84 | what a line denotes by the grammar of C84 is printable but for names and CERT (`line_printable`, `field_printable`), so C70 in its exact form applies |
| C108 | the renderer, buffer and encoders of C24, C73 | `Wider w`: what `w` does with success it does with more room behind the end, closed under all writers (Proofs/Wider); responses in any larger buffer by the exact outcomes of C73, others by C94 |
| C109 | `hop`, `hops` (Spec/Hops): from_wire then to_wire on a buffer | the exact outcomes of C73 (a function of message and size), C76 (what is received can be sent), the truncated message is its own encoding (`cut_written`, `cut_decodes`), induction on the chain |
| C110 | `Server.learn` (Spec/Server): decode, then find and insert for each set; `Server.serve` of C103 | what is decoded can be sent (C76), the tree as in C104 (`Loaded.add`), the server by C103 (`loaded_serves`) |
| C111 | `Sent` (Spec/Network): the octets sent by servers, caches and forwarders, an inductive predicate; `Faithful` what a response may say | `c103_told` (any answer of a server is what its table says), `Loaded` of C104 and C110, C76 for forwarders; induction over `Sent` |
| C112 | `Event.run` (Spec/Session): tree operations and requests in any order, one renderer reset and used again; `AllAnswered` what should be sent | each request by C103, reused renderers by `Shaped.reset` of C94, histories by `TreeReached.snoc` of C83 |
| C113 | `Client.lookup` (Spec/Client): request, first acceptable of what arrives, again if truncated; `Unforged` and `Brings` what the network does | requests by C56, server by C103, forwarders by C109 (`serve_settled`: those with enough room change nothing), `==` on questions by C79, decoding never panics by C43; induction over what arrives |
| C114 | the programs of C104, C109 and C113 together | loading by `load_ok` of C104, lookup by C113 |
| C115 | Resolver.run (Spec/Resolver): Client.lookup per query, Server.keep of what is told, Server.serve from its own tree | c113_through per query, the told facts are those of the zone for the pair (told_tells), keep_ok by induction over the queries, then loaded_serves; different pairs do not mix (taken_key) |
| C116 | Caches (Spec/Resolver): server tree, or the tree of a resolver that asked such a tree | invariant Level: the tree is loaded with sets whose facts are part of the zone, and all of it for what it answers for; kept by one more resolver (Level.step), induction over the hierarchy |
| C117 | Server.learn, Server.load (Spec/Server) and the printed text cut at its line ends (PrintedAs) | round trip of each set by C70; loading what was printed is step by step the same program as keeping the sets; false for sets that are not printable (witness) |
| C67 | generator with the random source as oracle | loop invariant |

Properties found false of the code are kept at full strength in `properties.jsonl`; the Lean side then has a
refutation theorem (`…_violated`, a concrete witness) and a `…_partial` theorem; both are in `MANIFEST.json`.

## 4. Mutation tests

`tools/mutate.py FILE.json` copies the Lean project outside `/verif`, applies one edit to a model definition, rebuilds the
properties and records which theorems fail. `tools/probes/*` hold executable versions of the property statements on samples,
and are evaluated in the mutated model: they show that the mutant violates the property itself, not only a helper lemma. Results are in
`seeded/LOG.jsonl`.
