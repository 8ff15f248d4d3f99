import Verif.Proofs.Section
import Verif.Proofs.Bounded
import Verif.Props.Rdata
/-!
# C43–C47, C53–C57: messages

`Render.new backing` is the renderer a caller makes on a buffer of `backing.length` octets (C29: `reset` gives the same).
-/
namespace R53

/-! ## C43 -/

/-- a decoded set: valid owner, canonical codes, data of the type of the set, and only OPT without data -/
theorem decodedSet {s : RRset} (h : s.Decoded) : s.Typed ∧ RRType.new s.typ.as_u16 = s.typ ∧ RRClass.new s.class_.to_u16 = s.class_ ∧
    (∀ rd ∈ s.rdatas, rd.kind = s.typ ∧ rd.Fits) ∧ (s.rdatas = [] → s.typ = .OPT) :=
  ⟨⟨h.name, fun rd hr => (h.data rd hr).2.typed⟩, h.typ, h.class_, h.data, h.empty⟩

/-- on any octets: `Err`, or a message with valid names, one question, well-formed sets, and at least ten octets of input for
every record announced -/
theorem c43_response_total (raw : List UInt8) :
    Response.from_wire raw = .err ∨ ∃ m, Response.from_wire raw = .ok m ∧ m.question.Fits ∧ m.header.qd_count = 1 ∧ m.Typed ∧
      (∀ t sets, m.section_ t = some sets → ∀ s ∈ sets, RRType.new s.typ.as_u16 = s.typ ∧ RRClass.new s.class_.to_u16 = s.class_ ∧
        (∀ rd ∈ s.rdatas, rd.kind = s.typ ∧ rd.Fits) ∧ (s.rdatas = [] → s.typ = .OPT)) ∧
      12 + 10 * (m.header.an_count.toNat + m.header.ns_count.toNat + m.header.ar_count.toNat) ≤ raw.length := by
  rcases safe_response (InBuf.new raw) (Nat.zero_le _) with ⟨m, e, h1, h2, h3, h4, h5, h6⟩ | ⟨b', h1, h2⟩
  · refine Or.inr ⟨m, by rw [Response.from_wire, h1], h6.question, h6.qd, ?_, ?_, ?_⟩
    · refine ⟨h6.question.1, fun t sets hs s hss => ?_⟩
      cases t
      · exact (decodedSet ((h6.answer.2 sets hs).2 s hss)).1
      · exact (decodedSet ((h6.authority.2 sets hs).2 s hss)).1
      · exact (decodedSet ((h6.additional.2 sets hs).2 s hss)).1
    · intro t sets hs s hss
      cases t
      · exact (decodedSet ((h6.answer.2 sets hs).2 s hss)).2
      · exact (decodedSet ((h6.authority.2 sets hs).2 s hss)).2
      · exact (decodedSet ((h6.additional.2 sets hs).2 s hss)).2
    · have : (InBuf.new raw).pos = 0 := rfl
      have h7 : e ≤ raw.length := h3
      omega
  · exact Or.inl (by rw [Response.from_wire, h1])

theorem c43_request_total (raw : List UInt8) :
    Request.from_wire raw = .err ∨ ∃ q, Request.from_wire raw = .ok q ∧ q.question.Fits ∧ q.header.qd_count = 1 := by
  rcases safe_request (InBuf.new raw) (Nat.zero_le _) with ⟨m, e, h1, h2, h3, h4, h5, h6, h7, h8⟩ | ⟨b', h1, h2⟩
  · exact Or.inr ⟨m, by rw [Request.from_wire, h1], h6, h7⟩
  · exact Or.inl (by rw [Request.from_wire, h1])

theorem c43_notify_total (h : Header) (q : Question) (b : InBuf) (hb : b.pos ≤ b.data.length) :
    (NotifyRequest.from_wire h q b).1 ≠ .panic ∧ (NotifyResponse.from_wire h q b).1 ≠ .panic := by
  refine ⟨?_, by simp [NotifyResponse.from_wire, pure]⟩
  rcases safe_notify h q b hb with ⟨m, e, h1, _⟩ | ⟨b', h1, h2⟩ <;> rw [h1] <;> simp

/-- one group of records, any position in the message -/
theorem c43_section_total (n : UInt16) (t : SectionType) (b : InBuf) (hb : b.pos ≤ b.data.length) :
    (∃ s e, Section.from_wire n t b = (.ok s, ⟨b.data, e⟩) ∧ b.pos + 10 * n.toNat ≤ e ∧ e ≤ b.data.length) ∨
    (∃ p, Section.from_wire n t b = (.err, ⟨b.data, p⟩)) := by
  rcases safe_section n t b hb with ⟨s, e, h1, h2, h3, h4, h5, h6⟩ | ⟨b', h1, h2⟩
  · exact Or.inl ⟨s, e, h1, h5, h3⟩
  · exact Or.inr ⟨b'.pos, by rw [h1, ← h2]⟩

/-! ## C44, C45 -/

/-- the truncated form of a message: TC set, no records -/
def Response.cut (m : Response) : Response :=
  ⟨{ m.header.set_flag .Truncation true with an_count := 0, ns_count := 0, ar_count := 0 }, m.question, none, none, none⟩

theorem cut_flag (h : Header) (hf : h.flag &&& 0x87b0 = h.flag) : h.truncated.flag &&& 0x87b0 = h.truncated.flag := by
  show (h.flag ||| _) &&& 0x87b0 = (h.flag ||| _)
  rw [u16_and_or, hf]; rfl

/-- what is decoded from the two kinds of output -/
theorem full_reads {L : Nat} {m : Response} (hm : m.FitsIn L) {q out tail : List UInt8} (hp : Reads (Mem.none.ext 12 q) 12 Question.from_wire m.question (12 + q.length))
    (hr : Reads ((Mem.none.ext 12 q).ext (12 + q.length) out) (12 + q.length) (readBody m.header m.question) m (12 + q.length + out.length)) :
    Response.read ⟨m.header.octets ++ q ++ (out ++ tail), 0⟩ = (.ok m, ⟨m.header.octets ++ q ++ (out ++ tail), 12 + q.length + out.length⟩) := by
  have hmask := masked_self hm.flag
  refine read_message hm.qd hp ?_
  rw [hmask]
  have hle : ((Mem.none.ext 12 q).ext (12 + q.length) out).le (memOf (m.header.octets ++ q ++ out)) := by
    have h1 := Mem.ext_le (g := Mem.none) (c := m.header.octets) (by intro i x h; simp [Mem.none] at h) q
    have h2 := Mem.ext_le (g := Mem.none.ext 12 q) (c := m.header.octets ++ q) h1 out
    rw [List.length_append, Header.octets_length] at h2
    exact h2
  refine hr _ ?_ (by simp only [List.length_append, Header.octets_length]; omega)
  rw [← List.append_assoc]
  exact Mem.le_append hle tail

theorem cut_reads {L : Nat} {m : Response} (hm : m.FitsIn L) {q tail : List UInt8} (hp : Reads (Mem.none.ext 12 q) 12 Question.from_wire m.question (12 + q.length)) :
    Response.read ⟨m.header.truncated.octets ++ q ++ tail, 0⟩ = (.ok m.cut, ⟨m.header.truncated.octets ++ q ++ tail, 12 + q.length⟩) := by
  refine read_message (h := m.header.truncated) (q := m.question) (x := m.cut) hm.qd hp ?_
  rw [masked_self (cut_flag _ hm.flag)]
  rfl

/-- for every well-formed message and every buffer: an `Ok` is the number of octets written, which is within the buffer, and
the octets (with anything behind them) decode either to the same message or to its truncated form. Record data of more than 65535
octets only matters in buffers that could hold it (`FitsIn`) -/
theorem c44_roundtrip (m : Response) (backing : List UInt8) (hm : m.FitsIn backing.length) (n : Nat) (r : Render)
    (h : m.to_wire (Render.new backing) = (.ok n, r)) :
    n = r.data.length ∧ n ≤ backing.length ∧
    ((∀ tail, Response.from_wire (r.data ++ tail) = .ok m) ∨ (∀ tail, Response.from_wire (r.data ++ tail) = .ok m.cut)) := by
  have ho := to_wire_outcome m backing hm.qReads (emitsB_body hm)
  rw [h] at ho
  cases ho with
  | err h1 => simp at h1
  | panic _ _ _ h1 => simp at h1
  | full q out h1 h2 h3 h4 h5 =>
    simp only [Res.ok.injEq] at h1 h2 h3
    refine ⟨h1, by omega, Or.inl fun tail => ?_⟩
    have := full_reads hm (tail := tail) h4 (h5 (by
      rw [h3] at h2; simp only [List.length_append, Header.octets_length] at h2; omega))
    rw [Response.from_wire, InBuf.new, h3, List.append_assoc (m.header.octets ++ q), this]
  | cut q h1 h2 h3 h4 =>
    simp only [Res.ok.injEq] at h1 h2 h3
    refine ⟨h1, by omega, Or.inr fun tail => ?_⟩
    rw [Response.from_wire, InBuf.new, h3, cut_reads hm h4]

/-- if the buffer is full before everything is written, what comes out is the header with TC set and all three record counts
zero, and the question; it decodes to the same id and question -/
theorem c45_truncated (m : Response) (backing : List UInt8) (hm : m.FitsIn backing.length) (n : Nat) (r : Render)
    (h : m.to_wire (Render.new backing) = (.ok n, r)) (hne : Response.from_wire r.data ≠ .ok m) :
    ∃ m', Response.from_wire r.data = .ok m' ∧ m'.header.is_flag_set .Truncation = true ∧ m'.header.id = m.header.id ∧
      m'.question = m.question ∧ m'.answer = none ∧ m'.authority = none ∧ m'.additional = none ∧
      m'.header.qd_count = 1 ∧ m'.header.an_count = 0 ∧ m'.header.ns_count = 0 ∧ m'.header.ar_count = 0 ∧
      m'.header.opcode = m.header.opcode ∧ m'.header.rcode = m.header.rcode ∧
      (∀ f, f ≠ .Truncation → m'.header.is_flag_set f = m.header.is_flag_set f) ∧ r.data.length ≤ backing.length := by
  obtain ⟨h1, h2, h3 | h3⟩ := c44_roundtrip m backing hm n r h
  · have := h3 []; rw [List.append_nil] at this; exact absurd this hne
  · have := h3 []
    rw [List.append_nil] at this
    refine ⟨m.cut, this, ?_, rfl, rfl, rfl, rfl, rfl, hm.qd, rfl, rfl, rfl, rfl, rfl, ?_, by omega⟩
    · have := (c35_set_flag m.header .Truncation true).1 .Truncation
      rw [if_pos rfl] at this; exact this
    · intro f hf
      have := (c35_set_flag m.header .Truncation true).1 f
      rw [if_neg hf] at this; exact this

/-! ## C46 -/

/-- question "a. A" and one A record -/
def sampleMsg : Response :=
  ⟨⟨0x1234, 0x8000, .Query, .NoError, 1, 1, 0, 0⟩, ⟨Name.ofLabels [[97]], .A, .IN⟩,
    some [⟨Name.ofLabels [[97]], .A, .IN, 60, [⟨.A, [.ip [1, 2, 3, 4]]⟩]⟩], none, none⟩

theorem sampleMsg_fits : sampleMsg.Fits := by
  refine ⟨⟨⟨[[97]], by decide, rfl⟩, rfl, rfl⟩, ⟨by simp, ?_, trivial, by simp, by simp⟩, trivial, trivial, rfl, rfl, rfl, rfl, rfl⟩
  intro s hs
  rw [List.mem_singleton] at hs
  subst hs
  refine ⟨⟨[[97]], by decide, rfl⟩, rfl, rfl, ?_, by simp⟩
  intro rd hrd
  rw [List.mem_singleton] at hrd
  subst hrd
  exact ⟨rfl, ⟨_, rfl, rfl, trivial⟩, by unfold RData.SizeOK; decide +kernel⟩

/-- a message can go out whole and come out truncated -/
example : (sampleMsg.to_wire (Render.new (List.replicate 64 0))).1 = .ok 35 := by decide +kernel
example : (sampleMsg.to_wire (Render.new (List.replicate 30 0))).1 = .ok 19 := by decide +kernel
example : (sampleMsg.to_wire (Render.new (List.replicate 18 0))).1 = .err := by decide +kernel

/-- a buffer that is exactly full after the question makes `to_wire` panic: the truncation has nothing to cut off and its
`unwrap` fails -/
theorem c46_violated : sampleMsg.Fits ∧ (sampleMsg.to_wire (Render.new (List.replicate 19 0))).1 = .panic :=
  ⟨sampleMsg_fits, by decide +kernel⟩

/-- the only way to panic: the first write after the question fails without having appended an octet; in particular a message
without records never panics, and neither does one where header and question do not fit. Missing: which buffers that
concerns, see `c46_violated`. -/
theorem c46_never_panics_partial (m : Response) (hm : m.Typed) (backing : List UInt8)
    (h : (m.to_wire (Render.new backing)).1 = .panic) :
    ∃ r r', r.data.take 12 = m.header.octets ∧ 12 < r.data.length ∧ r.data.length ≤ backing.length ∧
      m.body r = (.err, r') ∧ r'.data = r.data := by
  have hq : EmitsP m.question.to_wire fun _ _ out => 1 ≤ out.length :=
    EmitsP.seq (sized_name hm.question true) ((total_u16 _).seq (total_u16 _))
      fun _ _ a b _ h1 _ _ => by
        rw [List.length_append]
        have := h1.2 (by obtain ⟨ls, _, e⟩ := hm.question; rw [e]; simp [Name.ofLabels])
        omega
  have ho := to_wire_outcome m backing hq (total_body hm)
  cases ho with
  | err h1 => rw [h1] at h; simp at h
  | full q out h1 => rw [h1] at h; simp at h
  | cut q h1 => rw [h1] at h; simp at h
  | panic q r r' h1 h2 h3 h4 h5 h6 h7 =>
    refine ⟨r, r', by rw [h3, List.take_left' (Header.octets_length _)], ?_, ?_, h6, h7⟩
    · rw [h3, List.length_append, Header.octets_length]; omega
    · rw [Render.data, OutBuf.contents_length h4.buf, ← h5]; exact h4.buf

theorem c46_no_records (m : Response) (hm : m.Typed) (ha : Section.records m.answer = []) (hb : Section.records m.authority = [])
    (hc : Section.records m.additional = []) (backing : List UInt8) : (m.to_wire (Render.new backing)).1 ≠ .panic := by
  intro h
  obtain ⟨r, r', _, _, _, h6, _⟩ := c46_never_panics_partial m hm backing h
  have hs : ∀ s : Section, Section.records s = [] → ∀ r, Section.to_wire s r = (.ok (), r) := by
    intro s hs r
    match s with
    | none => rfl
    | some [] => rfl
    | some (x :: xs) =>
      exfalso
      have := congrArg List.length hs
      simp only [Section.records, List.flatMap_cons, List.length_append, records_length, List.length_nil] at this
      split at this
      · omega
      · rename_i hne
        have := List.length_pos_iff.mpr hne; omega
  unfold Response.body at h6
  rw [St.bind_ok (hs _ ha r), St.bind_ok (hs _ hb r), hs _ hc r] at h6
  simp at h6

/-! ## C47 -/

/-- after `recalculate_header` the counts are those of the records each section puts on the wire -/
theorem c47_counts (m : Response) (ha : (Section.records m.answer).length < 65536) (hb : (Section.records m.authority).length < 65536)
    (hc : (Section.records m.additional).length < 65536) :
    let h := m.recalculate_header.header
    h.qd_count = 1 ∧ h.an_count.toNat = (Section.records m.answer).length ∧ h.ns_count.toNat = (Section.records m.authority).length ∧
    h.ar_count.toNat = (Section.records m.additional).length ∧ h.id = m.header.id ∧ h.flag = m.header.flag ∧
    h.opcode = m.header.opcode ∧ h.rcode = m.header.rcode ∧
    m.recalculate_header.question = m.question ∧ ∀ t, m.recalculate_header.section_ t = m.section_ t := by
  have e : ∀ s : Section, (Section.records s).length < 65536 → (UInt16.ofNat (Section.rr_count s)).toNat = (Section.records s).length := by
    intro s hs; rw [rr_count_eq, UInt16.toNat_ofNat']; omega
  exact ⟨rfl, e _ ha, e _ hb, e _ hc, rfl, rfl, rfl, rfl, rfl, fun t => by cases t <;> rfl⟩

/-- so a message with fitting sections is well-formed once its header has been recalculated, and goes through the wire -/
theorem c47_recalculated_fits (m : Response) (hq : m.question.Fits) (h1 : SectionFits .Answer m.answer) (h2 : SectionFits .Authority m.authority)
    (h3 : SectionFits .Additional m.additional) (hf : m.header.flag &&& 0x87b0 = m.header.flag)
    (ha : (Section.records m.answer).length < 65536) (hb : (Section.records m.authority).length < 65536)
    (hc : (Section.records m.additional).length < 65536) : m.recalculate_header.Fits := by
  obtain ⟨k1, k2, k3, k4, _⟩ := c47_counts m ha hb hc
  exact ⟨hq, h1, h2, h3, hf, k1, k2, k3, k4⟩

example : sampleMsg.recalculate_header = sampleMsg := by decide +kernel
/-- with 65536 records or more the count is cut -/
example (s : Section) (h : (Section.records s).length = 65536) : UInt16.ofNat (Section.rr_count s) = 0 := by rw [rr_count_eq, h]; rfl

/-! ## C53 -/

/-- decoding `n` records as a section reads exactly the records that decoding them one by one gives, and groups the runs of
the same owner and type, in order -/
theorem c53_grouping (n : UInt16) (hn : n ≠ 0) (t : SectionType) (b b' : InBuf) (hb : b.pos ≤ b.data.length) (s : Section)
    (h : Section.from_wire n t b = (.ok s, b')) :
    ∃ recs sets, s = some sets ∧ decodeRecords n.toNat b = (.ok recs, b') ∧ Grouped recs sets := by
  obtain ⟨recs, sets, h1, h2, h3, _⟩ := section_grouped hb h hn
  exact ⟨recs, sets, h1, by rw [decodeRecords_eq]; exact h2, h3⟩

/-- without OPT records a section is accepted whenever its records are -/
theorem c53_accepts (n : UInt16) (t : SectionType) (b b' : InBuf) (hb : b.pos ≤ b.data.length) (recs : List RRset)
    (h : decodeRecords n.toNat b = (.ok recs, b')) (hno : ∀ r ∈ recs, r.typ ≠ .OPT) : ∃ s, Section.from_wire n t b = (.ok s, b') := by
  rw [decodeRecords_eq] at h
  exact section_accepts hb h hno

/-- no record is lost: the sets hold exactly as many records as the header announced -/
theorem c53_count (n : UInt16) (t : SectionType) (b b' : InBuf) (hb : b.pos ≤ b.data.length) (s : Section)
    (h : Section.from_wire n t b = (.ok s, b')) : (Section.records s).length = n.toNat ∧ Section.rr_count s = n.toNat := by
  have := (section_count hb h).1
  exact ⟨this, by rw [rr_count_eq, this]⟩

theorem emits_decodeTwo {a b : RRset} {ra rb : RData} (ha : a.Fits) (hb : b.Fits) (hra : a.rdatas = [ra]) (hrb : b.rdatas = [rb]) :
    Emits (Section.to_wire (some [a, b])) (decodeRecords 2) [a, b] := by
  have one : ∀ (x : RRset) (rx : RData), x.rdatas = [rx] → x.to_wire = (x.rr_to_wire rx >>= fun _ => pure ()) ∧ x.record rx = x := by
    intro x rx h
    refine ⟨by unfold RRset.to_wire; rw [if_neg (by simp [h]), h]; rfl, ?_⟩
    unfold RRset.record; rw [← h]
  have hw : Section.to_wire (some [a, b]) = (a.rr_to_wire ra >>= fun _ => (b.rr_to_wire rb >>= fun _ => pure ())) := by
    show (a.to_wire >>= fun _ => (b.to_wire >>= fun _ => pure ())) = _
    rw [(one a ra hra).1, (one b rb hrb).1, St.seq_assoc, St.seq_assoc]; rfl
  rw [hw]
  have h1 := ha.notEmptyRead (rd := ra) (by rw [hra]; simp)
  have h2 := hb.notEmptyRead (rd := rb) (by rw [hrb]; simp)
  rw [(one a ra hra).2] at h1
  rw [(one b rb hrb).2] at h2
  refine Emits.bind h1 ?_
  have h3 : Emits (b.rr_to_wire rb >>= fun _ => pure ()) (decodeRecords 1) [b] := Emits.bind h2 (Emits.map (Emits.pure ([] : List RRset)) fun _ => rfl)
  exact Emits.map h3 fun _ => rfl

/-- two A records of `a.`: TTL 60 and class IN, then TTL 5 and class CH -/
def recA : RRset := ⟨Name.ofLabels [[97]], .A, .IN, 60, [⟨.A, [.ip [1, 2, 3, 4]]⟩]⟩
def recB : RRset := ⟨Name.ofLabels [[97]], .A, .CH, 5, [⟨.A, [.ip [5, 6, 7, 8]]⟩]⟩
/-- an OPT pseudo-record -/
def recOpt : RRset := ⟨Name.ofLabels [], .OPT, .Unknown 512, 0, []⟩

theorem recA_fits : recA.Fits := by
  refine ⟨⟨[[97]], by decide, rfl⟩, rfl, rfl, ?_, by simp [recA]⟩
  intro rd hrd
  obtain rfl : rd = _ := List.mem_singleton.mp hrd
  exact ⟨rfl, ⟨_, rfl, rfl, trivial⟩, by unfold RData.SizeOK; decide +kernel⟩
theorem recB_fits : recB.Fits := by
  refine ⟨⟨[[97]], by decide, rfl⟩, rfl, rfl, ?_, by simp [recB]⟩
  intro rd hrd
  obtain rfl : rd = _ := List.mem_singleton.mp hrd
  exact ⟨rfl, ⟨_, rfl, rfl, trivial⟩, by unfold RData.SizeOK; decide +kernel⟩
theorem recOpt_fits : recOpt.Fits := ⟨⟨[], by decide, rfl⟩, rfl, rfl, by simp [recOpt], fun _ => rfl⟩

/-- the class and the TTL of a record are lost when the record before has the same owner and type -/
theorem c53_class_ttl_violated : ∃ (b : InBuf) (x y set : RRset) (b' : InBuf), b.pos ≤ b.data.length ∧
    decodeRecords 2 b = (.ok [x, y], b') ∧ Section.from_wire 2 .Answer b = (.ok (some [set]), b') ∧
    set.ttl ≠ y.ttl ∧ set.class_ ≠ y.class_ ∧ y.ttl = 5 ∧ y.class_ = .CH := by
  have hr : RInv (Render.new (List.replicate 64 0)) Mem.none := RInv.new _ _ fun _ => rfl
  have w1 := (emits_decodeTwo recA_fits recB_fits rfl rfl).writesBack hr
  have w2 := (emits_two (t := .Answer) recA_fits recB_fits rfl rfl ⟨rfl, [[97]], [[97]], by decide, by decide, rfl, rfl, rfl⟩ (by decide)).writesBack hr
  have hok : (Section.to_wire (some [recA, recB]) (Render.new (List.replicate 64 0))).1 = .ok () := by decide +kernel
  have r1 := w1.back hok []
  have r2 := w2.back hok []
  exact ⟨_, recA, recB, _, _, by rw [show (Render.new (List.replicate 64 0)).data = [] from rfl]; exact Nat.zero_le _, r1, r2, by decide, by decide, rfl, rfl⟩

/-! ## C54 -/

/-- header, question and sections as one writer and one reader -/
theorem emits_message {m : Response} (hq : m.question.Fits) (hf : m.header.flag &&& 0x87b0 = m.header.flag) (hqd : m.header.qd_count = 1)
    (hb : Emits m.body (readBody m.header m.question) m) :
    Emits (m.header.to_wire >>= fun _ => m.question.to_wire >>= fun _ => m.body) Response.read m := by
  have hh := Header.emits_header m.header
  rw [masked_self hf] at hh
  refine Emits.bind hh ?_
  rw [if_neg (by simp [hqd])]
  exact Emits.bind (emits_question hq.1 hq.2.1 hq.2.2) hb

/-- a message whose answer section has an OPT record behind an A record -/
def sampleOpt : Response := { sampleMsg with header := { sampleMsg.header with an_count := 2 }, answer := some [recA, recOpt] }

/-- OPT in the answer section is accepted when it is not the first record -/
theorem c54_violated : ∃ raw m, Response.from_wire raw = .ok m ∧ ∃ sets s, m.answer = some sets ∧ s ∈ sets ∧ s.typ = .OPT := by
  have hne : ¬ recA.SameOwner recOpt := fun h => by have := h.1; simp [recA, recOpt] at this
  have hb : Emits sampleOpt.body (readBody sampleOpt.header sampleOpt.question) sampleOpt := by
    have h1 : Emits (Section.to_wire (some [recA, recOpt])) (Section.from_wire 2 .Answer) (some [recA, recOpt]) := by
      refine emits_sets (s := recA) (rest := [recOpt]) ?_ ⟨hne, trivial⟩ ?_ (by simp [recA]) rfl
      · intro x hx
        simp only [List.mem_cons, List.not_mem_nil, or_false] at hx
        rcases hx with rfl | rfl
        · exact recA_fits
        · exact recOpt_fits
      · intro x hx _
        simp only [List.mem_cons, List.not_mem_nil, or_false] at hx
        rcases hx with rfl | rfl <;> simp [recA, recOpt]
    exact Emits.bind h1 (Emits.bind (emits_section (t := .Authority) (s := none) trivial rfl)
      (Emits.map (emits_section (t := .Additional) (s := none) trivial rfl) fun _ => rfl))
  have hr : RInv (Render.new (List.replicate 64 0)) Mem.none := RInv.new _ _ fun _ => rfl
  have w := (emits_message (m := sampleOpt) sampleMsg_fits.question rfl rfl hb).writesBack hr
  have hok : ((sampleOpt.header.to_wire >>= fun _ => sampleOpt.question.to_wire >>= fun _ => sampleOpt.body) (Render.new (List.replicate 64 0))).1 = .ok () := by
    decide +kernel
  have r1 := w.back hok []
  refine ⟨_, sampleOpt, congrArg Prod.fst r1, [recA, recOpt], recOpt, rfl, by simp, rfl⟩

/-- rejected: OPT as the first record of the answer or authority section, and in any section two records with the owner and type
OPT one after the other. Missing: OPT further back in answer or authority, see `c54_violated`. -/
theorem c54_first_partial (n : UInt16) (hn : n ≠ 0) (t : SectionType) (ht : t ≠ .Additional) (b b' : InBuf) (hb : b.pos ≤ b.data.length)
    (first : RRset) (rest : List RRset) (h : decodeRecords n.toNat b = (.ok (first :: rest), b')) (ho : first.typ = .OPT) (s : Section) :
    (Section.from_wire n t b).1 ≠ .ok s := by
  intro hs
  have : Section.from_wire n t b = (.ok s, (Section.from_wire n t b).2) := by rw [← hs]
  obtain ⟨recs, sets, h1, h2, h3, f, h4, h5⟩ := section_grouped hb this hn
  rw [decodeRecords_eq, h2] at h
  obtain ⟨rfl, _⟩ : recs = first :: rest ∧ _ := by simpa using h
  obtain rfl : first = f := by simpa using h4
  exact ht (h5 ho)

theorem c54_opt_single (n : UInt16) (t : SectionType) (b b' : InBuf) (hb : b.pos ≤ b.data.length) (sets : List RRset)
    (h : Section.from_wire n t b = (.ok (some sets), b')) : ∀ s ∈ sets, s.typ = .OPT → s.rdatas.length ≤ 1 :=
  (section_count hb h).2 sets rfl

/-! ## C55 -/

theorem u32_and_or (a b c : UInt32) : (a ||| b) &&& c = (a &&& c) ||| (b &&& c) := by
  apply UInt32.toNat_inj.mp
  simp only [UInt32.toNat_and, UInt32.toNat_or, Nat.and_or_distrib_right]

theorem u32_shr_or (a b c : UInt32) : (a ||| b) >>> c = (a >>> c) ||| (b >>> c) := by
  apply UInt32.toNat_inj.mp
  simp only [UInt32.toNat_shiftRight, UInt32.toNat_or, Nat.shiftRight_or_distrib]

theorem edns_flags (e : Edns) : ((e.flags &&& 0x00ff0000) >>> 16).toUInt8 = e.version ∧ (e.flags >>> 24).toUInt8 = e.extened_rcode ∧
    decide (e.flags &&& 0x00008000 ≠ 0) = e.dnssec_aware := by
  obtain ⟨v, x, u, d, o⟩ := e
  have x1 : ∀ x : UInt8, (x.toUInt32 <<< 24) &&& 0x00ff0000 = 0 := by apply forall_u8'; decide +kernel
  have x2 : ∀ x : UInt8, ((x.toUInt32 <<< 24) >>> 24) = x.toUInt32 := by apply forall_u8'; decide +kernel
  have x3 : ∀ x : UInt8, (x.toUInt32 <<< 24) &&& 0x00008000 = 0 := by apply forall_u8'; decide +kernel
  have v1 : ∀ v : UInt8, ((v.toUInt32 <<< 16) &&& 0x00ff0000 &&& 0x00ff0000) >>> 16 = v.toUInt32 := by apply forall_u8'; decide +kernel
  have v2 : ∀ v : UInt8, ((v.toUInt32 <<< 16) &&& 0x00ff0000) >>> 24 = 0 := by apply forall_u8'; decide +kernel
  have v3 : ∀ v : UInt8, (v.toUInt32 <<< 16) &&& 0x00ff0000 &&& 0x00008000 = 0 := by apply forall_u8'; decide +kernel
  have t : ∀ v : UInt8, v.toUInt32.toUInt8 = v := by apply forall_u8'; decide +kernel
  have c1 : (0x00008000 : UInt32) &&& 0x00ff0000 = 0 := by decide
  have c2 : (0x00008000 : UInt32) >>> 24 = 0 := by decide
  have z1 : ∀ a : UInt32, a ||| 0 = a := fun a => by apply UInt32.toNat_inj.mp; simp
  have z2 : ∀ a : UInt32, 0 ||| a = a := fun a => by apply UInt32.toNat_inj.mp; simp
  have z3 : (0 : UInt32) >>> 16 = 0 := by decide
  cases d
  · simp only [Edns.flags, Edns.EXTRCODE_SHIFT, Edns.VERSION_SHIFT, Edns.VERSION_MASK, Bool.false_eq_true, if_false]
    refine ⟨?_, ?_, ?_⟩
    · rw [u32_and_or, u32_shr_or, x1, v1, z3, z2, t]
    · rw [u32_shr_or, x2, v2, z1, t]
    · rw [u32_and_or, x3, v3, z1]; decide
  · simp only [Edns.flags, Edns.EXTRCODE_SHIFT, Edns.VERSION_SHIFT, Edns.VERSION_MASK, Edns.EXTFLAG_DO, if_true]
    refine ⟨?_, ?_, ?_⟩
    · rw [u32_and_or, u32_shr_or, u32_and_or, u32_shr_or, x1, v1, c1, z3, z2, z1, t]
    · rw [u32_shr_or, u32_shr_or, x2, v2, c2, z1, z1, t]
    · rw [u32_and_or, u32_and_or, x3, v3]; decide

/-- to the pseudo-record and back -/
theorem c55_record (e : Edns) : e.to_rrset.typ = .OPT ∧ e.to_rrset.rdatas = [] ∧ e.to_rrset.name = Name.root ∧
    Edns.from_rrset e.to_rrset = .ok { e with options := none } := by
  obtain ⟨h1, h2, h3⟩ := edns_flags e
  refine ⟨rfl, rfl, rfl, ?_⟩
  show Res.ok (Edns.mk ((e.flags &&& 0x00ff0000) >>> 16).toUInt8 (e.flags >>> 24).toUInt8 (RRClass.new e.udp_size).to_u16
    (decide (e.flags &&& 0x00008000 ≠ 0)) none) = _
  rw [h1, h2, h3, RRClass.to_u16_new]

/-- as read from a message it counts as one record, which is what it takes up in one -/
theorem c55_count (e e' : Edns) (h : Edns.from_rrset e.to_rrset = .ok e') : e'.rr_count = 1 ∧ Section.rr_count (some [e.to_rrset]) = e'.rr_count := by
  rw [(c55_record e).2.2.2] at h
  cases h
  exact ⟨rfl, rfl⟩

/-- with options it counts these, though it takes up one record all the same: the count is right just for no options at all and for one -/
theorem c55_count_exact (e : Edns) : e.rr_count = (Section.records (some [e.to_rrset])).length ↔ e.options = none ∨ e.options = some 1 := by
  have h : (Section.records (some [e.to_rrset])).length = 1 := rfl
  rw [h]
  unfold Edns.rr_count
  cases e.options with
  | none => simp
  | some n => simp

/-- any OPT record: only the 15 unassigned flag bits are dropped -/
theorem c55_from_record (s : RRset) (h : s.typ = .OPT) : ∃ e, Edns.from_rrset s = .ok e ∧ e.udp_size = s.class_.to_u16 ∧
    e.extened_rcode.toNat = s.ttl.toNat / 16777216 ∧ e.version.toNat = s.ttl.toNat / 65536 % 256 ∧
    (e.dnssec_aware = true ↔ s.ttl.toNat / 32768 % 2 = 1) := by
  refine ⟨_, by unfold Edns.from_rrset; rw [assertR, if_pos h]; rfl, rfl, ?_, ?_, ?_⟩
  · show ((s.ttl >>> 24).toUInt8).toNat = _
    have := s.ttl.toNat_lt
    simp [Nat.shiftRight_eq_div_pow]; omega
  · show (((s.ttl &&& 0x00ff0000) >>> 16).toUInt8).toNat = _
    rw [u32_b2, toNat_ofNat8 (by omega)]
  · show decide (s.ttl &&& 0x00008000 ≠ 0) = true ↔ _
    rw [decide_eq_true_eq, ne_eq, ← UInt32.toNat_inj, UInt32.toNat_and]
    have : (0x00008000 : UInt32).toNat = 2 ^ 15 := rfl
    rw [this]
    have hz : s.ttl.toNat &&& 2 ^ 15 = 0 ↔ s.ttl.toNat.testBit 15 = false := by
      constructor
      · intro h
        have := congrArg (fun x => x.testBit 15) h
        simp only [Nat.testBit_and, Nat.testBit_two_pow_self, Bool.and_true, Nat.zero_testBit] at this
        exact this
      · intro h
        apply Nat.eq_of_testBit_eq
        intro i
        rw [Nat.testBit_and, Nat.testBit_two_pow, Nat.zero_testBit]
        by_cases hi : 15 = i
        · subst hi; simp [h]
        · simp [hi]
    show ¬ (s.ttl.toNat &&& 2 ^ 15 = 0) ↔ _
    rw [hz, Nat.testBit_eq_decide_div_mod_eq]
    simp

theorem write_root (r : Render) (hb : r.buffer.Inv) : Render.write_name Name.root true r = Render.write_u8 0 r := by
  unfold Render.write_name
  have h1 : Render.scanLoop Name.root true Name.root.label_count 0 0 r = (.ok (1, NO_OFFSET), r) := rfl
  rw [St.bind_ok h1]
  simp only
  rw [St.get_bind]
  have h2 : Render.emitName Name.root true 1 NO_OFFSET r = Render.write_u8 0 r := by
    unfold Render.emitName
    have e1 : Render.emitLabels Name.root true 1 = Render.onBuffer (OutBuf.write_bytes [0]) := rfl
    have e2 : Render.emitPointer true NO_OFFSET = pure () := rfl
    rw [e1, e2]
    have w1 := Render.write_bytes_r [0] r
    have w2 := Render.write_u8_r 0 r
    rw [Render.write_u8, w2]
    by_cases hf : r.buffer.len + [(0 : UInt8)].length ≤ r.buffer.capacity
    · rw [if_pos hf] at w1 ⊢; rw [St.bind_ok w1]; rfl
    · rw [if_neg hf] at w1 ⊢; rw [St.bind_err w1]
  have w2 := Render.write_u8_r 0 r
  by_cases hf : r.buffer.len + [(0 : UInt8)].length ≤ r.buffer.capacity
  · rw [if_pos hf] at w2
    rw [← Render.write_u8] at w2
    rw [w2] at h2 ⊢
    rw [St.bind_ok h2]
    show Render.registerLoop 1 0 r.buffer.len _ _ = _
    unfold Render.registerLoop
    rw [St.get_bind]
    have hcap : r.buffer.data.length = r.buffer.capacity := rfl
    have hat : (r.buffer.append [0]).at_ r.buffer.len = .ok 0 := by
      unfold OutBuf.at_
      rw [if_pos (by rw [OutBuf.append_len]; simp)]
      unfold idx
      simp only [OutBuf.append]
      rw [overwrite_getElem? (by simp at hf ⊢; omega), if_pos (by simp)]
      simp
    rw [St.lift_ok_bind hat, if_pos rfl]; rfl
  · rw [if_neg hf] at w2
    rw [← Render.write_u8] at w2
    rw [w2] at h2 ⊢
    rw [St.bind_err h2]

/-- writing it directly and writing its record do the same to every renderer -/
theorem c55_wire {backing : List UInt8} {h : Hist} (hr : Reached backing h) (e : Edns) :
    e.to_wire h.r = e.to_rrset.to_wire h.r := by
  obtain ⟨g, hi, _⟩ := hr.hinv.inv
  have e1 : e.to_rrset.to_wire = (Render.write_name Name.root true >>= fun _ => (RRType.OPT.to_wire >>= fun _ => ((RRClass.Unknown e.udp_size).to_wire >>=
      fun _ => (Render.write_u32 e.flags >>= fun _ => Render.write_u16 0)))) := by
    have : (RRClass.new e.udp_size).to_wire = (RRClass.Unknown e.udp_size).to_wire := by
      unfold RRClass.to_wire; rw [RRClass.to_u16_new]; rfl
    rw [← this]; rfl
  rw [e1, St.bind_apply, write_root h.r hi.buf, ← St.bind_apply]
  rfl

/-- an EDNS value that uses every field -/
example : Edns.from_rrset (Edns.mk 1 7 4096 true none).to_rrset = .ok (Edns.mk 1 7 4096 true none) ∧
    (Edns.mk 1 7 4096 true none).to_rrset.ttl = 0x07018000 := by decide +kernel

/-! ## C56 -/

/-- header and question of a request -/
theorem emits_request {q : Request} (hq : q.question.Fits) (hf : q.header.flag &&& 0x87b0 = q.header.flag) (h1 : q.header.qd_count = 1)
    (h2 : q.header.an_count = 0) : Emits (q.header.to_wire >>= fun _ => q.question.to_wire) Request.read q := by
  have hh := Header.emits_header q.header
  rw [masked_self hf] at hh
  refine Emits.bind hh ?_
  rw [if_pos h1]
  refine Emits.map (emits_question hq.1 hq.2.1 hq.2.2) fun b => ?_
  rw [if_neg (by simp [h2]), if_neg (by simp [h2])]; rfl

theorem len_last (w : St Render Unit) (r : Render) :
    (w >>= fun _ => (do let r ← St.get; pure r.len : St Render Nat)) r = match w r with
      | (.ok _, r') => (.ok r'.len, r')
      | (.err, r') => (.err, r')
      | (.panic, r') => (.panic, r') := by
  rw [St.bind_apply]
  rcases w r with ⟨x | _ | _, r'⟩ <;> rfl

theorem request_to_wire (q : Request) : q.to_wire = ((q.header.to_wire >>= fun _ => q.question.to_wire) >>= fun _ => (do let r ← St.get; pure r.len : St Render Nat)) := by
  funext r
  unfold Request.to_wire
  simp only [St.bind_apply]
  rcases q.header.to_wire r with ⟨x | _ | _, r'⟩ <;> rfl

/-- a request goes through the wire: `to_wire` never panics, and if it succeeds its octets decode to the same request -/
theorem c56_roundtrip (q : Request) (hq : q.question.Fits) (hf : q.header.flag &&& 0x87b0 = q.header.flag) (h1 : q.header.qd_count = 1)
    (h2 : q.header.an_count = 0) (backing : List UInt8) :
    (q.to_wire (Render.new backing)).1 = .err ∨ ∃ n r, q.to_wire (Render.new backing) = (.ok n, r) ∧ n = r.data.length ∧ n ≤ backing.length ∧
      ∀ tail, Request.from_wire (r.data ++ tail) = .ok q := by
  have hr : RInv (Render.new backing) Mem.none := RInv.new _ _ fun _ => rfl
  have hd0 : (Render.new backing).data = [] := by simp [Render.data, OutBuf.contents, Render.new, OutBuf.new]
  have hc : (Render.new backing).buffer.capacity = backing.length := by simp [Render.new, OutBuf.new, OutBuf.capacity]
  have he := emits_request hq hf h1 h2
  have w := he.writesBack hr
  rw [request_to_wire, len_last]
  rcases he _ _ hr with ⟨r', out, e1, e2, e3⟩ | ⟨r', e1, e2⟩
  · have wb := w.back (by rw [e1])
    have wc := w.capacity
    rw [e1] at wb wc
    simp only [hd0, List.length_nil] at wb wc
    rw [hc] at wc
    have hl : r'.len = r'.data.length := (OutBuf.contents_length e2.inv.buf).symm
    refine Or.inr ⟨r'.len, r', by rw [e1], hl, by omega, fun tail => ?_⟩
    exact congrArg Prod.fst (wb tail)
  · left; rw [e1]

/-- what the constructor makes fits -/
theorem c56_new (id : UInt16) (ls : List Label) (hv : ValidName ls) (t : RRType) (ht : RRType.new t.as_u16 = t) :
    let q := Request.new id (Name.ofLabels ls) t
    q.question.Fits ∧ q.header.flag &&& 0x87b0 = q.header.flag ∧ q.header.qd_count = 1 ∧ q.header.an_count = 0 ∧ q.header.id = id ∧
    q.header.opcode = .Query ∧ q.header.setted_flags = [.RecursionDesired] := by
  refine ⟨⟨⟨ls, hv, rfl⟩, ht, rfl⟩, ?_, rfl, rfl, rfl, rfl, ?_⟩
  · show HeaderFlag.set_flag 0 .RecursionDesired &&& 0x87b0 = HeaderFlag.set_flag 0 .RecursionDesired
    decide
  show HeaderFlag.setted_flags (HeaderFlag.set_flag 0 .RecursionDesired) = _
  decide

/-- accepted requests have one question and no answer. Missing: nothing is checked about the authority count, see
`c56_authority_violated`. -/
theorem c56_checks_partial (raw : List UInt8) (q : Request) (h : Request.from_wire raw = .ok q) :
    q.header.qd_count = 1 ∧ q.header.an_count = 0 ∧ q.question.Fits := by
  rcases safe_request (InBuf.new raw) (Nat.zero_le _) with ⟨m, e, h1, h2, h3, h4, h5, h6, h7, h8⟩ | ⟨b', h1, h2⟩
  · rw [Request.from_wire, h1] at h
    obtain rfl : m = q := by simpa using h
    exact ⟨h7, h8, h6⟩
  · rw [Request.from_wire, h1] at h; simp at h

/-- the octets of a request with an authority record announced are accepted -/
theorem c56_authority_violated : ∃ raw q, Request.from_wire raw = .ok q ∧ q.header.ns_count = 1 := by
  have := c56_roundtrip ⟨⟨1, 0, .Query, .NoError, 1, 0, 1, 0⟩, ⟨Name.ofLabels [[97]], .A, .IN⟩⟩ ⟨⟨[[97]], by decide, rfl⟩, rfl, rfl⟩ rfl rfl rfl (List.replicate 32 0)
  rcases this with h | ⟨n, r, _, _, _, h⟩
  · exact absurd h (by decide +kernel)
  · exact ⟨_, _, h [], rfl⟩

/-! ## C57 -/

/-- how a NOTIFY request is read: header, question, then `NotifyRequest::from_wire` -/
def readNotify : St InBuf NotifyRequest := do
  let h ← Header.from_wire
  let q ← Question.from_wire
  NotifyRequest.from_wire h q

theorem c57_new (id : UInt16) (zone : Name) (soa : Option RRset) :
    let q := NotifyRequest.new id zone soa
    q.header.id = id ∧ q.header.opcode = .Notify ∧ q.header.setted_flags = [.AuthAnswer] ∧ q.header.qd_count = 1 ∧
    (q.header.an_count = if soa.isSome then 1 else 0) ∧ q.header.ns_count = 0 ∧ q.header.ar_count = 0 ∧
    q.question = ⟨zone, .SOA, .IN⟩ ∧ q.soa = soa := by
  cases soa <;> refine ⟨rfl, rfl, ?_, rfl, rfl, rfl, rfl, rfl, rfl⟩ <;> (show HeaderFlag.setted_flags (HeaderFlag.set_flag 0 .AuthAnswer) = _; decide)

theorem notify_new_flag (id : UInt16) (zone : Name) (soa : Option RRset) :
    (NotifyRequest.new id zone soa).header.flag &&& 0x87b0 = (NotifyRequest.new id zone soa).header.flag := by
  cases soa <;>
    (show HeaderFlag.set_flag 0 .AuthAnswer &&& 0x87b0 = HeaderFlag.set_flag 0 .AuthAnswer; decide)

/-- the SOA part of a NOTIFY request -/
def soaWire (soa : Option RRset) : St Render Unit :=
  match soa with
  | none => pure ()
  | some s => s.to_wire

/-- everything a NOTIFY request writes -/
theorem notify_to_wire (q : NotifyRequest) : q.to_wire = ((q.header.to_wire >>= fun _ => (q.question.to_wire >>= fun _ =>
    soaWire q.soa)) >>= fun _ => (do let r ← St.get; pure r.len : St Render Nat)) := by
  funext r
  unfold NotifyRequest.to_wire
  match q.soa with
  | none =>
    simp only [St.bind_apply]
    rcases q.header.to_wire r with ⟨x | _ | _, r'⟩
    · simp only; rcases q.question.to_wire r' with ⟨x | _ | _, r''⟩ <;> rfl
    · rfl
    · rfl
  | some s =>
    simp only [St.bind_apply]
    rcases q.header.to_wire r with ⟨x | _ | _, r'⟩
    · simp only; rcases q.question.to_wire r' with ⟨x | _ | _, r''⟩ <;> rfl
    · rfl
    · rfl

/-- a SOA set as a NOTIFY carries it: one record -/
def SoaFits (soa : Option RRset) : Prop := ∀ s, soa = some s → s.Fits ∧ s.typ = .SOA ∧ s.rdatas.length = 1

theorem emits_notify (id : UInt16) (ls : List Label) (hv : ValidName ls) (soa : Option RRset) (hs : SoaFits soa) :
    Emits ((NotifyRequest.new id (Name.ofLabels ls) soa).header.to_wire >>= fun _ => ((NotifyRequest.new id (Name.ofLabels ls) soa).question.to_wire >>= fun _ =>
      soaWire soa)) readNotify (NotifyRequest.new id (Name.ofLabels ls) soa) := by
  have hq : Emits (NotifyRequest.new id (Name.ofLabels ls) soa).question.to_wire Question.from_wire (NotifyRequest.new id (Name.ofLabels ls) soa).question :=
    emits_question ⟨ls, hv, rfl⟩ rfl rfl
  have hh := Header.emits_header (NotifyRequest.new id (Name.ofLabels ls) soa).header
  rw [masked_self (notify_new_flag _ _ _)] at hh
  refine Emits.bind hh (Emits.bind hq ?_)
  match soa, hs with
  | none, _ => exact Emits.pure _
  | some s, hs =>
    obtain ⟨h1, h2, h3⟩ := hs s rfl
    obtain ⟨rd, hrd⟩ := List.length_eq_one_iff.mp h3
    have hw : s.to_wire = (s.rr_to_wire rd >>= fun _ => pure ()) := by unfold RRset.to_wire; rw [if_neg (by simp [hrd]), hrd]; rfl
    have hrec : s.record rd = s := by unfold RRset.record; rw [← hrd]
    have he := h1.notEmptyRead (rd := rd) (by rw [hrd]; simp)
    rw [hrec] at he
    show Emits s.to_wire (NotifyRequest.from_wire _ _) _
    rw [hw]
    unfold NotifyRequest.from_wire
    rw [if_pos (show (NotifyRequest.new id (Name.ofLabels ls) (some s)).header.an_count = 1 from rfl)]
    refine Emits.bind he ?_
    rw [if_neg (by simp [h2])]
    exact Emits.pure _

/-- a NOTIFY request goes through the wire -/
theorem c57_request_roundtrip (id : UInt16) (ls : List Label) (hv : ValidName ls) (soa : Option RRset) (hs : SoaFits soa) (backing : List UInt8) :
    let q := NotifyRequest.new id (Name.ofLabels ls) soa
    (q.to_wire (Render.new backing)).1 = .err ∨ ∃ n r, q.to_wire (Render.new backing) = (.ok n, r) ∧ n = r.data.length ∧ n ≤ backing.length ∧
      ∀ tail, (readNotify (InBuf.new (r.data ++ tail))).1 = .ok q := by
  intro q
  have hr : RInv (Render.new backing) Mem.none := RInv.new _ _ fun _ => rfl
  have hd0 : (Render.new backing).data = [] := by simp [Render.data, OutBuf.contents, Render.new, OutBuf.new]
  have hc : (Render.new backing).buffer.capacity = backing.length := by simp [Render.new, OutBuf.new, OutBuf.capacity]
  have he := emits_notify id ls hv soa hs
  have w := he.writesBack hr
  rw [notify_to_wire, len_last]
  have hsoa : q.soa = soa := rfl
  rw [hsoa]
  rcases he _ _ hr with ⟨r', out, e1, e2, e3⟩ | ⟨r', e1, e2⟩
  · have wb := w.back (by rw [e1])
    have wc := w.capacity
    rw [e1] at wb wc
    simp only [hd0, List.length_nil] at wb wc
    rw [hc] at wc
    have hl : r'.len = r'.data.length := (OutBuf.contents_length e2.inv.buf).symm
    refine Or.inr ⟨r'.len, r', by rw [e1], hl, by omega, fun tail => ?_⟩
    exact congrArg Prod.fst (wb tail)
  · left; rw [e1]

/-- the response repeats question and header with QR set -/
theorem c57_response_new (q : NotifyRequest) : (NotifyResponse.new q).question = q.question ∧
    (NotifyResponse.new q).header.opcode = q.header.opcode ∧ (NotifyResponse.new q).header.id = q.header.id ∧
    (NotifyResponse.new q).header.qd_count = q.header.qd_count ∧ (NotifyResponse.new q).header.an_count = q.header.an_count ∧
    ∀ f, (NotifyResponse.new q).header.is_flag_set f = (decide (f = .QueryRespone) || q.header.is_flag_set f) := by
  refine ⟨rfl, rfl, rfl, rfl, rfl, fun f => ?_⟩
  have := (c35_set_flag q.header .QueryRespone true).1 f
  show (q.header.set_flag .QueryRespone true).is_flag_set f = _
  rw [this]
  by_cases h : f = .QueryRespone <;> simp [h]

/-- header and question of a response -/
def readNotifyResponse : St InBuf NotifyResponse := do
  let h ← Header.from_wire
  let q ← Question.from_wire
  NotifyResponse.from_wire h q

theorem notify_flag (q : NotifyRequest) (hf : q.header.flag &&& 0x87b0 = q.header.flag) :
    (NotifyResponse.new q).header.flag &&& 0x87b0 = (NotifyResponse.new q).header.flag := by
  show (q.header.flag ||| _) &&& 0x87b0 = (q.header.flag ||| _)
  rw [u16_and_or, hf]; rfl

theorem notifyResponse_to_wire (q : NotifyResponse) : q.to_wire = ((q.header.to_wire >>= fun _ => q.question.to_wire) >>= fun _ => (do let r ← St.get; pure r.len : St Render Nat)) := by
  funext r
  unfold NotifyResponse.to_wire
  simp only [St.bind_apply]
  rcases q.header.to_wire r with ⟨x | _ | _, r'⟩ <;> rfl

/-- the response goes through the wire -/
theorem c57_response_roundtrip (id : UInt16) (ls : List Label) (hv : ValidName ls) (soa : Option RRset) (backing : List UInt8) :
    let q := NotifyResponse.new (NotifyRequest.new id (Name.ofLabels ls) soa)
    (q.to_wire (Render.new backing)).1 = .err ∨ ∃ n r, q.to_wire (Render.new backing) = (.ok n, r) ∧ n = r.data.length ∧ n ≤ backing.length ∧
      ∀ tail, (readNotifyResponse (InBuf.new (r.data ++ tail))).1 = .ok q := by
  intro q
  have hr : RInv (Render.new backing) Mem.none := RInv.new _ _ fun _ => rfl
  have hd0 : (Render.new backing).data = [] := by simp [Render.data, OutBuf.contents, Render.new, OutBuf.new]
  have hc : (Render.new backing).buffer.capacity = backing.length := by simp [Render.new, OutBuf.new, OutBuf.capacity]
  have he : Emits (q.header.to_wire >>= fun _ => q.question.to_wire) readNotifyResponse q := by
    have hh := Header.emits_header q.header
    rw [masked_self (notify_flag _ (notify_new_flag _ _ _))] at hh
    exact Emits.bind hh (Emits.map (emits_question (q := q.question) ⟨ls, hv, rfl⟩ rfl rfl) fun b => rfl)
  have w := he.writesBack hr
  rw [notifyResponse_to_wire, len_last]
  rcases he _ _ hr with ⟨r', out, e1, e2, e3⟩ | ⟨r', e1, e2⟩
  · have wb := w.back (by rw [e1])
    have wc := w.capacity
    rw [e1] at wb wc
    simp only [hd0, List.length_nil] at wb wc
    rw [hc] at wc
    have hl : r'.len = r'.data.length := (OutBuf.contents_length e2.inv.buf).symm
    refine Or.inr ⟨r'.len, r', by rw [e1], hl, by omega, fun tail => ?_⟩
    exact congrArg Prod.fst (wb tail)
  · left; rw [e1]

/-- but for a request with SOA it is not a well-formed message: it announces one answer and carries none, so
`Response::from_wire` rejects it -/
theorem c57_response_violated (id : UInt16) (ls : List Label) (hv : ValidName ls) (soa : RRset) (backing : List UInt8) (n : Nat) (r : Render)
    (h : (NotifyResponse.new (NotifyRequest.new id (Name.ofLabels ls) (some soa))).to_wire (Render.new backing) = (.ok n, r)) :
    Response.from_wire r.data = .err := by
  have hr : RInv (Render.new backing) Mem.none := RInv.new _ _ fun _ => rfl
  generalize hq : NotifyResponse.new (NotifyRequest.new id (Name.ofLabels ls) (some soa)) = q at h
  have hd0 : (Render.new backing).data = [] := by simp [Render.data, OutBuf.contents, Render.new, OutBuf.new]
  have he : Emits (q.header.to_wire >>= fun _ => q.question.to_wire) (do
      let header ← Header.from_wire
      if header.qd_count ≠ 1 then St.fail
      else do
        let question ← Question.from_wire
        pure (header, question)) (q.header, q.question) := by
    have hh := Header.emits_header q.header
    rw [masked_self (by rw [← hq]; exact notify_flag _ (notify_new_flag _ _ _))] at hh
    refine Emits.bind hh ?_
    rw [if_neg (by rw [← hq]; simp [NotifyResponse.new, NotifyRequest.new, Header.set_flag])]
    exact Emits.map (emits_question ⟨ls, hv, by rw [← hq]; rfl⟩ (by rw [← hq]; rfl) (by rw [← hq]; rfl)) fun b => rfl
  have w := he.writesBack hr
  rw [notifyResponse_to_wire, len_last] at h
  rcases he _ _ hr with ⟨r', out, e1, e2, e3⟩ | ⟨r', e1, e2⟩
  · have wb := w.back (by rw [e1]) []
    rw [e1] at wb h
    simp only [Prod.mk.injEq] at h
    obtain ⟨_, rfl⟩ := h
    simp only [hd0, List.length_nil, List.append_nil] at wb
    -- run the decoder
    obtain ⟨hd, b1, k1, k2⟩ := St.bind_ok_inv wb
    by_cases hqd : hd.qd_count ≠ 1
    · rw [if_pos hqd] at k2; simp [St.fail] at k2
    · rw [if_neg hqd] at k2
      obtain ⟨qq, b2, k3, k4⟩ := St.bind_ok_inv k2
      have k4' : (Res.ok (hd, qq), b2) = (Res.ok (q.header, q.question), (⟨r'.data, r'.data.length⟩ : InBuf)) := k4
      simp only [Prod.mk.injEq, Res.ok.injEq] at k4'
      obtain ⟨⟨rfl, rfl⟩, rfl⟩ := k4'
      unfold Response.from_wire Response.read
      rw [St.bind_ok (show Header.from_wire (InBuf.new r'.data) = _ from k1), if_neg hqd, St.bind_ok k3]
      have han : q.header.an_count = 1 := by rw [← hq]; rfl
      rw [han]
      rcases c43_section_total 1 .Answer ⟨r'.data, r'.data.length⟩ (Nat.le_refl _) with ⟨s, e, s1, s2, s3⟩ | ⟨p, s1⟩
      · simp at s2 s3; omega
      · rw [St.bind_err s1]
  · rw [e1] at h; simp at h

/-- a SOA record for the samples -/
def sampleSoa : RRset := ⟨Name.ofLabels [[97]], .SOA, .IN, 60, [⟨.SOA, [.name (Name.ofLabels [[97]]), .name (Name.ofLabels [[98]]), .u32 1, .u32 2, .u32 3, .u32 4, .u32 5]⟩]⟩

example : SoaFits (some sampleSoa) := by
  rintro s hs
  obtain rfl : sampleSoa = s := by simpa using hs
  refine ⟨⟨⟨[[97]], by decide, rfl⟩, rfl, rfl, ?_, by simp [sampleSoa]⟩, rfl, rfl⟩
  intro rd hrd
  obtain rfl : rd = _ := List.mem_singleton.mp hrd
  exact ⟨rfl, ⟨_, rfl, ⟨[[97]], by decide, rfl⟩, ⟨[[98]], by decide, rfl⟩, trivial, trivial, trivial, trivial, trivial, trivial⟩,
    by unfold RData.SizeOK; decide +kernel⟩

example : ((NotifyRequest.new 7 (Name.ofLabels [[97]]) (some sampleSoa)).to_wire (Render.new (List.replicate 128 0))).1 = .ok 56 := by decide +kernel
example : ((NotifyResponse.new (NotifyRequest.new 7 (Name.ofLabels [[97]]) (some sampleSoa))).to_wire (Render.new (List.replicate 64 0))).1 = .ok 19 := by
  decide +kernel

end R53
