import Verif.Props.Exchange
/-!
# C102: NOTIFY messages, read by the decoder for responses
-/
namespace R53
open Name (ofLabels)

/-- a response is one record or set, or none, behind header and question -/
theorem section_soa {s : RRset} {msg : List UInt8} {p e : Nat} (h : RecordAt s msg p e) (ht : s.typ = .SOA) : SectionAt .Answer 1 (some [s]) msg p e := by
  refine Or.inr ⟨s, [], [s], rfl, ⟨e, h, rfl⟩, ⟨⟨[[s]], rfl, .cons ⟨s, [], rfl, by simp, by simp⟩ .nil⟩, trivial⟩, rfl, ?_, trivial⟩
  intro h; rw [ht] at h; cases h

theorem section_nothing (t : SectionType) (msg : List UInt8) (p : Nat) : SectionAt t (0 : UInt16).toNat none msg p p := Or.inl ⟨rfl, rfl, rfl⟩

/-- A NOTIFY for any zone, with or without its SOA record, in any buffer: it is written or refused; what is written is read by the decoder for responses,
whatever comes behind it, as a message with that header and question whose only record is the SOA -/
theorem c102_request (id : UInt16) (ls : List Label) (hv : ValidName ls) (soa : Option RRset) (hs : SoaFits soa) (backing : List UInt8) :
    let q := NotifyRequest.new id (ofLabels ls) soa
    (q.to_wire (Render.new backing)).1 = .err ∨ ∃ n r, q.to_wire (Render.new backing) = (.ok n, r) ∧ n = r.data.length ∧ n ≤ backing.length ∧
      ∀ tail, Response.from_wire (r.data ++ tail) = .ok ⟨q.header, ⟨ofLabels ls, .SOA, .IN⟩, soa.map fun s => [s], none, none⟩ := by
  intro q
  rcases c57_request_roundtrip id ls hv soa hs backing with h | ⟨n, r, h1, h2, h3, h4⟩
  · exact Or.inl h
  refine Or.inr ⟨n, r, h1, h2, h3, fun tail => ?_⟩
  rw [from_wire_iff]
  obtain ⟨e, a1, a2, a3⟩ := (c57_reads _ _).mp (h4 tail)
  cases soa with
  | none => exact ⟨e, e, e, e, a1, rfl, a2, section_nothing _ _ _, section_nothing _ _ _, section_nothing _ _ _⟩
  | some s =>
    rcases a3 with ⟨a3, _⟩ | ⟨_, s', e', a4, a5, a6⟩
    · exact absurd rfl a3
    · obtain rfl : s = s' := by simpa [NotifyRequest.new] using a4
      exact ⟨e, e', e', e', a1, rfl, a2, section_soa a5 a6, section_nothing _ _ _, section_nothing _ _ _⟩

/-- what a reply to a NOTIFY is when read: its header, and its question right up to the end -/
theorem reply_reads (id : UInt16) (ls : List Label) (hv : ValidName ls) (soa : Option RRset) (backing : List UInt8) (hb : 16 + (nameWire ls).length ≤ backing.length) :
    ∃ r, (NotifyResponse.new (NotifyRequest.new id (ofLabels ls) soa)).to_wire (Render.new backing) = (.ok (16 + (nameWire ls).length), r) ∧
      r.data.length = 16 + (nameWire ls).length ∧
      ∀ tail, HeaderAt (NotifyResponse.new (NotifyRequest.new id (ofLabels ls) soa)).header (r.data ++ tail) 0 12 ∧ QuestionAt ⟨ofLabels ls, .SOA, .IN⟩ (r.data ++ tail) 12 r.data.length := by
  obtain ⟨r, a1, a2⟩ := (c57_response_exact (NotifyResponse.new (NotifyRequest.new id (ofLabels ls) soa)) ls hv rfl backing).1 hb
  have hl : r.data.length = 16 + (nameWire ls).length := by rw [a2, askOctets_length]
  refine ⟨r, a1, hl, fun tail => ?_⟩
  rcases c57_response_roundtrip id ls hv soa backing with h | ⟨n, r', b1, _, _, b2⟩
  · rw [a1] at h; cases h
  rw [a1] at b1
  obtain rfl : r = r' := (Prod.mk.inj b1).2
  have hex : Exact readNotifyResponse fun q msg p e => ∃ p0, HeaderAt q.header msg p p0 ∧ QuestionAt q.question msg p0 e := by
    unfold readNotifyResponse NotifyResponse.from_wire
    refine (exact_header.bind fun h => exact_question.bind fun x => Exact.pure (⟨h, x⟩ : NotifyResponse)).congr ?_
    rintro ⟨h, x⟩ msg p e hp
    constructor
    · rintro ⟨h', p0, h0, x', p1, h1, h2, rfl⟩
      simp only [NotifyResponse.mk.injEq] at h2
      obtain ⟨rfl, rfl⟩ := h2
      exact ⟨p0, h0, h1⟩
    · rintro ⟨p0, h0, h1⟩
      exact ⟨h, p0, h0, x, e, h1, rfl, rfl⟩
  obtain ⟨e, ⟨p0, c1, c2⟩, _⟩ := hex.to (msg := r.data ++ tail) (p := 0) (Nat.zero_le _) (Prod.ext (b2 tail) rfl)
  obtain rfl : p0 = 12 := by have := header_len c1; omega
  refine ⟨c1, ?_⟩
  have he : e = r.data.length := by
    obtain ⟨p1, t, c, ⟨ls', d1, _, _⟩, d2, _⟩ := c2
    have hd : (r.data ++ tail).drop 12 = nameWire ls ++ (be16 RRType.SOA.as_u16 ++ be16 RRClass.IN.to_u16 ++ tail) := by
      rw [a2, askOctets, List.append_assoc, List.drop_append_of_le_length (by simp [be16_length])]
      rw [List.drop_eq_nil_of_le (by simp [be16_length])]
      simp only [List.nil_append, List.append_assoc]
      rfl
    have := (Decodes.det d1 (Decodes.of_wire hv.1 hd)).2
    have h4 := d2.1
    simp [be16_length] at h4
    omega
  rw [he] at c2
  exact c2

/-- The reply to a NOTIFY without a SOA record: in a buffer with 16 octets more than the zone name, it is written, and read as a response with the id and the
question of the NOTIFY and no records. Missing: a NOTIFY with a SOA record, `c102_reply_violated` -/
theorem c102_reply_partial (id : UInt16) (ls : List Label) (hv : ValidName ls) (backing : List UInt8) (hb : 16 + (nameWire ls).length ≤ backing.length) :
    ∃ n r m, (NotifyResponse.new (NotifyRequest.new id (ofLabels ls) none)).to_wire (Render.new backing) = (.ok n, r) ∧
      (∀ tail, Response.from_wire (r.data ++ tail) = .ok m) ∧ m.header.id = id ∧ m.header.opcode = .Notify ∧ m.header.is_flag_set .QueryRespone = true ∧
      m.question = ⟨ofLabels ls, .SOA, .IN⟩ ∧ ∀ t, m.section_ t = none := by
  obtain ⟨r, a1, _, a2⟩ := reply_reads id ls hv none backing hb
  refine ⟨_, r, ⟨(NotifyResponse.new (NotifyRequest.new id (ofLabels ls) none)).header, ⟨ofLabels ls, .SOA, .IN⟩, none, none, none⟩, a1, fun tail => ?_, rfl, rfl, ?_, rfl, fun t => by cases t <;> rfl⟩
  · rw [from_wire_iff]
    obtain ⟨b1, b2⟩ := a2 tail
    exact ⟨_, _, _, _, b1, rfl, b2, section_nothing _ _ _, section_nothing _ _ _, section_nothing _ _ _⟩
  · show HeaderFlag.is_flag_set (HeaderFlag.set_flag (HeaderFlag.set_flag 0 .AuthAnswer) .QueryRespone) .QueryRespone = true
    decide

/-- The reply to a NOTIFY with a SOA record announces that record, as it keeps the counts of the NOTIFY, but does not have it: for every zone and every SOA
record and every buffer it is written if it has 16 octets more than the zone name, and never read by the decoder for responses -/
theorem c102_reply_violated (id : UInt16) (ls : List Label) (hv : ValidName ls) (soa : RRset) (backing : List UInt8) (hb : 16 + (nameWire ls).length ≤ backing.length) :
    ∃ n r, (NotifyResponse.new (NotifyRequest.new id (ofLabels ls) (some soa))).to_wire (Render.new backing) = (.ok n, r) ∧ ∀ m, Response.from_wire r.data ≠ .ok m := by
  obtain ⟨r, a1, a3, a2⟩ := reply_reads id ls hv (some soa) backing hb
  refine ⟨_, r, a1, fun m hm => ?_⟩
  obtain ⟨b1, b2⟩ := a2 []
  rw [List.append_nil] at b1 b2
  rw [from_wire_iff] at hm
  obtain ⟨p1, p2, p3, e, c1, _, c2, c3, _⟩ := hm
  have h1 := exact_header.of (Nat.zero_le _) b1
  rw [exact_header.of (Nat.zero_le _) c1] at h1
  have hh : m.header = (NotifyResponse.new (NotifyRequest.new id (ofLabels ls) (some soa))).header := by simpa using h1
  have hle : 12 ≤ r.data.length := by omega
  have h2 := exact_question.of hle b2
  rw [exact_question.of hle c2] at h2
  have hp : p1 = r.data.length := by
    simp only [Prod.mk.injEq, InBuf.mk.injEq] at h2
    exact h2.2.2
  subst hp
  have hn : m.header.an_count = 1 := by rw [hh]; rfl
  rw [hn] at c3
  rcases c3 with ⟨h, _⟩ | ⟨first, rest, sets, _, d1, _⟩
  · cases h
  · obtain ⟨p, d2, _⟩ := d1
    obtain ⟨q, t, c, len, d3, d4, _⟩ := d2
    have i1 := exact_name.inside (Nat.le_refl _) d3
    have i2 := OctetsAt.inside i1.2 d4
    omega

/-- so of a reply exactly those to a NOTIFY without SOA are read -/
theorem c102_exact_partial (id : UInt16) (ls : List Label) (hv : ValidName ls) (soa : Option RRset) (backing : List UInt8) (hb : 16 + (nameWire ls).length ≤ backing.length) :
    ∃ n r, (NotifyResponse.new (NotifyRequest.new id (ofLabels ls) soa)).to_wire (Render.new backing) = (.ok n, r) ∧ ((∃ m, Response.from_wire r.data = .ok m) ↔ soa = none) := by
  cases soa with
  | none =>
    obtain ⟨n, r, m, h1, h2, _⟩ := c102_reply_partial id ls hv backing hb
    exact ⟨n, r, h1, fun _ => rfl, fun _ => ⟨m, by simpa using h2 []⟩⟩
  | some s =>
    obtain ⟨n, r, h1, h2⟩ := c102_reply_violated id ls hv s backing hb
    exact ⟨n, r, h1, fun ⟨m, h⟩ => absurd h (h2 m), fun h => by cases h⟩

/-- the premises are met: the NOTIFY for `a.` with its SOA -/
theorem c102_example : ValidName [[97]] ∧ SoaFits (some AskSample.soa) ∧ 16 + (nameWire [[97]]).length ≤ (List.replicate 64 (0 : UInt8)).length ∧
    AskSample.note = NotifyRequest.new 7 (ofLabels [[97]]) (some AskSample.soa) ∧
    (AskSample.note.to_wire (Render.new (List.replicate 64 0))).1 = .ok 57 ∧
    ((NotifyResponse.new AskSample.note).to_wire (Render.new (List.replicate 64 0))).2.data = [0, 7, 164, 0, 0, 1, 0, 1, 0, 0, 0, 0, 1, 97, 0, 0, 6, 0, 1] := by
  refine ⟨by decide, ?_, by decide, rfl, by decide +kernel, by decide +kernel⟩
  intro s hs
  obtain rfl : AskSample.soa = s := by simpa using hs
  refine ⟨⟨⟨[[97]], by decide, rfl⟩, rfl, rfl, ?_, by simp [AskSample.soa]⟩, rfl, rfl⟩
  intro rd hrd
  obtain rfl := List.mem_singleton.1 hrd
  exact ⟨rfl, ⟨_, rfl, ⟨[[110], [97]], by decide, rfl⟩, ⟨[[97]], by decide, rfl⟩, trivial, trivial, trivial, trivial, trivial, trivial⟩, by decide +kernel, by decide +kernel⟩

end R53
