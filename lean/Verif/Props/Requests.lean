import Verif.Props.Decode
/-!
# C56, C57: the octets of requests, NOTIFY requests and their responses, for every buffer size
-/
namespace R53

/-- the octets of a header and a question: nothing is compressed, since nothing was written before -/
def askOctets (h : Header) (ls : List Label) (t : RRType) (c : RRClass) : List UInt8 :=
  be16 h.id ++ be16 h.header_flag ++ be16 h.qd_count ++ be16 h.an_count ++ be16 h.ns_count ++ be16 h.ar_count ++
    (nameWire ls ++ (be16 t.as_u16 ++ be16 c.to_u16))

theorem askOctets_length (h : Header) (ls : List Label) (t : RRType) (c : RRClass) : (askOctets h ls t c).length = 16 + (nameWire ls).length := by
  simp [askOctets, be16_length]; omega

theorem ask_written (h : Header) (q : Question) (ls : List Label) (hv : ValidName ls) (hq : q.name = Name.ofLabels ls) (backing : List UInt8) :
    ((askOctets h ls q.typ q.class_).length ≤ backing.length → ∃ r, (h.to_wire >>= fun _ => q.to_wire) (Render.new backing) = (.ok (), r) ∧
      r.data = askOctets h ls q.typ q.class_ ∧ r.len = (askOctets h ls q.typ q.class_).length) ∧
    (backing.length < (askOctets h ls q.typ q.class_).length → ((h.to_wire >>= fun _ => q.to_wire) (Render.new backing)).1 = .err) := by
  have hm : (⟨h, q, none, none, none⟩ : Response).Typed := ⟨⟨ls, hv, hq⟩, fun t sets hs => by cases t <;> simp [Response.section_] at hs⟩
  have hf := follows_head_any hm
  have he : (encHead Memory.table ⟨h, q, none, none, none⟩ [] 0).1 = askOctets h ls q.typ q.class_ := by
    rw [encHead_eq hm]
    have : q.name.raw = nameWire ls := by rw [hq, Name.ofLabels_raw, nameWire_eq]
    simp only [this]
    rfl
  have hcap : (Render.new backing).buffer.capacity = backing.length := by simp [Render.new, OutBuf.new, OutBuf.capacity]
  have hdat : (Render.new backing).data = [] := by simp [Render.data, OutBuf.contents, Render.new, OutBuf.new]
  have hl0 : (Render.new backing).buffer.len = 0 := rfl
  constructor
  · intro hfit
    obtain ⟨r, a1, a2, a3⟩ := hf.ok (Render.new backing) Mem.none [] (RInv.new _ _ fun _ => rfl) (DictOK.new _ _) (by simp)
      (by rw [hl0, hcap, he]; omega)
    rw [hl0, he] at a2
    have hd : r.data = askOctets h ls q.typ q.class_ := by rw [a2.data, hdat, List.nil_append]
    have : r.len = r.data.length := (OutBuf.contents_length a2.inv.buf).symm
    exact ⟨r, a1, hd, by rw [this, hd]⟩
  · intro hno
    exact hf.err (Render.new backing) Mem.none [] (RInv.new _ _ fun _ => rfl) (DictOK.new _ _) (by simp) (by rw [hl0, hcap, he]; omega)

/-- a request is written if and only if the buffer has 16 octets more than the name, and then as header, the name spelled out, type and class; otherwise
the call errs -/
theorem c56_exact (q : Request) (ls : List Label) (hv : ValidName ls) (hq : q.question.name = Name.ofLabels ls) (backing : List UInt8) :
    (16 + (nameWire ls).length ≤ backing.length → ∃ r, q.to_wire (Render.new backing) = (.ok (16 + (nameWire ls).length), r) ∧
      r.data = askOctets q.header ls q.question.typ q.question.class_) ∧
    (backing.length < 16 + (nameWire ls).length → (q.to_wire (Render.new backing)).1 = .err) := by
  have := ask_written q.header q.question ls hv hq backing
  rw [askOctets_length] at this
  rw [request_to_wire, len_last]
  refine ⟨fun h => ?_, fun h => ?_⟩
  · obtain ⟨r, h1, h2, h3⟩ := this.1 h
    exact ⟨r, by rw [h1]; simp only; rw [h3], h2⟩
  · have h1 := this.2 h
    rcases h2 : (q.header.to_wire >>= fun _ => q.question.to_wire) (Render.new backing) with ⟨x | _ | _, r⟩ <;> rw [h2] at h1 <;> first | rfl | cases h1

/-- and so is the response to a NOTIFY -/
theorem c57_response_exact (q : NotifyResponse) (ls : List Label) (hv : ValidName ls) (hq : q.question.name = Name.ofLabels ls) (backing : List UInt8) :
    (16 + (nameWire ls).length ≤ backing.length → ∃ r, q.to_wire (Render.new backing) = (.ok (16 + (nameWire ls).length), r) ∧
      r.data = askOctets q.header ls q.question.typ q.question.class_) ∧
    (backing.length < 16 + (nameWire ls).length → (q.to_wire (Render.new backing)).1 = .err) :=
  c56_exact ⟨q.header, q.question⟩ ls hv hq backing

/-- the octets of a NOTIFY request by the reference encoder: header, question, and the SOA record if there is one -/
def NotifyRequest.encoded (q : NotifyRequest) : List UInt8 :=
  (Enc.seq (encHeader q.header) (Enc.seq (encQuestion .table q.question) (match q.soa with | none => Enc.octets [] | some s => encSet .table s)) [] 0).1

/-- the names a NOTIFY request writes -/
def NotifyRequest.names (q : NotifyRequest) : List Name := q.question.name :: (match q.soa with | none => [] | some s => s.names)

/-- a NOTIFY request is written if and only if the buffer holds its encoding, and then as that; otherwise the call errs. Missing: names that collide under
the hash function, where the call may err with room left (`c44_collision_violated`) -/
theorem c57_request_exact_partial (q : NotifyRequest) (hq : ∃ ls, ValidName ls ∧ q.question.name = Name.ofLabels ls)
    (hs : ∀ s, q.soa = some s → s.Typed ∧ ∀ rd ∈ s.rdatas, 1 ≤ rd.size) (hc : ClashFree q.names) (backing : List UInt8) :
    (q.encoded.length ≤ backing.length → ∃ r, q.to_wire (Render.new backing) = (.ok q.encoded.length, r) ∧ r.data = q.encoded) ∧
    (backing.length < q.encoded.length → (q.to_wire (Render.new backing)).1 = .err) := by
  have hsoa : Follows (TailSet q.names) (soaWire q.soa) (match q.soa with | none => Enc.octets [] | some s => encSet .table s) := by
    cases h : q.soa with
    | none => exact Follows.nil
    | some s => exact follows_rrset hc (hs s h).1 (hs s h).2 fun n hn => by simp [NotifyRequest.names, h, hn]
  have hf := (follows_header (TailSet q.names) q.header).seq ((follows_question hc hq (by simp [NotifyRequest.names])).seq hsoa)
  have hcap : (Render.new backing).buffer.capacity = backing.length := by simp [Render.new, OutBuf.new, OutBuf.capacity]
  have hdat : (Render.new backing).data = [] := by simp [Render.data, OutBuf.contents, Render.new, OutBuf.new]
  have hl0 : (Render.new backing).buffer.len = 0 := rfl
  rw [notify_to_wire, len_last]
  refine ⟨fun hfit => ?_, fun hno => ?_⟩
  · obtain ⟨r, a1, a2, a3⟩ := hf.ok (Render.new backing) Mem.none [] (RInv.new _ _ fun _ => rfl) (DictOK.new _ _) (by simp)
      (by rw [hl0, hcap]; show 0 + q.encoded.length ≤ _; omega)
    rw [hl0] at a2
    have hd : r.data = q.encoded := by rw [a2.data, hdat, List.nil_append]; rfl
    have hl : r.len = r.data.length := (OutBuf.contents_length a2.inv.buf).symm
    refine ⟨r, ?_, hd⟩
    rw [a1]
    simp only
    rw [hl, hd]
  · have h1 := hf.err (Render.new backing) Mem.none [] (RInv.new _ _ fun _ => rfl) (DictOK.new _ _) (by simp)
      (by rw [hl0, hcap]; show ¬ 0 + q.encoded.length ≤ _; omega)
    rcases h2 : (q.header.to_wire >>= fun _ => (q.question.to_wire >>= fun _ => soaWire q.soa)) (Render.new backing) with ⟨x | _ | _, r⟩ <;>
      rw [h2] at h1 <;> first | rfl | cases h1

/-- octets are read as a NOTIFY request if and only if they spell a header, a question, and, if one answer is announced, a SOA record -/
theorem c57_reads (raw : List UInt8) (q : NotifyRequest) : (readNotify (InBuf.new raw)).1 = .ok q ↔
    ∃ e, HeaderAt q.header raw 0 12 ∧ QuestionAt q.question raw 12 e ∧
      ((q.header.an_count ≠ 1 ∧ q.soa = none) ∨ (q.header.an_count = 1 ∧ ∃ s e', q.soa = some s ∧ RecordAt s raw e e' ∧ s.typ = .SOA)) := by
  have hex : Exact readNotify fun q msg p e => ∃ p0 p1, HeaderAt q.header msg p p0 ∧ QuestionAt q.question msg p0 p1 ∧
      ((q.header.an_count ≠ 1 ∧ q.soa = none ∧ e = p1) ∨ (q.header.an_count = 1 ∧ ∃ s, q.soa = some s ∧ RecordAt s msg p1 e ∧ s.typ = .SOA)) := by
    unfold readNotify NotifyRequest.from_wire
    refine (exact_header.bind fun h => exact_question.bind fun x => Exact.ite (c := h.an_count = 1) (fun _ => exact_record.bind fun s =>
      Exact.ite (c := s.typ ≠ .SOA) (fun _ => Exact.fail) fun _ => Exact.pure (⟨h, x, some s⟩ : NotifyRequest)) fun _ => Exact.pure (⟨h, x, none⟩ : NotifyRequest)).congr ?_
    rintro ⟨h, x, s⟩ msg p e hp
    constructor
    · rintro ⟨h', p0, h0, x', p1, h1, ⟨h2, s', p2, h3, ⟨_, h4⟩ | ⟨h4, h5, rfl⟩⟩ | ⟨h2, h3, rfl⟩⟩
      · exact h4.elim
      · simp only [NotifyRequest.mk.injEq] at h5
        obtain ⟨rfl, rfl, rfl⟩ := h5
        exact ⟨p0, p1, h0, h1, .inr ⟨h2, s', rfl, h3, Classical.not_not.mp h4⟩⟩
      · simp only [NotifyRequest.mk.injEq] at h3
        obtain ⟨rfl, rfl, rfl⟩ := h3
        exact ⟨p0, _, h0, h1, .inl ⟨h2, rfl, rfl⟩⟩
    · rintro ⟨p0, p1, h0, h1, ⟨h2, rfl, rfl⟩ | ⟨h2, s', rfl, h3, h4⟩⟩
      · exact ⟨h, p0, h0, x, _, h1, .inr ⟨h2, rfl, rfl⟩⟩
      · exact ⟨h, p0, h0, x, p1, h1, .inl ⟨h2, s', e, h3, .inr ⟨Classical.not_not.mpr h4, rfl, rfl⟩⟩⟩
  constructor
  · intro h
    have h' : (readNotify ⟨raw, 0⟩).1 = .ok q := h
    obtain ⟨e, ⟨p0, p1, h0, h1, h2⟩, _⟩ := hex.to (msg := raw) (p := 0) (Nat.zero_le _) (Prod.ext h' rfl)
    obtain rfl : p0 = 12 := by have := header_len h0; omega
    exact ⟨p1, h0, h1, h2.imp (fun h => ⟨h.1, h.2.1⟩) fun ⟨h, s, a, b, c⟩ => ⟨h, s, e, a, b, c⟩⟩
  · rintro ⟨e, h0, h1, ⟨h2, h3⟩ | ⟨h2, s, e', h3, h4, h5⟩⟩
    · have := hex.of (msg := raw) (p := 0) (a := q) (e := e) (Nat.zero_le _) ⟨12, e, h0, h1, .inl ⟨h2, h3, rfl⟩⟩
      exact congrArg Prod.fst this
    · have := hex.of (msg := raw) (p := 0) (a := q) (e := e') (Nat.zero_le _) ⟨12, e, h0, h1, .inr ⟨h2, s, h3, h4, h5⟩⟩
      exact congrArg Prod.fst this

namespace AskSample
/-- a request for `www.` -/
def ask : Request := Request.new 7 (Name.ofLabels [[119, 119, 119]]) .AAAA
/-- a buffer of 21 octets is enough, one of 20 is not -/
theorem c56_example : (16 + (nameWire [[119, 119, 119]]).length = 21) ∧ ask.question.name = Name.ofLabels [[119, 119, 119]] ∧ ValidName [[119, 119, 119]] ∧
    (ask.to_wire (Render.new (List.replicate 20 0))).1 = .err ∧
    askOctets ask.header [[119, 119, 119]] .AAAA .IN = [0, 7, 1, 0, 0, 1, 0, 0, 0, 0, 0, 0, 3, 119, 119, 119, 0, 0, 28, 0, 1] :=
  ⟨by decide +kernel, rfl, by decide, (c56_exact ask [[119, 119, 119]] (by decide) rfl _).2 (by decide +kernel), by decide +kernel⟩

/-- a NOTIFY for `a.` with its SOA record: the owner and the names in the data point at the zone name -/
def soa : RRset := ⟨Name.ofLabels [[97]], .SOA, .IN, 60, [⟨.SOA, [.name (Name.ofLabels [[110], [97]]), .name (Name.ofLabels [[97]]), .u32 1, .u32 2, .u32 3, .u32 4, .u32 5]⟩]⟩
def note : NotifyRequest := NotifyRequest.new 7 (Name.ofLabels [[97]]) (some soa)
theorem c57_example : (∃ ls, ValidName ls ∧ note.question.name = Name.ofLabels ls) ∧ (∀ s, note.soa = some s → s.Typed ∧ ∀ rd ∈ s.rdatas, 1 ≤ rd.size) ∧
    ClashFree note.names ∧ note.encoded = [0, 7, 36, 0, 0, 1, 0, 1, 0, 0, 0, 0, 1, 97, 0, 0, 6, 0, 1, 192, 12, 0, 6, 0, 1, 0, 0, 0, 60, 0, 26,
      1, 110, 192, 12, 192, 12, 0, 0, 0, 1, 0, 0, 0, 2, 0, 0, 0, 3, 0, 0, 0, 4, 0, 0, 0, 5] := by
  refine ⟨⟨[[97]], by decide, rfl⟩, ?_, by decide +kernel, by decide +kernel⟩
  rintro s hs
  obtain rfl : soa = s := by simpa [note, NotifyRequest.new] using hs
  refine ⟨⟨⟨[[97]], by decide, rfl⟩, ?_⟩, by decide +kernel⟩
  intro rd hrd
  obtain rfl := List.mem_singleton.1 hrd
  exact ⟨_, rfl, ⟨[[110], [97]], by decide, rfl⟩, ⟨[[97]], by decide, rfl⟩, trivial, trivial, trivial, trivial, trivial, trivial⟩
end AskSample

end R53
