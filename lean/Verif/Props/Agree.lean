import Verif.Props.Notify
/-!
# C106: the decoders for requests and for responses agree; a request that is read can be passed on
-/
namespace R53
open Name (ofLabels)

theorem header_det {a b : Header} {raw : List UInt8} (h1 : HeaderAt a raw 0 12) (h2 : HeaderAt b raw 0 12) : a = b := by
  have h := exact_header.of (Nat.zero_le _) h1
  rw [exact_header.of (Nat.zero_le _) h2] at h
  simpa using h.symm

theorem question_det {a b : Question} {raw : List UInt8} {e e' : Nat} (hl : 12 ≤ raw.length) (h1 : QuestionAt a raw 12 e) (h2 : QuestionAt b raw 12 e') : a = b ∧ e = e' := by
  have h := exact_question.of hl h1
  rw [exact_question.of hl h2] at h
  simp only [Prod.mk.injEq, Res.ok.injEq, InBuf.mk.injEq] at h
  exact ⟨h.1.symm, h.2.2.symm⟩

theorem header_inside {a : Header} {raw : List UInt8} (h1 : HeaderAt a raw 0 12) : 12 ≤ raw.length := by
  obtain ⟨w, h, _⟩ := h1
  exact (OctetsAt.inside (Nat.zero_le _) h).2

/-- no record starts where the octets end -/
theorem section_end {t : SectionType} {n : UInt16} {s : Section} {msg : List UInt8} {e : Nat} (h : SectionAt t n.toNat s msg msg.length e) : n = 0 ∧ e = msg.length := by
  rcases h with ⟨h, _, h'⟩ | ⟨first, rest, sets, _, d1, _⟩
  · exact ⟨UInt16.toNat_inj.mp h, h'⟩
  · obtain ⟨p, d2, _⟩ := d1
    obtain ⟨q, t, c, len, d3, d4, _⟩ := d2
    have i1 := exact_name.inside (Nat.le_refl _) d3
    have i2 := OctetsAt.inside i1.2 d4
    omega

/-- octets that both decoders accept have one header and one question for both of them -/
theorem c106_both (raw : List UInt8) (q : Request) (m : Response) (h1 : Request.from_wire raw = .ok q) (h2 : Response.from_wire raw = .ok m) :
    m.header = q.header ∧ m.question = q.question := by
  obtain ⟨e, a1, _, a2, _⟩ := (c75_request raw q).mp h1
  obtain ⟨p1, p2, p3, e', b1, _, b2, _⟩ := (from_wire_iff raw m).mp h2
  exact ⟨header_det b1 a1, (question_det (header_inside a1) b2 a2).1⟩

/-- what the decoder for responses accepts, the decoder for requests accepts if and only if no answer is announced -/
theorem c106_response (raw : List UInt8) (m : Response) (h : Response.from_wire raw = .ok m) :
    (Request.from_wire raw = .ok ⟨m.header, m.question⟩ ↔ m.header.an_count = 0) ∧ ((∃ q, Request.from_wire raw = .ok q) ↔ m.header.an_count = 0) := by
  obtain ⟨p1, p2, p3, e', b1, b2, b3, _⟩ := (from_wire_iff raw m).mp h
  have key : m.header.an_count = 0 → Request.from_wire raw = .ok ⟨m.header, m.question⟩ := fun h0 => (c75_request raw _).mpr ⟨p1, b1, b2, b3, h0⟩
  refine ⟨⟨fun h' => ?_, key⟩, fun ⟨q, h'⟩ => ?_, fun h0 => ⟨_, key h0⟩⟩
  · exact (c56_checks_partial raw _ h').2.1
  · have := (c56_checks_partial raw q h').2.1
    rwa [(c106_both raw q m h' h).1]

/-- what the decoder for requests accepts without announcing records, the decoder for responses accepts as the same header and question without records -/
theorem c106_plain (raw : List UInt8) (q : Request) (h : Request.from_wire raw = .ok q) (hn : q.header.ns_count = 0) (ha : q.header.ar_count = 0) :
    Response.from_wire raw = .ok ⟨q.header, q.question, none, none, none⟩ := by
  obtain ⟨e, a1, a2, a3, a4⟩ := (c75_request raw q).mp h
  rw [from_wire_iff]
  refine ⟨e, e, e, e, a1, a2, a3, ?_, ?_, ?_⟩
  · rw [show (⟨q.header, q.question, none, none, none⟩ : Response).header.an_count = 0 from a4]; exact section_nothing _ _ _
  · rw [show (⟨q.header, q.question, none, none, none⟩ : Response).header.ns_count = 0 from hn]; exact section_nothing _ _ _
  · rw [show (⟨q.header, q.question, none, none, none⟩ : Response).header.ar_count = 0 from ha]; exact section_nothing _ _ _

/-- A request that was read is written again, in any buffer with 16 octets more than its name, as octets the decoder for requests reads as the same request.
The decoder for responses, and so any reader that looks for the records announced, reads them if and only if no record is announced.
Missing: that it always does, see `c106_violated` -/
theorem c106_pass_partial (raw : List UInt8) (q : Request) (h : Request.from_wire raw = .ok q) (backing : List UInt8)
    (hb : 271 ≤ backing.length) : ∃ n r, q.to_wire (Render.new backing) = (.ok n, r) ∧ n = r.data.length ∧ n ≤ backing.length ∧
      (∀ tail, Request.from_wire (r.data ++ tail) = .ok q) ∧
      ((∃ m, Response.from_wire r.data = .ok m) ↔ q.header.ns_count = 0 ∧ q.header.ar_count = 0) ∧
      (∀ m, Response.from_wire r.data = .ok m → m = ⟨q.header, q.question, none, none, none⟩) := by
  obtain ⟨h1, h2, h3⟩ := c56_checks_partial raw q h
  obtain ⟨e, ⟨w, a1, _, _, aw⟩, _⟩ := (c75_request raw q).mp h
  have hf : q.header.flag &&& 0x87b0 = q.header.flag := by rw [aw, UInt16.and_assoc]; rfl
  obtain ⟨ls, hv, hq⟩ := h3.1
  have hlen : (nameWire ls).length ≤ 255 := by exact hv.2
  obtain ⟨r, c1, c2⟩ := (c56_exact q ls hv hq backing).1 (by omega)
  rcases c56_roundtrip q h3 hf h1 h2 backing with d | ⟨n, r', d1, d2, d3, d4⟩
  · rw [c1] at d; cases d
  rw [c1] at d1
  simp only [Prod.mk.injEq, Res.ok.injEq] at d1
  obtain ⟨rfl, rfl⟩ := d1
  have d5 : Request.from_wire r.data = .ok q := by simpa using d4 []
  have hone : ∀ m, Response.from_wire r.data = .ok m → q.header.ns_count = 0 ∧ q.header.ar_count = 0 := by
    intro m hm
    have hb := c106_both _ _ _ d5 hm
    obtain ⟨p1, p2, p3, e', b1, _, b3, b4, b5, b6⟩ := (from_wire_iff _ m).mp hm
    have hp : p1 = r.data.length := by
      obtain ⟨p0, t, c, ⟨ls', k1, _, _⟩, k2, _⟩ := b3
      have hd : r.data.drop 12 = nameWire ls ++ (be16 q.question.typ.as_u16 ++ be16 q.question.class_.to_u16) := by
        rw [c2, askOctets, List.drop_append_of_le_length (by simp [be16_length])]
        rw [List.drop_eq_nil_of_le (by simp [be16_length])]
        simp only [List.nil_append]
      have := (Decodes.det k1 (Decodes.of_wire hv.1 hd)).2
      have h4 := k2.1
      simp [be16_length] at h4
      omega
    subst hp
    obtain ⟨_, rfl⟩ := section_end b4
    obtain ⟨e1, rfl⟩ := section_end b5
    obtain ⟨e2, _⟩ := section_end b6
    rw [hb.1] at e1 e2
    exact ⟨e1, e2⟩
  refine ⟨_, r, c1, d2, d3, d4, ⟨fun ⟨m, hm⟩ => hone m hm, fun ⟨e1, e2⟩ => ⟨_, c106_plain _ _ d5 e1 e2⟩⟩, fun m hm => ?_⟩
  obtain ⟨e1, e2⟩ := hone m hm
  have := c106_plain _ _ d5 e1 e2
  rw [hm] at this
  simpa using this

/-- Every message without answers but with other records, such as a query with EDNS: its octets are accepted by both decoders, and what is passed on of it,
in a buffer of 271 octets or more, is refused by the decoder for responses, as it announces the records and does not have them -/
theorem c106_violated (k : Memory) (m : Response) (hm : m.Fits) (h0 : m.header.an_count = 0) (h1 : m.header.ns_count ≠ 0 ∨ m.header.ar_count ≠ 0)
    (backing : List UInt8) (hb : 271 ≤ backing.length) :
    Response.from_wire (m.encodedBy k) = .ok m ∧ Request.from_wire (m.encodedBy k) = .ok ⟨m.header, m.question⟩ ∧
      ∃ n r, (⟨m.header, m.question⟩ : Request).to_wire (Render.new backing) = (.ok n, r) ∧ ∀ m', Response.from_wire r.data ≠ .ok m' := by
  have a1 : Response.from_wire (m.encodedBy k) = .ok m := by simpa using (c73_decodes k m hm []).2
  have a2 := (c106_response _ m a1).1.mpr h0
  obtain ⟨n, r, b1, _, _, _, b2, _⟩ := c106_pass_partial _ _ a2 backing hb
  refine ⟨a1, a2, n, r, b1, fun m' h => ?_⟩
  obtain ⟨e1, e2⟩ := b2.mp ⟨m', h⟩
  rcases h1 with h1 | h1
  · exact h1 e1
  · exact h1 e2

namespace AgreeSample
/-- a query for `a.` with the OPT record of a sender that takes 1232 octets -/
def query : Response := ⟨⟨7, 0x0100, .Query, .NoError, 1, 0, 0, 1⟩, ⟨ofLabels [[97]], .A, .IN⟩, none, none,
  some [⟨ofLabels [], .OPT, .Unknown 1232, 0, []⟩]⟩

theorem query_fits : query.Fits := by
  refine ⟨⟨⟨[[97]], by decide, rfl⟩, rfl, rfl⟩, trivial, trivial, ⟨by simp, ?_, trivial, by simp, by simp⟩, by decide, rfl, rfl, rfl, rfl⟩
  intro s hs
  obtain rfl := List.mem_singleton.1 hs
  exact ⟨⟨[], by decide, rfl⟩, rfl, by decide, by simp, fun _ => rfl⟩

/-- the premises are met: its octets, and what is passed on of it -/
theorem c106_example : query.Fits ∧ query.header.an_count = 0 ∧ query.header.ar_count ≠ 0 ∧
    query.encodedBy .table = [0, 7, 1, 0, 0, 1, 0, 0, 0, 0, 0, 1, 1, 97, 0, 0, 1, 0, 1, 0, 0, 41, 4, 208, 0, 0, 0, 0, 0, 0] ∧
    ((⟨query.header, query.question⟩ : Request).to_wire (Render.new (List.replicate 271 0))).2.data = [0, 7, 1, 0, 0, 1, 0, 0, 0, 0, 0, 1, 1, 97, 0, 0, 1, 0, 1] ∧
    (∃ q, Request.from_wire (query.encodedBy .table) = .ok q) := by
  refine ⟨query_fits, rfl, by decide, by decide +kernel, by decide +kernel, ?_⟩
  exact ⟨_, (c106_violated .table query query_fits rfl (Or.inr (by decide)) (List.replicate 271 0) (by rw [List.length_replicate]; exact Nat.le_refl _)).2.1⟩
end AgreeSample

end R53
