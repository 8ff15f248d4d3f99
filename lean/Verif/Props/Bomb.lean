import Verif.Proofs.Bomb
import Verif.Props.Decode
/-!
# C90: what a received message can hold
-/
namespace R53

/-- a message of `n` octets holds at most `(n - 17) / 11` records, just those its header announces, and has at most `52 n` octets with its
names written out -/
theorem c90_bounds (raw : List UInt8) (m : Response) (h : Response.from_wire raw = .ok m) :
    m.records.length = m.header.an_count.toNat + m.header.ns_count.toNat + m.header.ar_count.toNat ∧
    17 + 11 * m.records.length ≤ raw.length ∧ m.size ≤ 52 * raw.length := by
  obtain ⟨p1, p2, p3, e, h0, -, h2, h3, h4, h5⟩ := (c75_message raw m).mp h
  have l0 := (exact_header.inside (Nat.zero_le _) h0).2
  have l1 := (exact_question.inside l0 h2).2
  have l2 := ((exact_section _ _).inside l1 h3).2
  have l3 := ((exact_section _ _).inside l2 h4).2
  have l4 := ((exact_section _ _).inside l3 h5).2
  obtain ⟨q, t, c, hq, h6, -⟩ := h2
  obtain ⟨b0, b1, -⟩ := hq.grows
  have h6 := h6.1
  simp only [List.length_append, be16_length] at h6
  obtain ⟨c1, c2, c3⟩ := h3.grows l1
  obtain ⟨d1, d2, d3⟩ := h4.grows l2
  obtain ⟨e1, e2, e3⟩ := h5.grows l3
  have hr : m.records.length = m.header.an_count.toNat + m.header.ns_count.toNat + m.header.ar_count.toNat := by
    unfold Response.records
    simp only [List.length_append]; omega
  refine ⟨hr, by omega, ?_⟩
  unfold Response.size Response.headSize
  omega

/-- so a message of at most 65535 octets holds at most 5956 records, each name in it has at most 255 octets -/
theorem c90_datagram (raw : List UInt8) (m : Response) (h : Response.from_wire raw = .ok m) (hl : raw.length ≤ 65535) :
    m.records.length ≤ 5956 ∧ m.size ≤ 3407820 := by
  obtain ⟨-, h1, h2⟩ := c90_bounds raw m h
  omega

/-- a buffer 52 times as large as the message that came in is large enough to send it on, if no two of its names collide (C76) -/
theorem c90_room (raw : List UInt8) (m : Response) (h : Response.from_wire raw = .ok m) (hlen : raw.length ≤ 65000) (hc : ClashFree m.names)
    (backing : List UInt8) (hb : 52 * raw.length ≤ backing.length) :
    ∃ n r, m.to_wire (Render.new backing) = (.ok n, r) ∧ Response.from_wire r.data = .ok m :=
  c76_whole_partial raw m h (.inr hlen) hc backing (Nat.le_trans (c90_bounds raw m h).2.2 hb)

/-- the premises are met -/
example : Response.from_wire spelledOctets = .ok spelledMsg ∧ spelledMsg.records.length = 1 ∧ spelledMsg.size = 39 ∧ spelledOctets.length = 39 :=
  ⟨(c75_message _ _).mpr spelledMsg_at, by decide +kernel, by decide +kernel, by decide +kernel⟩

end R53
