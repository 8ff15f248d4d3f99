import Verif.Proofs.Offset
import Verif.Props.Pieces
/-!
# C97: messages written to a renderer that holds octets already

A renderer is not bound to one message: two octets may be skipped for the length prefix of TCP, and a second message may follow the first when nobody calls
`reset`. Pointers and the fields patched by truncation are counted from the start of the buffer, not of the message.
-/
namespace R53
open Name (ofLabels)

/-- all that can happen, for every message (`Typed`: names and data of their type, nothing about hashes, counts or sizes) and every renderer reached by any calls -/
theorem c97_exact {backing : List UInt8} {h : Hist} (hr : Reached backing h) (m : Response) (hm : m.Typed) :
    -- header and question refused, or no room for them: an error
    ((∀ x, Seek.head m h.dictionary h.r.data.length = some x → h.r.buffer.capacity < h.r.data.length + x.room) → (m.to_wire h.r).1 = .err) ∧
    -- nothing refused and room for everything: the octets come out behind those already there, and the result is the length of all
    (∀ x, Seek.message m h.dictionary h.r.data.length = some x → h.r.data.length + x.room ≤ h.r.buffer.capacity →
      ∃ r, m.to_wire h.r = (.ok (h.r.data.length + x.octets.length), r) ∧ r.data = h.r.data ++ x.octets) ∧
    -- header and question written, the records not: flags and counts at the front of the buffer are overwritten, or the program panics
    (∀ x, Seek.head m h.dictionary h.r.data.length = some x → h.r.data.length + x.room ≤ h.r.buffer.capacity →
      (∀ y, Seek.body m x.names (h.r.data.length + x.octets.length) = some y → h.r.buffer.capacity < h.r.data.length + x.octets.length + y.room) →
      ∃ s rest, m.records = s :: rest ∧
        ((∃ y, seekLabels x.names (h.r.data.length + x.octets.length) s.name.labelList = some y ∧
            h.r.data.length + x.octets.length + pieceOf s.name.labelList y.1 ≤ h.r.buffer.capacity) →
          ∃ r, m.to_wire h.r = (.ok (h.r.data.length + x.octets.length), r) ∧ r.data = stamped m.header (h.r.data ++ x.octets)) ∧
        ((∀ y, seekLabels x.names (h.r.data.length + x.octets.length) s.name.labelList = some y →
            h.r.buffer.capacity < h.r.data.length + x.octets.length + pieceOf s.name.labelList y.1) → (m.to_wire h.r).1 = .panic)) := by
  obtain ⟨g, hi⟩ := hr.dict
  have hl : h.r.data.length = h.r.buffer.len := OutBuf.contents_length hi.inv.buf
  refine ⟨fun hno => ?_, fun x hx hfit => ?_, fun x hx hfit hno => ?_⟩
  · rw [hl] at hno
    exact message_err hm hi.inv hi.has fun x hx hf => by have := hno x hx; omega
  · rw [hl] at hx hfit
    obtain ⟨r, a1, a2, _⟩ := message_ok hm hi.inv hi.has hx hfit
    refine ⟨r, ?_, a2.data⟩
    rw [a1, a2.data, List.length_append]
  · rw [hl] at hx hfit hno
    have := message_cut hm hi.inv hi.has hx hfit fun y hy hf => by have := hno y hy; omega
    rw [hl]
    rw [hl] at this
    exact this

/-! ## reading from where it was written -/

theorem message_reads {m : Response} (hm : m.Fits) {r : Render} {g : Mem} {d : Dict} (h : RInv r g) (hd : DictHas r g d) {x : Written}
    (hx : Seek.message m d r.buffer.len = some x) (hfit : r.buffer.len + x.room ≤ r.buffer.capacity) :
    ∃ r', m.to_wire r = (.ok r'.data.length, r') ∧ Wrote r r' g x.octets ∧ DictHas r' (g.ext r.buffer.len x.octets) x.names ∧
      Reads (g.ext r.buffer.len x.octets) r.buffer.len Response.read m (r.buffer.len + x.octets.length) := by
  have hf := (tracks_header m.header).seq ((tracks_question hm.typed.question).seq (tracks_body hm.typed))
  rw [← Seek.seq_assoc] at hf
  obtain ⟨r', a1, a2, a3⟩ := hf.ok r g d h hd x hx hfit
  have hrun : m.to_wire r = (.ok r'.data.length, r') := by
    obtain ⟨_, r1, b1, b2⟩ := St.bind_ok_inv a1
    obtain ⟨_, r2, c1, c2⟩ := St.bind_ok_inv b2
    rw [Response.to_wire_eq m _ _ _ _ b1 c1 c2]
    have : r'.len = r'.data.length := (OutBuf.contents_length a2.inv.buf).symm
    rw [this]
  refine ⟨r', hrun, a2, a3, ?_⟩
  rcases emits_message hm.question hm.flag hm.qd (emits_body hm) r g h with ⟨r2, out, b1, b2, b3⟩ | ⟨r2, b1, _⟩
  · rw [a1] at b1
    simp only [Prod.mk.injEq, true_and] at b1
    subst b1
    have : x.octets = out := by
      have h1 := a2.data
      rw [b2.data] at h1
      exact (List.append_cancel_left h1).symm
    rw [this]
    exact b3
  · rw [a1] at b1; cases b1

/-- a message that is written whole is read back from its place in the buffer, whatever stands before it and whatever is written behind it -/
theorem c97_reads {backing : List UInt8} {h : Hist} (hr : Reached backing h) (m : Response) (hm : m.Fits) {x : Written}
    (hx : Seek.message m h.dictionary h.r.data.length = some x) (hfit : h.r.data.length + x.room ≤ h.r.buffer.capacity) (tail : List UInt8) :
    Response.read ⟨(m.to_wire h.r).2.data ++ tail, h.r.data.length⟩ = (.ok m, ⟨(m.to_wire h.r).2.data ++ tail, (m.to_wire h.r).2.data.length⟩) := by
  obtain ⟨g, hi⟩ := hr.dict
  have hl : h.r.data.length = h.r.buffer.len := OutBuf.contents_length hi.inv.buf
  rw [hl] at hx hfit
  obtain ⟨r', a1, a2, _, a3⟩ := message_reads hm hi.inv hi.has hx hfit
  rw [a1]
  simp only
  have hl' : r'.data.length = h.r.buffer.len + x.octets.length := by rw [a2.data, List.length_append, hl]
  rw [hl, hl']
  exact a3 _ (Mem.le_append a2.inv.mem tail) (by rw [List.length_append, hl']; omega)

/-! ## several messages in one renderer -/

theorem write_messages {ms : List Response} (hm : ∀ m ∈ ms, m.Fits) {r : Render} {g : Mem} {d : Dict} (h : RInv r g) (hd : DictHas r g d) {x : Written}
    (hx : Seek.all (ms.map Seek.message) d r.buffer.len = some x) (hfit : r.buffer.len + x.room ≤ r.buffer.capacity) :
    ∃ r', writeMessages ms r = (.ok (), r') ∧ Wrote r r' g x.octets ∧
      Reads (g.ext r.buffer.len x.octets) r.buffer.len (readMessages ms.length) ms (r.buffer.len + x.octets.length) := by
  induction ms generalizing r g d x with
  | nil =>
    simp only [List.map_nil, Seek.all, Seek.octets, Option.some.injEq] at hx
    subst hx
    exact ⟨r, rfl, Wrote.nil h, Reads.pure _⟩
  | cons m ms ih =>
    obtain ⟨y, z, hy, hz, rfl⟩ := Seek.seq_some.mp hx
    simp only at hfit ⊢
    obtain ⟨r1, a1, a2, a3, a4⟩ := message_reads (hm m (by simp)) h hd hy (by omega)
    have hl := a2.len
    have hc := a2.cap
    rw [← hl] at hz
    obtain ⟨r2, b1, b2, b3⟩ := ih (fun m' h' => hm m' (by simp [h'])) a2.inv a3 hz (by omega)
    refine ⟨r2, ?_, a2.trans b2, ?_⟩
    · unfold writeMessages
      rw [St.bind_ok a1]
      exact b1
    · have hle := b2.le a2.inv
      rw [hl, Mem.ext_ext] at hle b3
      rw [List.length_append, ← Nat.add_assoc]
      refine (a4.le hle).bind (Reads.map b3 fun s => rfl) fun msg hm' hp => Mem.ext_end' (Mem.le_trans hle hm') hp

/-- any number of messages written to one renderer without `reset`: if none is refused and there is room for all, they are read back one behind the other
from the buffer -/
theorem c97_stream (ms : List Response) (hm : ∀ m ∈ ms, m.Fits) (backing : List UInt8) {x : Written} (hx : Seek.all (ms.map Seek.message) [] 0 = some x)
    (hfit : x.room ≤ backing.length) (tail : List UInt8) :
    ∃ r, writeMessages ms (Render.new backing) = (.ok (), r) ∧ r.data = x.octets ∧
      readMessages ms.length ⟨x.octets ++ tail, 0⟩ = (.ok ms, ⟨x.octets ++ tail, x.octets.length⟩) := by
  have hcap : (Render.new backing).buffer.capacity = backing.length := by simp [Render.new, OutBuf.new, OutBuf.capacity]
  have hdat : (Render.new backing).data = [] := by simp [Render.data, OutBuf.contents, Render.new, OutBuf.new]
  have hl0 : (Render.new backing).buffer.len = 0 := rfl
  obtain ⟨r, a1, a2, a3⟩ := write_messages hm (RInv.new backing Mem.none fun _ => rfl) (DictOK.new _ _).toDictHas (by rw [hl0]; exact hx) (by rw [hl0, hcap]; omega)
  have hd : r.data = x.octets := by rw [a2.data, hdat, List.nil_append]
  refine ⟨r, a1, hd, ?_⟩
  rw [hl0, Nat.zero_add] at a3
  have hmem := a2.inv.mem
  rw [hl0] at hmem
  have h2 : r.buffer.contents = x.octets := hd
  rw [h2] at hmem
  exact a3 _ (Mem.le_append hmem tail) (Nat.zero_le _)

/-! ## what goes wrong -/

namespace OffsetSample
/-- the two octets of the length prefix are skipped -/
def prefixed : Hist := Hist.step ⟨Render.new (List.replicate 64 0), fun _ => false, []⟩ (.skip 2)
theorem prefixed_reached : Reached (List.replicate 64 0) prefixed := Reached.step Reached.new trivial
/-- the octets of `sampleMsg` behind them -/
def afterPrefix : List UInt8 := [0x12, 0x34, 0x80, 0, 0, 1, 0, 1, 0, 0, 0, 0, 1, 97, 0, 0, 1, 0, 1, 192, 14, 0, 1, 0, 1, 0, 0, 0, 60, 0, 4, 1, 2, 3, 4]
/-- `sampleMsg`, but the address is one of the root -/
def rootMsg : Response := { sampleMsg with answer := some [⟨ofLabels [], .A, .IN, 60, [⟨.A, [.ip [1, 2, 3, 4]]⟩]⟩] }
theorem rootMsg_at : MessageAt rootMsg afterPrefix := by
  have hoct : ∀ {o : List UInt8} {p e : Nat}, (e = p + o.length ∧ o <+: afterPrefix.drop p) → OctetsAt o afterPrefix p e := fun h => h
  have hname : ∀ l, Decodes afterPrefix l 12 [[97]] 15 := fun l => .label 1 rfl (by decide) (by decide) rfl (by decide) (.root rfl)
  have hptr : NameAt (ofLabels []) afterPrefix 19 21 := ⟨[], .pointer 192 14 rfl (by decide) rfl (by decide) (.root rfl), by decide, rfl⟩
  have hrec : RecordAt ⟨ofLabels [], .A, .IN, 60, [⟨.A, [.ip [1, 2, 3, 4]]⟩]⟩ afterPrefix 19 35 :=
    ⟨21, 1, 1, 4, hptr, hoct (by decide), rfl, rfl, rfl, Or.inr ⟨by decide, _, rfl, rfl, _, rfl, 35, ⟨rfl, hoct (by decide)⟩, rfl⟩⟩
  refine ⟨19, 35, 35, 35, ⟨0x8000, hoct (by decide), rfl, rfl, rfl⟩, rfl,
    ⟨15, 1, 1, ⟨_, hname _, by decide, rfl⟩, hoct (by decide), rfl, rfl⟩, ?_, Or.inl ⟨rfl, rfl, rfl⟩, Or.inl ⟨rfl, rfl, rfl⟩⟩
  exact Or.inr ⟨_, [], _, rfl, ⟨35, hrec, rfl⟩, ⟨⟨[[_]], rfl, .cons (Merges.single _) .nil⟩, trivial⟩, rfl, by decide, trivial⟩
/-- another message: about `b.`, with the id 8 -/
def second : Response :=
  ⟨⟨8, 0x8000, .Query, .NoError, 1, 1, 0, 0⟩, ⟨ofLabels [[98]], .A, .IN⟩, some [⟨ofLabels [[98]], .A, .IN, 60, [⟨.A, [.ip [5, 6, 7, 8]]⟩]⟩], none, none⟩
theorem second_fits : second.Fits := by
  refine ⟨⟨⟨[[98]], by decide, rfl⟩, rfl, rfl⟩, ⟨by simp, ?_, trivial, by simp, by simp⟩, trivial, trivial, rfl, rfl, rfl, rfl, rfl⟩
  intro s hs
  rw [List.mem_singleton] at hs
  subst hs
  refine ⟨⟨[[98]], by decide, rfl⟩, rfl, rfl, ?_, by simp⟩
  intro rd hrd
  rw [List.mem_singleton] at hrd
  subst hrd
  exact ⟨rfl, ⟨_, rfl, rfl, trivial⟩, by unfold RData.SizeOK; decide +kernel⟩
/-- both messages whole, the second behind the first -/
def both : Written := ⟨[0x12, 0x34, 0x80, 0, 0, 1, 0, 1, 0, 0, 0, 0, 1, 97, 0, 0, 1, 0, 1, 192, 12, 0, 1, 0, 1, 0, 0, 0, 60, 0, 4, 1, 2, 3, 4] ++
  [0, 8, 0x80, 0, 0, 1, 0, 1, 0, 0, 0, 0, 1, 98, 0, 0, 1, 0, 1, 192, 47, 0, 1, 0, 1, 0, 0, 0, 60, 0, 4, 5, 6, 7, 8], [([[97]], 12), ([[98]], 47)], 70⟩
/-- what is left of them in sixty octets -/
def damaged : List UInt8 := [0x12, 0x34, 0x82, 0, 0, 1, 0, 0, 0, 0, 0, 0, 1, 97, 0, 0, 1, 0, 1, 192, 12, 0, 1, 0, 1, 0, 0, 0, 60, 0, 4, 1, 2, 3, 4] ++
  [0, 8, 0x80, 0, 0, 1, 0, 1, 0, 0, 0, 0, 1, 98, 0, 0, 1, 0, 1]
theorem cut_at : MessageAt sampleMsg.cut damaged := by
  have hoct : ∀ {o : List UInt8} {p e : Nat}, (e = p + o.length ∧ o <+: damaged.drop p) → OctetsAt o damaged p e := fun h => h
  have hname : ∀ l, Decodes damaged l 12 [[97]] 15 := fun l => .label 1 rfl (by decide) (by decide) rfl (by decide) (.root rfl)
  exact ⟨19, 19, 19, 19, ⟨0x8200, hoct (by decide), rfl, rfl, by decide⟩, rfl,
    ⟨15, 1, 1, ⟨_, hname _, by decide, rfl⟩, hoct (by decide), rfl, rfl⟩, Or.inl ⟨rfl, rfl, rfl⟩, Or.inl ⟨rfl, rfl, rfl⟩, Or.inl ⟨rfl, rfl, rfl⟩⟩
/-- the premises of `c97_exact`, `c97_reads` and `c97_stream` are met -/
theorem c97_example : Reached (List.replicate 64 0) prefixed ∧ sampleMsg.Fits ∧ second.Fits ∧
    (Seek.message sampleMsg prefixed.dictionary prefixed.r.data.length).map Written.octets = some afterPrefix ∧
    Seek.all ([sampleMsg, second].map Seek.message) [] 0 = some both :=
  ⟨prefixed_reached, sampleMsg_fits, second_fits, by decide +kernel, by decide +kernel⟩
end OffsetSample

/-- **violated**: behind two skipped octets, the place of a length prefix, a message is written whole; the octets from there on are another message: the
pointer of the owner name is two octets off, and the address now belongs to the root -/
theorem c97_prefix_violated : ∃ (backing : List UInt8) (m m' : Response) (r r' : Render) (n : Nat), m.Fits ∧
    Render.skip 2 (Render.new backing) = (.ok (), r) ∧ m.to_wire r = (.ok n, r') ∧ r'.data.length = n ∧
    Response.from_wire (r'.data.drop 2) = .ok m' ∧ m'.header = m.header ∧ m'.answer ≠ m.answer := by
  have k0 : (Render.skip 2 (Render.new (List.replicate 64 0))).1 = .ok () := by decide +kernel
  have k1 : (sampleMsg.to_wire (Render.skip 2 (Render.new (List.replicate 64 0))).2).1 = .ok 37 := by decide +kernel
  have k2 : (sampleMsg.to_wire (Render.skip 2 (Render.new (List.replicate 64 0))).2).2.data.length = 37 := by decide +kernel
  have k3 : (sampleMsg.to_wire (Render.skip 2 (Render.new (List.replicate 64 0))).2).2.data.drop 2 = OffsetSample.afterPrefix := by decide +kernel
  generalize hb : List.replicate 64 (0 : UInt8) = backing at k0 k1 k2 k3
  generalize hr : Render.skip 2 (Render.new backing) = x at k0 k1 k2 k3
  obtain ⟨a, r⟩ := x
  generalize hm : sampleMsg.to_wire r = y at k1 k2 k3
  obtain ⟨b, r'⟩ := y
  simp only at k0 k1 k2 k3
  subst k0 k1
  exact ⟨backing, sampleMsg, OffsetSample.rootMsg, r, r', 37, sampleMsg_fits, hr, hm, k2, by rw [k3]; exact (from_wire_iff _ _).mpr OffsetSample.rootMsg_at, rfl, by decide⟩

/-- **violated**: a second message that does not fit behind the first is not cut off itself; the flags and counts of the first are overwritten instead. Both calls
return `Ok`; the first message, which was whole, now says it is truncated and has no answer, and the header of the second promises an answer that is not there -/
theorem c97_second_violated : ∃ (backing : List UInt8) (m1 m2 : Response) (r1 r2 : Render) (n1 n2 : Nat), m1.Fits ∧ m2.Fits ∧
    m1.to_wire (Render.new backing) = (.ok n1, r1) ∧ Response.from_wire r1.data = .ok m1 ∧
    m2.to_wire r1 = (.ok n2, r2) ∧ Response.from_wire r2.data = .ok m1.cut ∧ m1.answer ≠ none ∧
    (Header.from_wire ⟨r2.data, n1⟩).1 = .ok m2.header ∧ m2.header.is_flag_set .Truncation = false ∧ m2.header.an_count = 1 ∧ r2.data.length = n1 + m2.headSize := by
  have k0 : (sampleMsg.to_wire (Render.new (List.replicate 60 0))).1 = .ok 35 := by decide +kernel
  have k1 : (sampleMsg.to_wire (Render.new (List.replicate 60 0))).2.data = sampleMsg.encodedBy .table := by decide +kernel
  have k2 : (OffsetSample.second.to_wire (sampleMsg.to_wire (Render.new (List.replicate 60 0))).2).1 = .ok 54 := by decide +kernel
  have k3 : (OffsetSample.second.to_wire (sampleMsg.to_wire (Render.new (List.replicate 60 0))).2).2.data = OffsetSample.damaged := by decide +kernel
  have k4 : (Header.from_wire ⟨OffsetSample.damaged, 35⟩).1 = .ok OffsetSample.second.header := by decide +kernel
  generalize hb : List.replicate 60 (0 : UInt8) = backing at k0 k1 k2 k3
  generalize hr : sampleMsg.to_wire (Render.new backing) = x at k0 k1 k2 k3
  obtain ⟨a, r1⟩ := x
  simp only at k0 k1 k2 k3
  generalize hm : OffsetSample.second.to_wire r1 = y at k2 k3
  obtain ⟨b, r2⟩ := y
  simp only at k2 k3
  subst k0 k2
  have h2 := (c73_decodes .table sampleMsg sampleMsg_fits []).2
  rw [List.append_nil] at h2
  exact ⟨backing, sampleMsg, OffsetSample.second, r1, r2, 35, 54, sampleMsg_fits, OffsetSample.second_fits, hr, by rw [k1]; exact h2, hm,
    by rw [k3]; exact (from_wire_iff _ _).mpr OffsetSample.cut_at, by decide, by rw [k3]; exact k4, by decide +kernel, rfl, by rw [k3]; decide +kernel⟩

end R53
