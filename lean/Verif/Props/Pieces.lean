import Verif.Props.SeekHist
import Verif.Props.Seek
import Verif.Props.Requests
/-!
# Exactly what comes out when record data, record sets, questions, sections, EDNS records, requests and NOTIFY requests are written to a renderer
with any history

`Seek` (Spec/Seek.lean) is the encoder with the search of the renderer: octets, names remembered, room asked for, or refusal. `Hist.dictionary` is what the
history made the renderer remember (C72).
-/
namespace R53

/-- the octets the encoder makes of something come out behind those already there if the encoder does not refuse and the room is there; otherwise the call
errs -/
def Hist.Puts (h : Hist) (w : St Render Unit) (e : Seek) : Prop :=
  (∀ x, e h.dictionary h.r.data.length = some x → h.r.data.length + x.room ≤ h.r.buffer.capacity →
    (w h.r).1 = .ok () ∧ (w h.r).2.data = h.r.data ++ x.octets) ∧
  ((∀ x, e h.dictionary h.r.data.length = some x → h.r.buffer.capacity < h.r.data.length + x.room) → (w h.r).1 = .err)

theorem Tracks.puts {w : St Render Unit} {e : Seek} (ht : Tracks w e) {backing : List UInt8} {h : Hist} (hr : Reached backing h) : h.Puts w e := by
  obtain ⟨g, hi⟩ := hr.dict
  have hl : h.r.data.length = h.r.buffer.len := OutBuf.contents_length hi.inv.buf
  unfold Hist.Puts
  rw [hl]
  refine ⟨fun x hx hfit => ?_, fun hno => ?_⟩
  · obtain ⟨r', e1, e2, -⟩ := ht.ok _ g _ hi.inv hi.has x hx hfit
    rw [e1]
    exact ⟨rfl, e2.data⟩
  · exact ht.err _ g _ hi.inv hi.has fun x hx hf => by have := hno x hx; omega

/-- record data of any type -/
theorem c36_exact {backing : List UInt8} {h : Hist} (hr : Reached backing h) (rd : RData) (ht : rd.Typed) : h.Puts rd.to_wire (Seek.data rd) :=
  (tracks_rdata ht).puts hr

/-- with its length in front, which is written modulo 2^16; one octet more than the length is asked for when the data is empty -/
theorem c38_exact {backing : List UInt8} {h : Hist} (hr : Reached backing h) (rd : RData) (ht : rd.Typed) :
    h.Puts (RRset.rdata_to_wire rd) (Seek.measured (Seek.data rd)) := (tracks_rdlen (tracks_rdata ht)).puts hr

/-- a record set, with or without data -/
theorem c39_exact {backing : List UInt8} {h : Hist} (hr : Reached backing h) (s : RRset) (ht : s.Typed) : h.Puts s.to_wire (Seek.set s) :=
  (tracks_rrset ht).puts hr

/-- a section -/
theorem c53_written {backing : List UInt8} {h : Hist} (hr : Reached backing h) (s : Section) (ht : ∀ sets, s = some sets → ∀ x ∈ sets, x.Typed) :
    h.Puts (Section.to_wire s) (Seek.section s) := (tracks_section ht).puts hr

theorem edns_flags_nat (e : Edns) : e.flags.toNat = 16777216 * e.extened_rcode.toNat + 65536 * e.version.toNat + (if e.dnssec_aware then 32768 else 0) := by
  have x1 : ∀ x : UInt8, (x.toUInt32 <<< 24).toNat = 2 ^ 24 * x.toNat := by apply forall_u8'; decide +kernel
  have v1 : ∀ v : UInt8, ((v.toUInt32 <<< 16) &&& 0x00ff0000).toNat = 2 ^ 16 * v.toNat := by apply forall_u8'; decide +kernel
  have hx := e.extened_rcode.toNat_lt
  have hv := e.version.toNat_lt
  have key : (e.extened_rcode.toUInt32 <<< 24 ||| ((e.version.toUInt32 <<< 16) &&& 0x00ff0000)).toNat = 2 ^ 16 * (256 * e.extened_rcode.toNat + e.version.toNat) := by
    rw [UInt32.toNat_or, x1, v1, ← Nat.two_pow_add_eq_or_of_lt (by omega)]
    omega
  cases hd : e.dnssec_aware
  · simp only [Edns.flags, Edns.EXTRCODE_SHIFT, Edns.VERSION_SHIFT, Edns.VERSION_MASK, hd, Bool.false_eq_true, if_false]
    rw [key]; omega
  · simp only [Edns.flags, Edns.EXTRCODE_SHIFT, Edns.VERSION_SHIFT, Edns.VERSION_MASK, Edns.EXTFLAG_DO, hd, if_true]
    rw [UInt32.toNat_or, key, show (0x00008000 : UInt32).toNat = 32768 from rfl, ← Nat.two_pow_add_eq_or_of_lt (by omega)]
    omega

/-- an EDNS record: the root, 41, UDP size, extended rcode, version, the DO bit, and no data, in any renderer with eleven octets left; otherwise the call
errs -/
theorem c55_exact {backing : List UInt8} {h : Hist} (hr : Reached backing h) (e : Edns) :
    (h.r.data.length + 11 ≤ h.r.buffer.capacity → (e.to_wire h.r).1 = .ok () ∧ (e.to_wire h.r).2.data = h.r.data ++
      ([0, 0, 41] ++ be16 e.udp_size ++ [e.extened_rcode, e.version, if e.dnssec_aware then 128 else 0, 0] ++ [0, 0])) ∧
    (h.r.buffer.capacity < h.r.data.length + 11 → (e.to_wire h.r).1 = .err) := by
  have hp := c39_exact hr e.to_rrset ⟨⟨[], by decide, rfl⟩, fun _ h => nomatch h⟩
  rw [c55_wire hr e]
  have hflag : be32 e.flags = [e.extened_rcode, e.version, if e.dnssec_aware then 128 else 0, 0] := by
    have := edns_flags_nat e
    have hx := e.extened_rcode.toNat_lt
    have hv := e.version.toNat_lt
    have r8 : ∀ v : UInt8, UInt8.ofNat v.toNat = v := fun v => UInt8.ofNat_toNat
    cases hd : e.dnssec_aware <;> rw [hd] at this <;> simp only [Bool.false_eq_true, if_false, if_true] at this ⊢ <;> rw [be32, this]
    · rw [show (16777216 * e.extened_rcode.toNat + 65536 * e.version.toNat + 0) / 16777216 = e.extened_rcode.toNat by omega,
        show (16777216 * e.extened_rcode.toNat + 65536 * e.version.toNat + 0) / 65536 % 256 = e.version.toNat by omega,
        show (16777216 * e.extened_rcode.toNat + 65536 * e.version.toNat + 0) / 256 % 256 = 0 by omega,
        show (16777216 * e.extened_rcode.toNat + 65536 * e.version.toNat + 0) % 256 = 0 by omega, r8, r8]
      rfl
    · rw [show (16777216 * e.extened_rcode.toNat + 65536 * e.version.toNat + 32768) / 16777216 = e.extened_rcode.toNat by omega,
        show (16777216 * e.extened_rcode.toNat + 65536 * e.version.toNat + 32768) / 65536 % 256 = e.version.toNat by omega,
        show (16777216 * e.extened_rcode.toNat + 65536 * e.version.toNat + 32768) / 256 % 256 = 128 by omega,
        show (16777216 * e.extened_rcode.toNat + 65536 * e.version.toNat + 32768) % 256 = 0 by omega, r8, r8]
      rfl
  have hset : Seek.set e.to_rrset h.dictionary h.r.data.length = some
      ⟨[0, 0, 41] ++ be16 e.udp_size ++ [e.extened_rcode, e.version, if e.dnssec_aware then 128 else 0, 0] ++ [0, 0], h.dictionary, 11⟩ := by
    have hc : (RRClass.new e.udp_size).to_u16 = e.udp_size := RRClass.to_u16_new _
    have hl : (Name.root).labelList = [] := by decide +kernel
    rw [← hflag]
    simp only [Seek.set, Seek.owner, Seek.seq, Seek.name, Seek.octets, Edns.to_rrset, if_true, hl, seekLabels, Option.map_some, Option.bind_some, hc]
    rfl
  exact ⟨fun hfit => hp.1 _ hset hfit, fun hno => hp.2 fun x hx => by rw [hset] at hx; cases hx; exact hno⟩

/-- what a renderer makes of a NOTIFY request -/
def NotifyRequest.written (q : NotifyRequest) : Option Written :=
  Seek.seq (Seek.header q.header) (Seek.seq (Seek.question q.question) (match q.soa with | none => Seek.octets [] | some s => Seek.set s)) [] 0

/-- a NOTIFY request, without conditions on names: written if and only if no name is refused and the room is there -/
theorem c57_request_exact (q : NotifyRequest) (hq : ∃ ls, ValidName ls ∧ q.question.name = Name.ofLabels ls) (hs : ∀ s, q.soa = some s → s.Typed)
    (backing : List UInt8) :
    (∀ x, q.written = some x → x.room ≤ backing.length → ∃ r, q.to_wire (Render.new backing) = (.ok x.octets.length, r) ∧ r.data = x.octets) ∧
    ((∀ x, q.written = some x → backing.length < x.room) → (q.to_wire (Render.new backing)).1 = .err) := by
  have hsoa : Tracks (soaWire q.soa) (match q.soa with | none => Seek.octets [] | some s => Seek.set s) := by
    cases h : q.soa with
    | none => exact Tracks.nil
    | some s => exact tracks_rrset (hs s h)
  have hf := (tracks_header q.header).seq ((tracks_question (q := q.question) hq).seq hsoa)
  have hcap : (Render.new backing).buffer.capacity = backing.length := by simp [Render.new, OutBuf.new, OutBuf.capacity]
  have hdat : (Render.new backing).data = [] := by simp [Render.data, OutBuf.contents, Render.new, OutBuf.new]
  have hl0 : (Render.new backing).buffer.len = 0 := rfl
  have hd0 := (DictOK.new backing Mem.none).toDictHas
  rw [notify_to_wire, len_last]
  refine ⟨fun x hx hfit => ?_, fun hno => ?_⟩
  · obtain ⟨r, a1, a2, -⟩ := hf.ok (Render.new backing) Mem.none [] (RInv.new _ _ fun _ => rfl) hd0 x (by rw [hl0]; exact hx) (by rw [hl0, hcap]; omega)
    have hd : r.data = x.octets := by rw [a2.data, hdat, List.nil_append]
    have hl : r.len = r.data.length := (OutBuf.contents_length a2.inv.buf).symm
    refine ⟨r, ?_, hd⟩
    rw [a1]
    simp only
    rw [hl, hd]
  · have h1 := hf.err (Render.new backing) Mem.none [] (RInv.new _ _ fun _ => rfl) hd0
      (fun x hx => by rw [hl0] at hx; have := hno x hx; rw [hl0, hcap]; omega)
    rcases h2 : (q.header.to_wire >>= fun _ => (q.question.to_wire >>= fun _ => soaWire q.soa)) (Render.new backing) with ⟨x | _ | _, r⟩ <;>
      rw [h2] at h1 <;> first | rfl | cases h1

namespace PieceSample
/-- a renderer into which `a.` was written -/
def hist : Hist := (Hist.step ⟨Render.new (List.replicate 64 0), fun _ => false, []⟩ (.name (Name.ofLabels [[97]]) true))
theorem hist_reached : Reached (List.replicate 64 0) hist := Reached.step Reached.new ⟨[[97]], by decide, rfl⟩
def mx : RData := ⟨.MX, [.u16 10, .name (Name.ofLabels [[98], [97]])]⟩
theorem mx_typed : mx.Typed := ⟨_, rfl, trivial, ⟨[[98], [97]], by decide, rfl⟩, trivial⟩
/-- the premises are met, and the name `b.a.` in MX data ends in a pointer to the first name; an EDNS record behind it -/
theorem c36_example : Reached (List.replicate 64 0) hist ∧ mx.Typed ∧ hist.dictionary = [([[97]], 0)] ∧ hist.r.data = [1, 97, 0] ∧
    Seek.data mx hist.dictionary hist.r.data.length = some ⟨[0, 10, 1, 98, 192, 0], [([[97]], 0), ([[98], [97]], 5)], 6⟩ ∧
    Seek.measured (Seek.data mx) hist.dictionary hist.r.data.length = some ⟨[0, 6, 0, 10, 1, 98, 192, 0], [([[97]], 0), ([[98], [97]], 7)], 8⟩ ∧
    (RRset.rdata_to_wire mx hist.r).2.data = [1, 97, 0, 0, 6, 0, 10, 1, 98, 192, 0] :=
  ⟨hist_reached, mx_typed, by decide +kernel, by decide +kernel, by decide +kernel, by decide +kernel, by decide +kernel⟩
/-- a NOTIFY with SOA -/
theorem c57_written_example : (∃ ls, ValidName ls ∧ AskSample.note.question.name = Name.ofLabels ls) ∧ (∀ s, AskSample.note.soa = some s → s.Typed) ∧
    AskSample.note.written.map Written.octets = some AskSample.note.encoded :=
  ⟨AskSample.c57_example.1, fun s hs => (AskSample.c57_example.2.1 s hs).1, by decide +kernel⟩
end PieceSample

end R53
