import Verif.Proofs.Rdata
import Verif.Model.RRset
/-!
# Resource record sets on the wire
-/
namespace R53

/-! ## sizes -/

/-- what is appended is not empty and not larger than `n` -/
def Sized (w : St Render Unit) (n : Nat) : Prop := EmitsP w fun _ _ out => out.length ≤ n ∧ (1 ≤ n → 1 ≤ out.length)

theorem Sized.seq {w1 w2 : St Render Unit} {n m : Nat} (h1 : Sized w1 n) (h2 : Sized w2 m) : Sized (w1 >>= fun _ => w2) (n + m) :=
  EmitsP.seq h1 h2 fun _ _ _ _ _ h1 h2 _ => by rw [List.length_append]; omega

theorem Sized.nil : Sized (pure ()) 0 := fun r _ hr => Or.inl ⟨r, [], rfl, Wrote.nil hr, by simp⟩

theorem Sized.octets {w : St Render Unit} {d : List UInt8} (h : EmitsP w fun _ _ out => out = d) : Sized w d.length :=
  EmitsP.mono h fun _ _ _ h => by rw [h]; omega

theorem sized_name {n : Name} (h : n.WF) (c : Bool) : Sized (Render.write_name n c) n.raw.length := by
  obtain ⟨ls, hv, rfl⟩ := h
  intro r g hr
  rcases Render.write_name_spec hv c hr with ⟨r', out, h1, h2, h3, h4, h5, h6, h7⟩ | ⟨r', d, h1, h2, h3, h4, h5⟩
  · refine Or.inl ⟨r', out, h1, ⟨h3, h4, h5⟩, ?_⟩
    rw [show (Name.ofLabels ls).raw = nameWire ls by rw [nameWire_eq]; rfl]
    rcases h2 with rfl | ⟨_, i, off, k1, k2, k3, rfl⟩
    · exact ⟨Nat.le_refl _, fun _ => by simp [nameWire]⟩
    · have htd := congrArg List.length (wire_take_drop ls i)
      rw [List.length_append, List.drop_eq_getElem_cons k1, wire_length_cons] at htd
      simp only [List.length_append, List.length_cons, List.length_nil, nameWire]
      omega
  · refine Or.inr ⟨r', h1, ?_, g, Mem.le_refl g, h4⟩
    rcases h3 with h3 | h3
    · exact ⟨d, h2, h3⟩
    · exact ⟨[], by simpa [OutBuf.Inv] using hr.buf, by rw [h3, OutBuf.append_nil]⟩

namespace Field

theorem sized_bytesField (d : List UInt8) : Sized (bytes_to_wire d) (d.length + 1) := by
  rw [Nat.add_comm]
  exact Sized.seq (Sized.octets (EmitsP.mono (emits_u8' _) fun _ _ _ h => h.2)) (Sized.octets (EmitsP.mono (emits_bytes' d) fun _ _ _ h => h.2))

theorem sized_text (ds : List (List UInt8)) : Sized (text_to_wire ds) (ds.map fun d => d.length + 1).sum := by
  induction ds with
  | nil => exact Sized.nil
  | cons d ds ih =>
    rw [List.map_cons, List.sum_cons]
    exact Sized.seq (sized_bytesField d) ih

theorem sized_field (c : Codec) (v : FieldVal) (hv : FieldFits c v) : Sized (to_wire c v) (v.size c) := by
  cases c <;> cases v <;> simp only [FieldFits] at hv <;> unfold to_wire FieldVal.size
  case name.name n => exact sized_name hv true
  case ipv4.ip o => exact Sized.octets (EmitsP.mono (emits_octets o) fun _ _ _ h => h.1)
  case ipv6.ip o => exact Sized.octets (EmitsP.mono (emits_octets o) fun _ _ _ h => h.1)
  case u8.u8 v => exact Sized.octets (EmitsP.mono (emits_u8' v) fun _ _ _ h => h.2)
  case u16.u16 v => exact Sized.octets (EmitsP.mono (emits_u16' v) fun _ _ _ h => h.2)
  case u32.u32 v => exact Sized.octets (EmitsP.mono (emits_u32' v) fun _ _ _ h => h.2)
  case rrtype.rrtype t => exact Sized.octets (EmitsP.mono (emits_u16' t.as_u16) fun _ _ _ h => h.2)
  case text.text ds => exact sized_text ds
  case byte_binary.bytes d => exact sized_bytesField d
  case binary.bytes d => exact Sized.octets (EmitsP.mono (emits_bytes' d) fun _ _ _ h => h.2)

theorem sized_all (cs : List (Codec × Disp)) (vs : List FieldVal) (hv : FieldsFit cs vs) : Sized (allTo cs vs) (fieldsSize cs vs) := by
  induction cs generalizing vs with
  | nil =>
    cases vs with
    | nil => exact Sized.nil
    | cons v vs => simp [FieldsFit] at hv
  | cons c cs ih =>
    cases vs with
    | nil => simp [FieldsFit] at hv
    | cons v vs => exact Sized.seq (sized_field c.1 v hv.1) (ih vs hv.2)

end Field

theorem sized_rdata {rd : RData} (h : rd.Fits) : Sized rd.to_wire rd.size := by
  obtain ⟨cs, hs, hf⟩ := h
  unfold RData.to_wire RData.size
  rw [hs]
  exact Field.sized_all cs rd.fields hf

/-! ## the length hole -/

theorem Mem.none_of_le {g : Mem} {c : List UInt8} (h : g.le (memOf c)) {i : Nat} (hi : c.length ≤ i) : g i = none := by
  match hg : g i with
  | none => rfl
  | some x =>
    have := (List.getElem?_eq_some_iff.mp (h i x hg)).1
    omega

/-- the octets that were in the backing buffer count as appended -/
theorem OutBuf.skipped {b : OutBuf} {n : Nat} (h : b.len + n ≤ b.capacity) :
    ∃ d, d.length = n ∧ b.len + d.length ≤ b.capacity ∧ ({ b with len := b.len + n } : OutBuf) = b.append d := by
  unfold OutBuf.capacity at *
  refine ⟨(b.data.drop b.len).take n, by simp; omega, by simp; omega, ?_⟩
  have hl : ((b.data.drop b.len).take n).length = n := by simp; omega
  simp only [OutBuf.append, overwrite, hl, OutBuf.mk.injEq, and_true]
  rw [List.append_assoc, ← List.drop_drop, List.take_append_drop, List.take_append_drop]

theorem overwrite_before (l : List UInt8) (p : Nat) (a b : List UInt8) (h : p + a.length + b.length ≤ l.length) :
    overwrite (overwrite l (p + a.length) b) p a = overwrite l p (a ++ b) := by
  unfold overwrite
  apply List.ext_getElem?
  intro i
  simp only [List.getElem?_append, List.length_append, List.length_take, List.getElem?_take, List.length_drop, List.getElem?_drop]
  grind

/-- the RDLENGTH and the data: the length is that of the data as written (modulo 2^16) -/
theorem emits_rdlen {rd : RData} {P : Mem → Nat → List UInt8 → Prop} (h : EmitsP rd.to_wire P) :
    EmitsP (RRset.rdata_to_wire rd) fun g p out => ∃ body g0, out = be16 (UInt16.ofNat body.length) ++ body ∧ g0.le g ∧
      P g0 (p + 2) body := by
  intro r g hr
  unfold RRset.rdata_to_wire
  rw [St.get_bind]
  simp only [Render.skip]
  by_cases hs : r.buffer.len + 2 < r.buffer.capacity
  · have hsk : Render.onBuffer (OutBuf.skip 2) r = (.ok (), { r with buffer := { r.buffer with len := r.buffer.len + 2 } }) := by
      rw [Render.onBuffer_apply]; unfold OutBuf.skip; rw [if_pos hs]
    rw [St.bind_ok hsk]
    obtain ⟨st, k1, k2, k3⟩ := OutBuf.skipped (b := r.buffer) (n := 2) (by omega)
    have hl : r.buffer.contents.length = r.buffer.len := OutBuf.contents_length hr.buf
    have hr1 : RInv { r with buffer := { r.buffer with len := r.buffer.len + 2 } } g := by
      rw [k3]
      have hi : (r.buffer.append st).Inv := by
        show (r.buffer.append st).len ≤ (r.buffer.append st).capacity
        rw [OutBuf.append_capacity k2]; exact k2
      refine RInv.setBuffer hr hi ?_
      rw [OutBuf.append_contents k2]
      exact Mem.le_append hr.mem _
    rcases h _ g hr1 with ⟨r2, body, e1, e2, e3⟩ | ⟨r2, e1, e2⟩
    · rw [St.bind_ok e1, St.get_bind]
      have hlen : r2.buffer.len = r.buffer.len + 2 + body.length := e2.len
      have hfit : r.buffer.len + 2 + body.length ≤ r.buffer.capacity := e2.fit
      rw [St.lift_ok_bind (csub_ok (by omega)), St.lift_ok_bind (csub_ok (by omega))]
      rw [show r2.buffer.len - r.buffer.len - 2 = body.length by omega]
      rw [Render.write_u16_at, Render.write_u16_at_r _ _ _ e2.inv.buf, if_pos (by rw [be16_length]; omega)]
      have hbuf : (⟨overwrite r2.buffer.data r.buffer.len (be16 (UInt16.ofNat body.length)), r2.buffer.len⟩ : OutBuf) =
          r.buffer.append (be16 (UInt16.ofNat body.length) ++ body) := by
        rw [OutBuf.append, e2.buf]
        simp only [OutBuf.append, OutBuf.mk.injEq]
        refine ⟨?_, by simp [be16_length]; omega⟩
        rw [← overwrite_before _ _ _ _ (by rw [be16_length]; exact hfit), be16_length]
      have hfit2 : r.buffer.len + (be16 (UInt16.ofNat body.length) ++ body).length ≤ r.buffer.capacity := by
        rw [List.length_append, be16_length]; omega
      have hgle : (g.ext (r.buffer.len + 2) body).le (g.ext r.buffer.len (be16 (UInt16.ofNat body.length) ++ body)) := by
        intro i x hx
        rw [← Mem.ext_ext, be16_length]
        unfold Mem.ext at hx ⊢
        split at hx
        · rename_i hc; rw [if_pos hc]; exact hx
        · rename_i hc
          rw [if_neg hc]
          have : ¬ r.buffer.len ≤ i := by
            intro hi
            rw [Mem.none_of_le hr.mem (by rw [hl]; exact hi)] at hx
            simp at hx
          rw [if_neg (by omega)]; exact hx
      have hmem : (g.ext r.buffer.len (be16 (UInt16.ofNat body.length) ++ body)).le
          (memOf (r.buffer.append (be16 (UInt16.ofNat body.length) ++ body)).contents) := by
        rw [OutBuf.append_contents hfit2, ← hl]
        exact Mem.ext_le hr.mem _
      refine Or.inl ⟨_, be16 (UInt16.ofNat body.length) ++ body, rfl, ⟨hfit2, hbuf, ?_⟩, body, _, rfl, hgle, e3⟩
      rw [hbuf]
      refine RInv.le (RInv.setBuffer e2.inv ?_ (Mem.le_trans hgle hmem)) hgle hmem
      show (r.buffer.append _).len ≤ (r.buffer.append _).capacity
      rw [OutBuf.append_capacity hfit2]; exact hfit2
    · refine Or.inr ⟨r2, by rw [St.bind_err e1], ?_, e2.inv⟩
      obtain ⟨d, d1, d2⟩ := e2.app
      refine ⟨st ++ d, ?_, ?_⟩
      · have : r.buffer.len + 2 + d.length ≤ r.buffer.capacity := d1
        rw [List.length_append]; omega
      · rw [d2]
        show OutBuf.append { r.buffer with len := r.buffer.len + 2 } d = _
        rw [k3, OutBuf.append_append]
        have : r.buffer.len + 2 + d.length ≤ r.buffer.capacity := d1
        omega
  · have hsk : Render.onBuffer (OutBuf.skip 2) r = (.err, r) := by
      rw [Render.onBuffer_apply]; unfold OutBuf.skip; rw [if_neg hs]
    exact Or.inr ⟨r, by rw [St.bind_err hsk], Broke.refl hr⟩

/-! ## records -/

/-- a record of the set -/
def RRset.record (s : RRset) (rd : RData) : RRset := { s with rdatas := [rd] }

/-- one record reads back -/
theorem emits_rr {s : RRset} (hn : s.name.WF) (ht : s.typ.Canonical) (hc : s.class_.Canonical) {rd : RData} (hk : rd.kind = s.typ)
    (hf : rd.Fits) (hsz : rd.SizeOK) : Emits (s.rr_to_wire rd) RRset.from_wire (s.record rd) := by
  refine Emits.bind (emits_wfname hn true) (Emits.bind (emits_rrtype ht) (Emits.bind (emits_rrclass hc) (Emits.bind (emits_u32 s.ttl) ?_)))
  refine EmitsP.mono (EmitsP.recorded (emits_rdlen (EmitsP.and (emits_rdata hf) (sized_rdata hf)))) ?_
  rintro g p out ⟨⟨body, g0, rfl, hle, h1, h2, h3⟩, hrec⟩
  have hb1 := h3 hsz.1
  have hb2 := hsz.2
  have hu : (UInt16.ofNat body.length).toNat = body.length := by rw [UInt16.toNat_ofNat']; omega
  intro msg hm hp
  obtain ⟨rest, hr⟩ := Mem.ext_drop (Mem.le_trans hrec hm)
  have hend := Mem.ext_end' (Mem.le_trans hrec hm) hp
  rw [List.length_append, be16_length] at hend
  rw [List.append_assoc] at hr
  rw [St.bind_ok (InBuf.read_u16_be (b := ⟨msg, p⟩) hr)]
  rw [if_neg (by intro h0; rw [← UInt16.toNat_inj, hu] at h0; exact absurd h0 (by simp; intro h; rw [h] at hb1; simp at hb1))]
  have h4 := (h1 (by omega)).le hle msg hm (by omega)
  rw [hk] at h4
  rw [St.bind_ok h4, List.length_append, be16_length, ← Nat.add_assoc]
  rfl

/-- an empty set (as `Edns` writes it) -/
theorem emits_rr_empty {s : RRset} (hn : s.name.WF) (ht : s.typ = .OPT) (hc : s.class_.Canonical) (hs : s.rdatas = []) :
    Emits s.to_wire RRset.from_wire s := by
  unfold RRset.to_wire
  rw [if_pos hs]
  refine Emits.bind (emits_wfname hn true) (Emits.bind (emits_rrtype (by rw [ht]; decide)) (Emits.bind (emits_rrclass hc) (Emits.bind (emits_u32 s.ttl)
    (Emits.map (emits_u16 0) fun b => ?_))))
  rw [if_pos rfl, if_neg (by simp [ht])]
  obtain ⟨a, b, c, d, e⟩ := s
  simp only at hs
  subst hs
  rfl

/-- reading `n` records -/
def readRRs : Nat → St InBuf (List RRset)
  | 0 => pure []
  | n + 1 => do
    let x ← RRset.from_wire
    let xs ← readRRs n
    pure (x :: xs)

theorem emits_rrs {s : RRset} (hn : s.name.WF) (ht : s.typ.Canonical) (hc : s.class_.Canonical) (rds : List RData)
    (hk : ∀ rd ∈ rds, rd.kind = s.typ ∧ rd.Fits ∧ rd.SizeOK) : Emits (s.rrs_to_wire rds) (readRRs rds.length) (rds.map s.record) := by
  induction rds with
  | nil => exact Emits.pure _
  | cons rd rds ih =>
    obtain ⟨h1, h2, h3⟩ := hk rd (by simp)
    refine Emits.bind (emits_rr hn ht hc h1 h2 h3) (Emits.map (ih fun x hx => hk x (by simp [hx])) fun b => rfl)

theorem safe_rrset : Safe false RRset.from_wire fun p s e => p + 10 < e ∧ s.name.WF ∧ s.typ.Canonical ∧ s.class_.Canonical ∧
    (s.rdatas = [] ∧ s.typ = .OPT ∨ ∃ rd, s.rdatas = [rd] ∧ rd.kind = s.typ ∧ rd.Fits) := by
  unfold RRset.from_wire
  refine Safe.bind safe_name fun p n m _ h => Safe.bind safe_rrtype fun p2 t m2 _ h2 => Safe.bind safe_rrclass fun p3 c m3 _ h3 =>
    Safe.bind safe_u32 fun p4 ttl m4 _ h4 => Safe.bind safe_u16 fun p5 rdlen m5 _ h5 => ?_
  by_cases h0 : rdlen = 0
  · rw [if_pos h0]
    by_cases ho : t = .OPT
    · rw [if_neg (by simp [ho])]
      refine Safe.pure fun q _ _ _ _ _ => ⟨by omega, h.1, h2.2, h3.2, Or.inl ⟨rfl, ho⟩⟩
    · rw [if_pos (by simp [ho])]; exact Safe.fail
  · rw [if_neg h0]
    refine Safe.bind (RData.safe_from_wire t rdlen).weak fun p6 rd m6 _ h6 => Safe.pure fun q _ _ _ _ _ _ =>
      ⟨by omega, h.1, h2.2, h3.2, Or.inr ⟨rd, rfl, h6.1, h6.2.1⟩⟩

end R53
