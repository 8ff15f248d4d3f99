import Verif.Proofs.Message
import Verif.Proofs.FlagWord
/-!
# Writing whole messages
-/
namespace R53

/-! ## writers that end in `Ok` or `Err` and only append -/

def Total (w : St Render Unit) : Prop := EmitsP w fun _ _ _ => True

theorem EmitsP.total {w : St Render Unit} {P : Mem → Nat → List UInt8 → Prop} (h : EmitsP w P) : Total w := EmitsP.mono h fun _ _ _ _ => trivial
theorem Total.seq {w1 w2 : St Render Unit} (h1 : Total w1) (h2 : Total w2) : Total (w1 >>= fun _ => w2) :=
  EmitsP.seq h1 h2 fun _ _ _ _ _ _ _ _ => trivial
theorem Total.pure : Total (Pure.pure ()) := (Emits.pure ()).total

theorem total_name {n : Name} (h : n.WF) (c : Bool) : Total (Render.write_name n c) := (emits_wfname h c).total
theorem total_u16 (v : UInt16) : Total (Render.write_u16 v) := (emits_u16 v).total
theorem total_u32 (v : UInt32) : Total (Render.write_u32 v) := (emits_u32 v).total

theorem total_text (ds : List (List UInt8)) : Total (Field.text_to_wire ds) := (Field.sized_text ds).total

theorem total_field (c : Codec) (v : FieldVal) (hv : FieldTyped c v) : Total (Field.to_wire c v) := by
  cases c <;> cases v <;> simp only [FieldTyped] at hv <;> unfold Field.to_wire
  case name.name n => exact total_name hv true
  case ipv4.ip o => exact (Field.emits_octets o).total
  case ipv6.ip o => exact (Field.emits_octets o).total
  case u8.u8 v => exact (emits_u8' v).total
  case u16.u16 v => exact (emits_u16' v).total
  case u32.u32 v => exact (emits_u32' v).total
  case rrtype.rrtype t => exact (emits_u16' t.as_u16).total
  case text.text ds => exact total_text ds
  case byte_binary.bytes d => exact (Field.sized_bytesField d).total
  case binary.bytes d => exact (emits_bytes' d).total

theorem total_fields (cs : List (Codec × Disp)) (vs : List FieldVal) (hv : FieldsTyped cs vs) : Total (Field.allTo cs vs) := by
  induction cs generalizing vs with
  | nil =>
    cases vs with
    | nil => exact Total.pure
    | cons v vs => simp [FieldsTyped] at hv
  | cons c cs ih =>
    cases vs with
    | nil => simp [FieldsTyped] at hv
    | cons v vs => exact Total.seq (total_field c.1 v hv.1) (ih vs hv.2)

theorem total_rdata {rd : RData} (h : rd.Typed) : Total rd.to_wire := by
  obtain ⟨cs, hs, hf⟩ := h
  unfold RData.to_wire
  rw [hs]
  exact total_fields cs rd.fields hf

theorem total_rr {s : RRset} (hn : s.name.WF) {rd : RData} (h : rd.Typed) : Total (s.rr_to_wire rd) :=
  Total.seq (total_name hn true) (Total.seq (total_u16 _) (Total.seq (total_u16 _) (Total.seq (total_u32 _) (emits_rdlen (total_rdata h)).total)))

theorem total_rrs {s : RRset} (hn : s.name.WF) (rds : List RData) (h : ∀ rd ∈ rds, rd.Typed) : Total (s.rrs_to_wire rds) := by
  induction rds with
  | nil => exact Total.pure
  | cons rd rds ih => exact Total.seq (total_rr hn (h rd (by simp))) (ih fun x hx => h x (by simp [hx]))

theorem total_rrset {s : RRset} (h : s.Typed) : Total s.to_wire := by
  unfold RRset.to_wire
  split
  · exact Total.seq (total_name h.1 true) (Total.seq (total_u16 _) (Total.seq (total_u16 _) (Total.seq (total_u32 _) (total_u16 _))))
  · exact total_rrs h.1 _ h.2

theorem total_sets (sets : List RRset) (h : ∀ s ∈ sets, s.Typed) : Total (Section.toLoop sets) := by
  induction sets with
  | nil => exact Total.pure
  | cons s sets ih => exact Total.seq (total_rrset (h s (by simp))) (ih fun x hx => h x (by simp [hx]))

theorem total_section {s : Section} (h : ∀ sets, s = some sets → ∀ x ∈ sets, x.Typed) : Total (Section.to_wire s) := by
  match s with
  | none => exact Total.pure
  | some sets => exact total_sets sets (h sets rfl)

theorem FieldFits.typed {c : Codec} {v : FieldVal} (h : FieldFits c v) : FieldTyped c v := by
  cases c <;> cases v <;> simp_all [FieldFits, FieldTyped]

theorem FieldsFit.typed {cs : List (Codec × Disp)} {vs : List FieldVal} (h : FieldsFit cs vs) : FieldsTyped cs vs := by
  induction cs generalizing vs with
  | nil =>
    cases vs with
    | nil => trivial
    | cons v vs => simp [FieldsFit] at h
  | cons c cs ih =>
    cases vs with
    | nil => simp [FieldsFit] at h
    | cons v vs => exact ⟨h.1.typed, ih h.2⟩

theorem RData.Fits.typed {rd : RData} (h : rd.Fits) : rd.Typed := by
  obtain ⟨cs, h1, h2⟩ := h; exact ⟨cs, h1, h2.typed⟩

theorem RRset.Fits.typed {s : RRset} (h : s.Fits) : s.Typed := ⟨h.name, fun rd hrd => (h.data rd hrd).2.1.typed⟩

theorem SectionFits.typed {t : SectionType} {s : Section} (h : SectionFits t s) : ∀ sets, s = some sets → ∀ x ∈ sets, x.Typed := by
  rintro sets rfl x hx
  exact (h.2.1 x hx).typed

/-! ## the header -/

/-- appends exactly `d` and touches nothing else -/
def Oct (w : St Render Unit) (d : List UInt8) : Prop :=
  ∀ r : Render, r.buffer.len + d.length ≤ r.buffer.capacity → w r = (.ok (), { r with buffer := r.buffer.append d })

theorem Oct.seq {w1 w2 : St Render Unit} {x y : List UInt8} (h1 : Oct w1 x) (h2 : Oct w2 y) : Oct (w1 >>= fun _ => w2) (x ++ y) := by
  intro r hr
  rw [List.length_append] at hr
  rw [St.bind_ok (h1 r (by omega)), h2 _ (by
    show (r.buffer.append x).len + y.length ≤ (r.buffer.append x).capacity
    rw [OutBuf.append_capacity (by omega)]; show r.buffer.len + x.length + y.length ≤ _; omega)]
  simp only
  rw [OutBuf.append_append (by omega)]

theorem oct_u16 (v : UInt16) : Oct (Render.write_u16 v) (be16 v) := by
  intro r hr
  rw [Render.write_u16, Render.write_u16_r, if_pos (by simpa using hr)]

theorem oct_header (h : Header) : Oct h.to_wire h.octets :=
  (oct_u16 _).seq ((oct_u16 _).seq ((oct_u16 _).seq ((oct_u16 _).seq ((oct_u16 _).seq (oct_u16 _)))))

/-- no octet recorded -/
def Mem.none : Mem := fun _ => Option.none

theorem Header.octets_length (h : Header) : h.octets.length = 12 := rfl

/-- a header reads back from any message that begins with its octets -/
theorem header_reads (h : Header) : Reads (Mem.ext Mem.none 0 h.octets) 0 Header.from_wire h.masked 12 := by
  have hr : RInv (Render.new (List.replicate 12 0)) Mem.none := RInv.new _ _ fun _ => rfl
  rcases (Header.emits_header h).and (Header.emits_header_octets h) _ _ hr with ⟨r', out, h1, h2, h3, rfl⟩ | ⟨r', h1, h2⟩
  · exact h3
  · rw [oct_header h _ (by simp [Header.octets_length, Render.new, OutBuf.new, OutBuf.capacity])] at h1
    simp at h1

theorem mem_prefix (d rest : List UInt8) : (Mem.ext Mem.none 0 d).le (memOf (d ++ rest)) := by
  have := Mem.ext_le (g := Mem.none) (c := []) (by intro i x h; simp [Mem.none] at h) d
  rw [List.nil_append] at this
  exact Mem.le_append this rest

/-! ## truncation -/

/-- the header of a truncated message -/
def Header.truncated (h : Header) : Header := { h.set_flag .Truncation true with an_count := 0, ns_count := 0, ar_count := 0 }

theorem truncated_octets (h : Header) (rest : List UInt8) :
    overwrite (overwrite (overwrite (overwrite (h.octets ++ rest) 2 (be16 (h.set_flag .Truncation true).header_flag)) 6 (be16 0)) 8 (be16 0)) 10
      (be16 0) = h.truncated.octets ++ rest := by
  simp [Header.octets, be16, overwrite, Header.truncated, Header.header_flag, Header.set_flag]

/-- patching the octets of a full renderer -/
theorem write_u16_at_data {r : Render} (hb : r.buffer.Inv) (p : Nat) (v : UInt16) (h : p + 2 ≤ r.data.length) :
    ∃ r', Render.write_u16_at p v r = (.ok (), r') ∧ r'.buffer.Inv ∧ r'.buffer.capacity = r.buffer.capacity ∧ r'.data = overwrite r.data p (be16 v) := by
  have hl : r.data.length = r.buffer.len := OutBuf.contents_length hb
  rw [Render.write_u16_at, Render.write_u16_at_r _ _ _ hb, if_pos (by rw [be16_length]; omega)]
  have hcap : (overwrite r.buffer.data p (be16 v)).length = r.buffer.data.length := overwrite_length (by
    have := hb; simp only [OutBuf.Inv, OutBuf.capacity] at this; rw [be16_length]; omega)
  refine ⟨_, rfl, ?_, hcap, ?_⟩
  · show r.buffer.len ≤ (overwrite r.buffer.data p (be16 v)).length
    rw [hcap]; exact hb
  · exact OutBuf.contents_overwrite hb (by rw [be16_length]; omega)

theorem unwrap_ok {σ α : Type} {w : St σ α} {s s' : σ} {a : α} (h : w s = (.ok a, s')) : Response.unwrap w s = (.ok a, s') := by
  unfold Response.unwrap; rw [h]

theorem unwrap_err {σ α : Type} {w : St σ α} {s s' : σ} (h : w s = (.err, s')) : Response.unwrap w s = (.panic, s') := by
  unfold Response.unwrap; rw [h]

/-- `truncate` on a message of header, question and some more octets; with no more octets it panics -/
theorem truncate_spec (m : Response) {r : Render} (hb : r.buffer.Inv) (q d : List UInt8) (hd : r.data = m.header.octets ++ q ++ d) :
    (d ≠ [] → ∃ r', m.truncate (12 + q.length) r = (.ok (), r') ∧ r'.buffer.Inv ∧ r'.buffer.capacity = r.buffer.capacity ∧
      r'.data = m.header.truncated.octets ++ q) ∧
    (d = [] → ∃ r', m.truncate (12 + q.length) r = (.panic, r')) := by
  have hlen : r.data.length = 12 + q.length + d.length := by rw [hd]; simp only [List.length_append, Header.octets_length]
  obtain ⟨r1, e1, b1, c1, d1⟩ := write_u16_at_data hb 2 (m.header.set_flag .Truncation true).header_flag (by omega)
  have l1 : r1.data.length = r.data.length := by rw [d1]; exact overwrite_length (by rw [be16_length]; omega)
  obtain ⟨r2, e2, b2, c2, d2⟩ := write_u16_at_data b1 6 0 (by omega)
  have l2 : r2.data.length = r.data.length := by rw [d2, overwrite_length (by rw [be16_length]; omega), l1]
  obtain ⟨r3, e3, b3, c3, d3⟩ := write_u16_at_data b2 8 0 (by omega)
  have l3 : r3.data.length = r.data.length := by rw [d3, overwrite_length (by rw [be16_length]; omega), l2]
  obtain ⟨r4, e4, b4, c4, d4⟩ := write_u16_at_data b3 10 0 (by omega)
  have l4 : r4.data.length = r.data.length := by rw [d4, overwrite_length (by rw [be16_length]; omega), l3]
  have hdata : r4.data = m.header.truncated.octets ++ (q ++ d) := by
    rw [d4, d3, d2, d1, hd, List.append_assoc, truncated_octets]
  have hbl : r4.buffer.len = 12 + q.length + d.length := by rw [← hlen, ← l4]; exact (OutBuf.contents_length b4).symm
  have hrun : m.truncate (12 + q.length) r = Response.unwrap (Render.truncate (12 + q.length)) r4 := by
    unfold Response.truncate
    rw [St.bind_ok (unwrap_ok e1), St.bind_ok (unwrap_ok e2), St.bind_ok (unwrap_ok e3), St.bind_ok (unwrap_ok e4)]
  constructor
  · intro hne
    have hpos : 0 < d.length := List.length_pos_iff.mpr hne
    have ht : Render.truncate (12 + q.length) r4 = (.ok (), { r4 with buffer := { r4.buffer with len := 12 + q.length } }) := by
      rw [Render.truncate, Render.onBuffer_apply]; unfold OutBuf.truncate; rw [if_pos (by omega)]
    refine ⟨_, by rw [hrun, unwrap_ok ht], ?_, by rw [← c1, ← c2, ← c3, ← c4]; rfl, ?_⟩
    · have := b4
      simp only [OutBuf.Inv, OutBuf.capacity] at this ⊢
      omega
    · have : r4.data = r4.buffer.data.take r4.buffer.len := rfl
      show r4.buffer.data.take (12 + q.length) = _
      have h2 : r4.buffer.data.take (12 + q.length) = r4.data.take (12 + q.length) := by
        rw [this, List.take_take, Nat.min_eq_left (by omega)]
      rw [h2, hdata, ← List.append_assoc]
      rw [List.take_left' (by simp only [List.length_append, Header.octets_length])]
  · intro he
    subst he
    have ht : Render.truncate (12 + q.length) r4 = (.err, r4) := by
      rw [Render.truncate, Render.onBuffer_apply]; unfold OutBuf.truncate; rw [if_neg (by simp at hbl; omega)]
    exact ⟨r4, by rw [hrun, unwrap_err ht]⟩

/-! ## the whole message -/

/-- the three sections as one writer -/
def Response.body (m : Response) : St Render Unit :=
  Section.to_wire m.answer >>= fun _ => Section.to_wire m.authority >>= fun _ => Section.to_wire m.additional

theorem sectionsLoop_eq (m : Response) (pos : Nat) (r : Render) :
    m.sectionsLoop pos [m.answer, m.authority, m.additional] r = match m.body r with
      | (.ok _, r') => (.ok r'.len, r')
      | (.err, r') => (do m.truncate pos; pure pos : St Render Nat) r'
      | (.panic, r') => (.panic, r') := by
  simp only [Response.sectionsLoop, Response.body, St.bind_apply]
  rcases Section.to_wire m.answer r with ⟨x | _ | _, r1⟩
  · simp only
    rcases Section.to_wire m.authority r1 with ⟨x | _ | _, r2⟩
    · simp only
      rcases Section.to_wire m.additional r2 with ⟨x | _ | _, r3⟩ <;> rfl
    · rfl
    · rfl
  · rfl
  · rfl

/-- what `Response::to_wire` can end in -/
inductive Outcome (m : Response) (cap : Nat) (P Q : Mem → Nat → List UInt8 → Prop) (res : Res Nat × Render) : Prop
  /-- header or question do not fit -/
  | err : res.1 = .err → res.2.data.length ≤ cap → Outcome m cap P Q res
  /-- everything written -/
  | full (q out : List UInt8) : res.1 = .ok res.2.data.length → res.2.data.length ≤ cap → res.2.data = m.header.octets ++ q ++ out →
      P (Mem.none.ext 12 q) 12 q → Q ((Mem.none.ext 12 q).ext (12 + q.length) out) (12 + q.length) out → Outcome m cap P Q res
  /-- header and question only -/
  | cut (q : List UInt8) : res.1 = .ok res.2.data.length → res.2.data.length ≤ cap → res.2.data = m.header.truncated.octets ++ q →
      P (Mem.none.ext 12 q) 12 q → Outcome m cap P Q res
  /-- the write after the question failed before it appended an octet -/
  | panic (q : List UInt8) (r r' : Render) : res.1 = .panic → P (Mem.none.ext 12 q) 12 q → r.data = m.header.octets ++ q → RInv r (Mem.none.ext 12 q) →
      r.buffer.capacity = cap → m.body r = (.err, r') → r'.data = r.data → Outcome m cap P Q res

theorem to_wire_outcome (m : Response) (backing : List UInt8) {P Q : Mem → Nat → List UInt8 → Prop} (hq : EmitsP m.question.to_wire P)
    (hb : EmitsP m.body Q) : Outcome m backing.length P Q (m.to_wire (Render.new backing)) := by
  have hcap : (Render.new backing).buffer.capacity = backing.length := by simp [Render.new, OutBuf.new, OutBuf.capacity]
  have hr0 : RInv (Render.new backing) Mem.none := RInv.new _ _ fun _ => rfl
  have hd0 : (Render.new backing).data = [] := by simp [Render.data, OutBuf.contents, Render.new, OutBuf.new]
  generalize Render.new backing = r0 at *
  have hl0 : r0.buffer.len = 0 := by rw [← OutBuf.contents_length hr0.buf]; exact congrArg List.length hd0
  have bound : ∀ {r : Render} {g : Mem}, RInv r g → r.buffer.capacity = backing.length → r.data.length ≤ backing.length := by
    intro r g hi hc
    rw [Render.data, OutBuf.contents_length hi.buf, ← hc]; exact hi.buf
  unfold Response.to_wire
  rcases Header.emits_header_octets m.header r0 _ hr0 with ⟨r1, out, h1, h2, rfl⟩ | ⟨r1, h1, h2⟩
  · have hfit := h2.fit
    have hr1 : RInv r1 Mem.none := by
      rw [oct_header m.header r0 hfit] at h1
      obtain rfl : { r0 with buffer := r0.buffer.append m.header.octets } = r1 := by simpa using congrArg Prod.snd h1
      refine RInv.setBuffer hr0 ?_ (by intro i x h; simp [Mem.none] at h)
      show _ ≤ _
      rw [OutBuf.append_capacity hfit]; exact hfit
    have hl1 : r1.buffer.len = 12 := by rw [h2.len, hl0]; rfl
    have hd1 : r1.data = m.header.octets := by rw [h2.data, hd0, List.nil_append]
    have hc1 : r1.buffer.capacity = backing.length := by rw [h2.cap, hcap]
    rw [St.bind_ok h1]
    rcases hq r1 _ hr1 with ⟨r2, q, e1, e2, e3⟩ | ⟨r2, e1, e2⟩
    · rw [St.bind_ok e1, St.get_bind]
      rw [hl1] at e3
      have hi2 := e2.inv
      rw [hl1] at hi2
      have hl2 : r2.len = 12 + q.length := by rw [Render.len, e2.len, hl1]
      have hd2 : r2.data = m.header.octets ++ q := by rw [e2.data, hd1]
      have hc2 : r2.buffer.capacity = backing.length := by rw [e2.cap, hc1]
      rw [hl2, sectionsLoop_eq]
      rcases hb r2 _ hi2 with ⟨r3, out, f1, f2, f3⟩ | ⟨r3, f1, f2⟩
      · rw [f1]
        have hlen : r3.len = r3.data.length := (OutBuf.contents_length f2.inv.buf).symm
        refine .full q out (by simp only; rw [hlen]) (bound f2.inv (by rw [f2.cap, hc2])) (by simp only; rw [f2.data, hd2]) e3 ?_
        rw [show r2.buffer.len = 12 + q.length from hl2] at f3
        exact f3
      · rw [f1]
        obtain ⟨d, hd⟩ := f2.data
        obtain ⟨g', _, hi3⟩ := f2.inv
        have hsp := truncate_spec m hi3.buf q d (by rw [hd, hd2])
        by_cases hne : d = []
        · obtain ⟨r4, t1⟩ := hsp.2 hne
          have hrun : (do m.truncate (12 + q.length); pure (12 + q.length) : St Render Nat) r3 = (.panic, r4) := St.bind_panic t1
          refine .panic q r2 r3 ?_ e3 hd2 hi2 hc2 f1 (by rw [hd, hne, List.append_nil])
          show ((do m.truncate (12 + q.length); pure (12 + q.length) : St Render Nat) r3).1 = _
          rw [hrun]
        · obtain ⟨r4, t1, t2, t3, t4⟩ := hsp.1 hne
          have hrun : (do m.truncate (12 + q.length); pure (12 + q.length) : St Render Nat) r3 = (.ok (12 + q.length), r4) := St.bind_ok t1
          have hl4 : r4.data.length = 12 + q.length := by rw [t4, List.length_append, Header.octets_length]
          show Outcome m _ P Q ((do m.truncate (12 + q.length); pure (12 + q.length) : St Render Nat) r3)
          rw [hrun]
          refine .cut q (by simp only; rw [hl4]) ?_ t4 e3
          show r4.data.length ≤ _
          rw [Render.data, OutBuf.contents_length t2, ← hc2, ← f2.cap, ← t3]; exact t2
    · rw [St.bind_err e1]
      obtain ⟨g', _, hi⟩ := e2.inv
      exact .err rfl (bound hi (by rw [e2.cap, hc1]))
  · rw [St.bind_err h1]
    obtain ⟨g', _, hi⟩ := h2.inv
    exact .err rfl (bound hi (by rw [h2.cap, hcap]))

/-! ## reading it back -/

def readBody (h : Header) (q : Question) : St InBuf Response := do
  let answer ← Section.from_wire h.an_count .Answer
  let auth ← Section.from_wire h.ns_count .Authority
  let additional ← Section.from_wire h.ar_count .Additional
  pure ⟨h, q, answer, auth, additional⟩

theorem emits_body {m : Response} (hm : m.Fits) : Emits m.body (readBody m.header m.question) m :=
  Emits.bind (emits_section hm.answer hm.an) (Emits.bind (emits_section hm.authority hm.ns) (Emits.map (emits_section hm.additional hm.ar) fun b => rfl))

theorem total_body {m : Response} (hm : m.Typed) : Total m.body :=
  (total_section fun sets h => hm.sections .Answer sets h).seq ((total_section fun sets h => hm.sections .Authority sets h).seq
    (total_section fun sets h => hm.sections .Additional sets h))

theorem total_question {q : Question} (h : ∃ ls, ValidName ls ∧ q.name = Name.ofLabels ls) : Total q.to_wire :=
  (total_name h true).seq ((total_u16 _).seq (total_u16 _))

theorem Response.Fits.typed {m : Response} (h : m.Fits) : m.Typed :=
  ⟨h.question.1, fun t sets hs => by
    cases t
    · exact h.answer.typed sets hs
    · exact h.authority.typed sets hs
    · exact h.additional.typed sets hs⟩

theorem masked_self {h : Header} (hf : h.flag &&& 0x87b0 = h.flag) : h.masked = h := by
  obtain ⟨a, b, c, d, e, f, i, j⟩ := h
  simp only [Header.masked]
  rw [show HEADERFLAG_MASK = 0x87b0 from rfl, hf]

/-- header, question and body from the octets -/
theorem read_message {h : Header} {q : Question} {qo rest : List UInt8} {x : Response} {e : Nat}
    (hqd : h.qd_count = 1) (hq : Reads (Mem.none.ext 12 qo) 12 Question.from_wire q (12 + qo.length))
    (hb : readBody h.masked q ⟨h.octets ++ qo ++ rest, 12 + qo.length⟩ = (.ok x, ⟨h.octets ++ qo ++ rest, e⟩)) :
    Response.read ⟨h.octets ++ qo ++ rest, 0⟩ = (.ok x, ⟨h.octets ++ qo ++ rest, e⟩) := by
  unfold Response.read
  have h1 := header_reads h (h.octets ++ qo ++ rest) (by rw [List.append_assoc]; exact mem_prefix _ _) (Nat.zero_le _)
  rw [St.bind_ok h1, if_neg (by simp [Header.masked, hqd])]
  have hle : (Mem.none.ext 12 qo).le (memOf (h.octets ++ qo ++ rest)) := by
    have := Mem.ext_le (g := Mem.none) (c := h.octets) (by intro i x h; simp [Mem.none] at h) qo
    exact Mem.le_append this rest
  rw [St.bind_ok (hq _ hle (by simp only [List.length_append, Header.octets_length]; omega))]
  exact hb

theorem Response.Fits.qReads {m : Response} (h : m.Fits) : Emits m.question.to_wire Question.from_wire m.question :=
  emits_question h.question.1 h.question.2.1 h.question.2.2

end R53
