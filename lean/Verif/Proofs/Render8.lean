import Verif.Proofs.Render7
/-!
# Header, question and the first owner name
-/
namespace R53
open Name (ofLabels)

namespace Render

theorem NotFull.new (backing : List UInt8) (x : UInt32) : NotFull (Render.new backing) x := by
  have hb := bucket_lt x
  unfold NotFull bucketItems Render.new
  generalize (x % 64).toNat = b at hb
  simp only [List.getElem?_replicate, BUCKETS, if_pos hb, Option.getD_some, List.take_zero]
  simp

/-- the first name goes out uncompressed -/
theorem write_name_first {ls : List Label} (hv : ValidName ls) (compress : Bool) {r : Render} {g : Mem} (h : RInv r g)
    (ht : Tagged (fun _ => False) r g) (hd : Distinct r 255) (hn : ∀ x, NotFull r x) :
    (r.buffer.len + (nameWire ls).length ≤ r.buffer.capacity → ∃ r', write_name (ofLabels ls) compress r = (.ok (), r') ∧
      Wrote r r' g (nameWire ls) ∧ Tagged (TailSet [ofLabels ls]) r' (g.ext r.buffer.len (nameWire ls)) ∧ Distinct r' 0 ∧
      (0 < ls.length → r.buffer.len ≤ 0x3fff → HasItem r' ls)) ∧
    (¬ r.buffer.len + (nameWire ls).length ≤ r.buffer.capacity → (write_name (ofLabels ls) compress r).1 = .err) := by
  have hls : ∀ i, i < ls.length → TailSet [ofLabels ls] (ls.drop i) := fun i hi =>
    ⟨by simpa using tails_ofLabels hi, fun l hl => hv.1 l (List.mem_of_mem_drop hl)⟩
  have hok := write_name_distinct hv compress h ht (hd.mono (by omega))
  rcases write_name_table (S0 := fun _ => False) (S := TailSet [ofLabels ls]) (fun x hx => hx.elim) hv hls compress h ht with
    ⟨lu, off, r', e1, e2, e3, e4, e5, e6, e7, e8, e9, e10⟩ | ⟨r', e1, _⟩
  · have hem : emitted ls lu off = nameWire ls := by
      rcases e2 with ⟨a1, a2⟩ | ⟨a1, a2, a3, _⟩
      · simp only [emitted, if_pos a1]
      · exact (e4 a3).elim
    have hlu : 0 < lu := by
      rcases e2 with ⟨a1, a2⟩ | ⟨a1, a2, a3, _⟩
      · omega
      · exact (e4 a3).elim
    rw [hem] at e3 e5
    refine ⟨fun _ => ⟨r', e1, e3, e5, e9 (hd.mono hv.2), fun h0 hp => e10 (hn _) hlu h0 hp⟩, fun hno => absurd e3.fit hno⟩
  · refine ⟨fun hfit => ?_, fun _ => by rw [e1]⟩
    rw [e1] at hok
    exact absurd (hok hfit) (by simp)

end Render

/-- after header and question -/
theorem head_state {m : Response} {ls : List Label} (hv : ValidName ls) (hq : m.question.name = ofLabels ls) (backing : List UInt8) :
    (backing.length < m.headSize → (m.to_wire (Render.new backing)).1 = .err) ∧
    (m.headSize ≤ backing.length → ∃ r2 g, m.to_wire (Render.new backing) = m.sectionsLoop (12 + (m.headSize - 12)) [m.answer, m.authority, m.additional] r2 ∧
      RInv r2 g ∧ Tagged (TailSet [ofLabels ls]) r2 g ∧ Render.Distinct r2 0 ∧ (0 < ls.length → Render.HasItem r2 ls) ∧
      r2.buffer.capacity = backing.length ∧ ∃ q, q.length = m.headSize - 12 ∧ r2.data = m.header.octets ++ q) := by
  have hcap : (Render.new backing).buffer.capacity = backing.length := by simp [Render.new, OutBuf.new, OutBuf.capacity]
  have hr0 : RInv (Render.new backing) Mem.none := RInv.new _ _ fun _ => rfl
  have ht0 : Tagged (fun _ => False) (Render.new backing) Mem.none := Tagged.new _ _ _
  have hd0 := Render.Distinct.new backing 255
  have hn0 := Render.NotFull.new backing
  have hl0 : (Render.new backing).buffer.len = 0 := rfl
  have hdat : (Render.new backing).data = [] := by simp [Render.data, OutBuf.contents, Render.new, OutBuf.new]
  have hsz : m.headSize = 12 + ((nameWire ls).length + 4) := by
    unfold Response.headSize; rw [hq, Name.ofLabels_raw, nameWire_eq]
  generalize Render.new backing = r0 at *
  unfold Response.to_wire
  rcases Header.emits_header_octets m.header r0 _ hr0 with ⟨r1, out, h1, h2, rfl⟩ | ⟨r1, h1, h2⟩
  · have hfit := h2.fit
    have htab : r1.table = r0.table ∧ r1.item_counts = r0.item_counts := by
      have h1' := h1
      rw [oct_header m.header r0 hfit] at h1'
      obtain rfl : { r0 with buffer := r0.buffer.append m.header.octets } = r1 := by simpa using congrArg Prod.snd h1'
      exact ⟨rfl, rfl⟩
    rw [St.bind_ok h1]
    have t1 := (ht0.le (g' := Mem.none.ext r0.buffer.len m.header.octets) (by intro i x h; simp [Mem.none] at h)).same htab.1 htab.2
    have d1 : Render.Distinct r1 255 := hd0.same htab.1 htab.2
    have n1 : ∀ x, Render.NotFull r1 x := by intro x; unfold Render.NotFull Render.bucketItems; rw [htab.1, htab.2]; exact hn0 x
    have hl1 : r1.buffer.len = 12 := by rw [h2.len, hl0]; rfl
    have hc1 : r1.buffer.capacity = backing.length := by rw [h2.cap, hcap]
    have hda1 : r1.data = m.header.octets := by rw [h2.data, hdat, List.nil_append]
    have hf := Render.write_name_first hv true h2.inv t1 d1 n1
    rw [hl1, hc1] at hf
    by_cases hroom : 12 + (nameWire ls).length ≤ backing.length
    · obtain ⟨r2, e1, e2, e3, e4, e5⟩ := hf.1 hroom
      have hl2 : r2.buffer.len = 12 + (nameWire ls).length := by rw [e2.len, hl1]
      have hc2 : r2.buffer.capacity = backing.length := by rw [e2.cap, hc1]
      have hw16 : ∀ (v : UInt16) (r : Render), Render.write_u16 v r = if r.buffer.len + 2 ≤ r.buffer.capacity then
          (.ok (), { r with buffer := r.buffer.append (be16 v) }) else (.err, r) := fun v r => Render.write_u16_r v r
      have hqt : m.question.to_wire r1 = if 12 + ((nameWire ls).length + 4) ≤ backing.length then
          (.ok (), { r2 with buffer := r2.buffer.append (be16 m.question.typ.as_u16 ++ be16 m.question.class_.to_u16) }) else
          (.err, (m.question.to_wire r1).2) := by
        unfold Question.to_wire
        rw [hq, St.bind_ok e1]
        unfold RRType.to_wire RRClass.to_wire
        by_cases c1 : r2.buffer.len + 2 ≤ r2.buffer.capacity
        · rw [St.bind_ok (a := ()) (s' := { r2 with buffer := r2.buffer.append (be16 m.question.typ.as_u16) }) (by rw [hw16, if_pos c1]), hw16]
          have hca : (r2.buffer.append (be16 m.question.typ.as_u16)).capacity = r2.buffer.capacity := OutBuf.append_capacity (by rw [be16_length]; exact c1)
          by_cases c2 : r2.buffer.len + 4 ≤ r2.buffer.capacity
          · rw [if_pos (show (r2.buffer.append (be16 m.question.typ.as_u16)).len + 2 ≤ _ by rw [hca]; exact c2), if_pos (by omega)]
            simp only
            rw [OutBuf.append_append (by rw [be16_length, be16_length]; omega)]
          · rw [if_neg (show ¬ (r2.buffer.append (be16 m.question.typ.as_u16)).len + 2 ≤ _ by rw [hca]; exact c2), if_neg (by omega)]
        · rw [St.bind_err (s' := r2) (by rw [hw16, if_neg c1]), if_neg (by omega)]
      refine ⟨fun hsmall => ?_, fun hbig => ?_⟩
      · rw [if_neg (by omega)] at hqt
        rw [St.bind_err hqt]
      · rw [if_pos (by omega)] at hqt
        rw [St.bind_ok hqt, St.get_bind]
        have hfit3 : r2.buffer.len + (be16 m.question.typ.as_u16 ++ be16 m.question.class_.to_u16).length ≤ r2.buffer.capacity := by
          rw [List.length_append, be16_length, be16_length, hl2, hc2]; omega
        obtain ⟨i1, i2, i3⟩ := Render.RInv.append e2.inv hfit3
        rw [← hl1] at e3
        refine ⟨_, _, ?_, i1, (e3.le i2).same rfl rfl, e4.same rfl rfl, fun h0 => ?_, ?_, nameWire ls ++ (be16 m.question.typ.as_u16 ++ be16 m.question.class_.to_u16), ?_, ?_⟩
        · congr 1
          show (r2.buffer.append _).len = _
          show r2.buffer.len + (be16 m.question.typ.as_u16 ++ be16 m.question.class_.to_u16).length = _
          rw [List.length_append, be16_length, be16_length, hl2]; omega
        · exact e5 h0 (by omega)
        · show (r2.buffer.append _).capacity = _
          rw [OutBuf.append_capacity hfit3, hc2]
        · rw [List.length_append, List.length_append, be16_length, be16_length]; omega
        · show (r2.buffer.append _).contents = _
          rw [OutBuf.append_contents hfit3]
          have : r2.buffer.contents = r1.data ++ nameWire ls := e2.data
          rw [this, hda1, List.append_assoc]
    · have := hf.2 hroom
      refine ⟨fun _ => ?_, fun hbig => by omega⟩
      have hqe : m.question.to_wire r1 = (.err, (Render.write_name (ofLabels ls) true r1).2) := by
        unfold Question.to_wire
        rw [hq, St.bind_err (s' := (Render.write_name (ofLabels ls) true r1).2) (by rw [← this])]
      rw [St.bind_err hqe]
  · rw [St.bind_err h1]
    refine ⟨fun _ => rfl, fun hbig => ?_⟩
    exfalso
    rw [oct_header m.header r0 (by rw [Header.octets_length]; omega)] at h1
    simp at h1

/-! ## the records -/

/-- the writer begins with a name -/
def StartsWith (w : St Render Unit) (n : Name) : Prop :=
  ∃ rest : St Render Unit, Total rest ∧ ∀ r, w r = (Render.write_name n true >>= fun _ => rest) r

theorem St.bind_assoc' {σ α β γ : Type} (x : St σ α) (f : α → St σ β) (k : β → St σ γ) (s : σ) :
    ((x >>= f) >>= k) s = (x >>= fun a => f a >>= k) s := by
  simp only [St.bind_apply]
  rcases x s with ⟨a | _ | _, s1⟩ <;> rfl

theorem StartsWith.seq {w w2 : St Render Unit} {n : Name} (h : StartsWith w n) (h2 : Total w2) : StartsWith (w >>= fun _ => w2) n := by
  obtain ⟨rest, h3, h4⟩ := h
  refine ⟨rest >>= fun _ => w2, h3.seq h2, fun r => ?_⟩
  rw [← St.bind_assoc', St.bind_apply, h4, ← St.bind_apply]

/-- a body whose first name goes out leaves octets -/
theorem body_data {w : St Render Unit} {n : Name} (hn : n.WF) (hw : StartsWith w n) {r2 : Render} {g : Mem} (hi : RInv r2 g)
    (hok : (Render.write_name n true r2).1 = .ok ()) {r3 : Render} (he : w r2 = (.err, r3)) : r3.data ≠ r2.data := by
  obtain ⟨rest, h1, h2⟩ := hw
  obtain ⟨ls, hv, rfl⟩ := hn
  rcases sized_name ⟨ls, hv, rfl⟩ true r2 _ hi with ⟨r', out, a1, a2, _, a4⟩ | ⟨r', a1, _⟩
  · rw [h2, St.bind_ok a1] at he
    have hpos := a4 (by simp [Name.ofLabels])
    rcases h1 r' _ a2.inv with ⟨r4, out', b1, b2, _⟩ | ⟨r4, b1, b2⟩
    · rw [he] at b1; simp at b1
    · rw [he] at b1
      simp only [Prod.mk.injEq, true_and] at b1
      subst b1
      obtain ⟨d, hd⟩ := b2.data
      rw [hd, a2.data, List.append_assoc]
      intro heq
      have := congrArg List.length heq
      simp only [List.length_append] at this
      omega
  · rw [a1] at hok; simp at hok

theorem startsWith_rrs {s : RRset} {rd : RData} {rds : List RData} (h : s.Typed) (hr : ∀ x ∈ rd :: rds, x.Typed) : StartsWith (s.rrs_to_wire (rd :: rds)) s.name := by
  unfold RRset.rrs_to_wire
  refine StartsWith.seq ⟨_, ?_, fun r => rfl⟩ (total_rrs h.1 rds fun x hx => hr x (by simp [hx]))
  exact Total.seq (total_u16 _) (Total.seq (total_u16 _) (Total.seq (total_u32 _) (emits_rdlen (total_rdata (hr rd (by simp)))).total))

theorem startsWith_rrset {s : RRset} (h : s.Typed) : StartsWith s.to_wire s.name := by
  unfold RRset.to_wire
  split
  · exact ⟨_, Total.seq (total_u16 _) (Total.seq (total_u16 _) (Total.seq (total_u32 _) (total_u16 _))), fun r => rfl⟩
  · rename_i hne
    cases hr : s.rdatas with
    | nil => exact absurd hr hne
    | cons rd rds => exact startsWith_rrs h (by rw [← hr]; exact h.2)

theorem records_head {s : RRset} : ∃ x rest, s.records = x :: rest ∧ x.name = s.name := by
  unfold RRset.records
  split
  · exact ⟨s, [], rfl, rfl⟩
  · rename_i hne
    cases hr : s.rdatas with
    | nil => exact absurd hr hne
    | cons rd rds => exact ⟨_, _, rfl, rfl⟩

/-- a section writes nothing, or begins with the owner of its first record -/
theorem startsWith_section {s : Section} (h : ∀ sets, s = some sets → ∀ x ∈ sets, x.Typed) :
    (Section.records s = [] ∧ ∀ r, Section.to_wire s r = (.ok (), r)) ∨ ∃ x rest, Section.records s = x :: rest ∧ x.name.WF ∧ StartsWith (Section.to_wire s) x.name := by
  match s with
  | none => exact Or.inl ⟨rfl, fun r => rfl⟩
  | some [] => exact Or.inl ⟨rfl, fun r => rfl⟩
  | some (s :: ss) =>
    right
    obtain ⟨x, rest, h1, h2⟩ := records_head (s := s)
    have ht := h _ rfl s (by simp)
    refine ⟨x, rest ++ ss.flatMap RRset.records, by simp [Section.records, h1], by rw [h2]; exact ht.1, ?_⟩
    rw [h2]
    exact (startsWith_rrset ht).seq (total_sets ss fun y hy => h _ rfl y (by simp [hy]))

theorem startsWith_body {m : Response} (hm : m.Typed) :
    (m.records = [] ∧ ∀ r, m.body r = (.ok (), r)) ∨ ∃ x rest, m.records = x :: rest ∧ x.name.WF ∧ StartsWith m.body x.name := by
  have hsec : ∀ t sets, m.section_ t = some sets → ∀ x ∈ sets, x.Typed := hm.sections
  have tc := total_section (s := m.additional) fun sets h => hsec .Additional sets h
  have tb := total_section (s := m.authority) fun sets h => hsec .Authority sets h
  unfold Response.records Response.body
  rcases startsWith_section (s := m.answer) (fun sets h => hsec .Answer sets h) with ⟨h1, h2⟩ | ⟨x, rest, h1, h2, h3⟩
  · rcases startsWith_section (s := m.authority) (fun sets h => hsec .Authority sets h) with ⟨k1, k2⟩ | ⟨x, rest, k1, k2, k3⟩
    · rcases startsWith_section (s := m.additional) (fun sets h => hsec .Additional sets h) with ⟨j1, j2⟩ | ⟨x, rest, j1, j2, rest', j3, j4⟩
      · left
        exact ⟨by rw [h1, k1, j1]; rfl, fun r => by rw [St.bind_ok (h2 r), St.bind_ok (k2 r), j2]⟩
      · right
        exact ⟨x, rest, by rw [h1, k1, j1]; rfl, j2, rest', j3, fun r => by rw [St.bind_ok (h2 r), St.bind_ok (k2 r), j4]⟩
    · right
      obtain ⟨rest', k4, k5⟩ := k3.seq tc
      exact ⟨x, rest ++ Section.records m.additional, by rw [h1, k1]; rfl, k2, rest', k4, fun r => by rw [St.bind_ok (h2 r), k5]⟩
  · right
    exact ⟨x, rest ++ (Section.records m.authority ++ Section.records m.additional), by rw [h1]; rfl, h2, h3.seq (tb.seq tc)⟩

end R53
