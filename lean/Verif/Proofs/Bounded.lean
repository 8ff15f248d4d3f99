import Verif.Proofs.Message2
/-!
# Reading back what was written below a bound

As `Emits`, but what is read back is only claimed if the octets end at or below position `L`: there an RDLENGTH cannot overflow.
-/
namespace R53

def EmitsB {α : Type} (L : Nat) (w : St Render Unit) (rd : St InBuf α) (a : α) : Prop :=
  EmitsP w fun g p out => p + out.length ≤ L → Reads g p rd a (p + out.length)

namespace EmitsB
variable {α β : Type} {L : Nat}

theorem of {w : St Render Unit} {rd : St InBuf α} {a : α} (h : Emits w rd a) : EmitsB L w rd a :=
  EmitsP.mono h fun _ _ _ h _ => h

theorem bind {w1 w2 : St Render Unit} {rd1 : St InBuf α} {rd2 : α → St InBuf β} {a : α} {b : β}
    (h1 : EmitsB L w1 rd1 a) (h2 : EmitsB L w2 (rd2 a) b) : EmitsB L (w1 >>= fun _ => w2) (rd1 >>= rd2) b :=
  EmitsP.seq h1 h2 fun g p x y hle h1 h2 hle' hL => by
    rw [List.length_append, ← Nat.add_assoc] at hL ⊢
    exact ((h1 (by omega)).le hle').bind (h2 hL) fun msg hm hp => Mem.ext_end' (Mem.le_trans hle' hm) hp

theorem pure (b : β) : EmitsB L (Pure.pure ()) (Pure.pure b : St InBuf β) b := of (Emits.pure b)

theorem map {w : St Render Unit} {rd : St InBuf α} {a : α} (h : EmitsB L w rd a) {f : α → St InBuf β} {b : β}
    (hf : ∀ s, f a s = (.ok b, s)) : EmitsB L w (rd >>= f) b :=
  EmitsP.mono h fun _ _ _ h hL => (h hL).map hf

end EmitsB

/-- one record reads back -/
theorem emitsB_rr {L : Nat} {s : RRset} (hn : s.name.WF) (ht : s.typ.Canonical) (hc : s.class_.Canonical) {rd : RData} (hk : rd.kind = s.typ)
    (hf : rd.Fits) (hs1 : 1 ≤ rd.size) (hs2 : L ≤ 65535 ∨ rd.size ≤ 65535) : EmitsB L (s.rr_to_wire rd) RRset.from_wire (s.record rd) := by
  refine EmitsB.bind (.of (emits_wfname hn true)) (EmitsB.bind (.of (emits_rrtype ht)) (EmitsB.bind (.of (emits_rrclass hc)) (EmitsB.bind (.of (emits_u32 s.ttl)) ?_)))
  refine EmitsP.mono (EmitsP.recorded (emits_rdlen (EmitsP.and (emits_rdata hf) (sized_rdata hf)))) ?_
  rintro g p out ⟨⟨body, g0, rfl, hle, h1, h2, h3⟩, hrec⟩ hL
  have hb1 := h3 hs1
  rw [List.length_append, be16_length] at hL
  have hu : (UInt16.ofNat body.length).toNat = body.length := by rw [UInt16.toNat_ofNat']; omega
  intro msg hm hp
  obtain ⟨rest, hr⟩ := Mem.ext_drop (Mem.le_trans hrec hm)
  have hend := Mem.ext_end' (Mem.le_trans hrec hm) hp
  rw [List.length_append, be16_length] at hend
  rw [List.append_assoc] at hr
  rw [St.bind_ok (InBuf.read_u16_be (b := ⟨msg, p⟩) hr)]
  rw [if_neg (by intro h0; rw [← UInt16.toNat_inj, hu] at h0; exact absurd h0 (by simp; intro h; rw [h] at hb1; simp at hb1))]
  have h4 := (h1 (by omega)).le hle msg hm (by omega)
  rw [hk] at h4
  rw [St.bind_ok h4, List.length_append, be16_length, ← Nat.add_assoc]
  rfl

theorem RRset.FitsIn.notEmptyReadB {L : Nat} {s : RRset} (h : s.FitsIn L) {rd : RData} (hr : rd ∈ s.rdatas) :
    EmitsB L (s.rr_to_wire rd) RRset.from_wire (s.record rd) :=
  emitsB_rr h.name h.typ h.class_ (h.data rd hr).1 (h.data rd hr).2.1 (h.data rd hr).2.2.1 (h.data rd hr).2.2.2

def LoopSpecB (L : Nat) (rest : List RRset) (rds : List RData) : Prop := ∀ (s : RRset) (acc : List RRset) (done : List RData),
    s.FitsIn L → (∀ x ∈ rest, x.FitsIn L) → NoNeighbours (s :: rest) → (∀ x ∈ s :: rest, x.typ = .OPT → x.rdatas.length ≤ 1) →
    s.rdatas = done ++ rds → (rds ≠ [] → done ≠ []) →
    EmitsB L (s.rrs_to_wire rds >>= fun _ => Section.toLoop rest)
      (Section.fromLoop (rds.length + (rest.flatMap RRset.records).length) acc { s with rdatas := done })
      (acc ++ s :: rest)

theorem loopSpecB_data {L : Nat} {rest : List RRset} (h0 : LoopSpecB L rest []) (rds : List RData) : LoopSpecB L rest rds := by
  induction rds with
  | nil => exact h0
  | cons rd rds ih =>
    intro s acc done hs hrest hnn hopt hd hne
    have hdn := hne (by simp)
    have hno : s.typ ≠ .OPT := by
      intro ho
      have := hopt s (by simp) ho
      rw [hd, List.length_append, List.length_cons] at this
      have : 0 < done.length := List.length_pos_iff.mpr hdn
      omega
    have hem := hs.notEmptyReadB (rd := rd) (by rw [hd]; simp)
    have h2 := ih s acc (done ++ [rd]) hs hrest hnn hopt (by rw [hd]; simp) (by simp)
    unfold RRset.rrs_to_wire
    rw [St.seq_assoc, show (rd :: rds).length + (List.flatMap RRset.records rest).length = (rds.length + (List.flatMap RRset.records rest).length) + 1 by
      simp only [List.length_cons]; omega, Section.fromLoop_succ]
    refine EmitsB.bind hem ?_
    rw [Section.join_same (rrset := s.record rd) (last := { s with rdatas := done }) hs.name hs.name (sameOwner_refl (s := s) hs.name) hno
      (rd := rd) (l := []) rfl]
    exact h2

/-- the rest of one set, then the other sets -/
theorem loopSpecB {L : Nat} (rest : List RRset) : ∀ rds, LoopSpecB L rest rds := by
  induction rest with
  | nil =>
    refine loopSpecB_data ?_
    intro s acc done hs _ _ _ hd _
    rw [List.append_nil] at hd
    subst hd
    exact EmitsB.pure _
  | cons t rest ih =>
    refine loopSpecB_data ?_
    intro s acc done hs hrest hnn hopt hd _
    rw [List.append_nil] at hd
    subst hd
    have ht := hrest t (by simp)
    have hns : ¬ t.SameOwner s := fun h => hnn.1 (sameOwner_comm.mp h)
    have hw : (s.rrs_to_wire [] >>= fun _ => Section.toLoop (t :: rest)) = (t.to_wire >>= fun _ => Section.toLoop rest) := rfl
    rw [hw]
    have hr : acc ++ s :: t :: rest = (acc ++ [s]) ++ t :: rest := by simp
    rw [hr]
    by_cases he : t.rdatas = []
    · have hl : ([] : List RData).length + ((t :: rest).flatMap RRset.records).length = (0 + (rest.flatMap RRset.records).length) + 1 := by
        rw [List.flatMap_cons, List.length_append, records_length, if_pos he]
        simp only [List.length_nil]; omega
      rw [hl, Section.fromLoop_succ]
      refine EmitsB.bind (EmitsB.of <| emits_rr_empty ht.name (ht.empty he) ht.class_ he) ?_
      rw [Section.join_new (rrset := t) (last := { s with rdatas := s.rdatas }) ht.name hs.name hns]
      have := ih [] t (acc ++ [s]) [] ht (fun x hx => hrest x (by simp [hx])) hnn.2 (fun x hx => hopt x (List.mem_cons_of_mem _ hx)) (by simp [he]) (by simp)
      have e : ({ t with rdatas := [] } : RRset) = t := by rw [← he]
      rw [e] at this
      exact this
    · obtain ⟨rd, rds, hrd⟩ := List.exists_cons_of_ne_nil he
      have hl : ([] : List RData).length + ((t :: rest).flatMap RRset.records).length = (rds.length + (rest.flatMap RRset.records).length) + 1 := by
        rw [List.flatMap_cons, List.length_append, records_length, if_neg he, hrd]
        simp only [List.length_nil, List.length_cons]; omega
      rw [hl, Section.fromLoop_succ]
      have hw : t.to_wire = (t.rr_to_wire rd >>= fun _ => t.rrs_to_wire rds) := by
        unfold RRset.to_wire
        rw [if_neg he, hrd]; rfl
      rw [hw, St.seq_assoc]
      refine EmitsB.bind (ht.notEmptyReadB (by rw [hrd]; simp)) ?_
      rw [Section.join_new (rrset := t.record rd) (last := { s with rdatas := s.rdatas }) ht.name hs.name hns]
      exact ih rds t (acc ++ [s]) [rd] ht (fun x hx => hrest x (by simp [hx])) hnn.2 (fun x hx => hopt x (List.mem_cons_of_mem _ hx)) (by rw [hrd]; rfl) (by simp)

/-- a section that is not empty reads back; the decoder looks for a misplaced OPT only in the first record -/
theorem emitsB_sets {L : Nat} {t : SectionType} {s : RRset} {rest : List RRset} (hf : ∀ x ∈ s :: rest, x.FitsIn L) (hnn : NoNeighbours (s :: rest))
    (hopt' : ∀ x ∈ s :: rest, x.typ = .OPT → x.rdatas.length ≤ 1) (hoo : ¬ (s.typ = .OPT ∧ t ≠ .Additional)) {n : UInt16}
    (hn : n.toNat = (Section.records (some (s :: rest))).length) :
    EmitsB L (Section.to_wire (some (s :: rest))) (Section.from_wire n t) (some (s :: rest)) := by
  have hsf := hf s (by simp)
  have hpos : 0 < (Section.records (some (s :: rest))).length := by
    simp only [Section.records, List.flatMap_cons, List.length_append, records_length]
    split
    · omega
    · rename_i h
      have := List.length_pos_iff.mpr h; omega
  have hn0 : n ≠ 0 := by rintro rfl; simp at hn; omega
  unfold Section.from_wire
  rw [if_neg hn0]
  have hw : Section.to_wire (some (s :: rest)) = (s.to_wire >>= fun _ => Section.toLoop rest) := rfl
  rw [hw]
  by_cases he : s.rdatas = []
  · refine EmitsB.bind (EmitsB.of <| emits_rr_empty hsf.name (hsf.empty he) hsf.class_ he) ?_
    rw [if_neg hoo]
    have hl : n.toNat - 1 = 0 + (rest.flatMap RRset.records).length := by
      rw [hn]; simp only [Section.records, List.flatMap_cons, List.length_append, records_length, if_pos he]; omega
    rw [hl]
    have := loopSpecB rest [] s [] [] hsf (fun x hx => hf x (by simp [hx])) hnn hopt' (by simp [he]) (by simp)
    have e : ({ s with rdatas := [] } : RRset) = s := by rw [← he]
    rw [e] at this
    exact EmitsB.map this fun b => rfl
  · obtain ⟨rd, rds, hrd⟩ := List.exists_cons_of_ne_nil he
    have hw : s.to_wire = (s.rr_to_wire rd >>= fun _ => s.rrs_to_wire rds) := by
      unfold RRset.to_wire
      rw [if_neg he, hrd]; rfl
    rw [hw, St.seq_assoc]
    refine EmitsB.bind (hsf.notEmptyReadB (by rw [hrd]; simp)) ?_
    rw [if_neg (by exact hoo)]
    have hl : n.toNat - 1 = rds.length + (rest.flatMap RRset.records).length := by
      have h0 : s.records.length = rds.length + 1 := by rw [records_length, if_neg he, hrd]; rfl
      rw [hn]; simp only [Section.records, List.flatMap_cons, List.length_append, h0]; omega
    rw [hl]
    have := loopSpecB rest rds s [] [rd] hsf (fun x hx => hf x (by simp [hx])) hnn hopt' (by rw [hrd]; rfl) (by simp)
    exact EmitsB.map this fun b => rfl

/-- a section reads back -/
theorem emitsB_section {L : Nat} {t : SectionType} {s : Section} (hs : SectionFitsIn L t s) {n : UInt16} (hn : n.toNat = (Section.records s).length) :
    EmitsB L (Section.to_wire s) (Section.from_wire n t) s := by
  match s, hs with
  | none, _ =>
    have : n = 0 := by rw [← UInt16.toNat_inj, hn]; rfl
    subst this
    exact EmitsB.pure none
  | some [], h => exact absurd rfl h.1
  | some (s :: rest), ⟨_, hf, hnn, hhead, hopt⟩ =>
    exact emitsB_sets hf hnn hopt (fun ⟨h1, h2⟩ => h2 (hhead s rfl h1)) hn

theorem emitsB_body {L : Nat} {m : Response} (hm : m.FitsIn L) : EmitsB L m.body (readBody m.header m.question) m :=
  EmitsB.bind (emitsB_section hm.answer hm.an) (EmitsB.bind (emitsB_section hm.authority hm.ns) (EmitsB.map (emitsB_section hm.additional hm.ar) fun b => rfl))

theorem RRset.Fits.fitsIn {s : RRset} (h : s.Fits) (L : Nat) : s.FitsIn L :=
  ⟨h.name, h.typ, h.class_, fun rd hrd => ⟨(h.data rd hrd).1, (h.data rd hrd).2.1, (h.data rd hrd).2.2.1, Or.inr (h.data rd hrd).2.2.2⟩, h.empty⟩

theorem SectionFits.fitsIn {t : SectionType} {s : Section} (h : SectionFits t s) (L : Nat) : SectionFitsIn L t s := by
  match s, h with
  | none, _ => trivial
  | some sets, ⟨h1, h2, h3⟩ => exact ⟨h1, fun x hx => (h2 x hx).fitsIn L, h3⟩

theorem Response.Fits.fitsIn {m : Response} (h : m.Fits) (L : Nat) : m.FitsIn L :=
  ⟨h.question, h.answer.fitsIn L, h.authority.fitsIn L, h.additional.fitsIn L, h.flag, h.qd, h.an, h.ns, h.ar⟩

theorem Response.FitsIn.qReads {L : Nat} {m : Response} (h : m.FitsIn L) : Emits m.question.to_wire Question.from_wire m.question :=
  emits_question h.question.1 h.question.2.1 h.question.2.2

end R53
