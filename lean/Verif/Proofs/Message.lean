import Verif.Proofs.RRset
import Verif.Proofs.RdataEq
import Verif.Spec.Message
/-!
# Sections and messages
-/
namespace R53

/-! ## decoding is total -/

/-- `is_same_rrset` of sets with valid owners -/
theorem same_rrset_ok {s t : RRset} (hs : s.name.WF) (ht : t.name.WF) :
    ∃ b, s.is_same_rrset t = .ok b ∧ (b = true ↔ s.SameOwner t) := by
  unfold RRset.is_same_rrset RRset.SameOwner
  by_cases h : s.typ = t.typ
  · rw [if_pos h]
    obtain ⟨h3, h4⟩ := eq_field .name (.name s.name) (.name t.name) hs ht
    exact ⟨_, h3, by rw [decide_eq_true_eq, h4]; simp [h]⟩
  · rw [if_neg h]; exact ⟨false, rfl, by simp [h]⟩

/-- what the decoder guarantees of every set -/
structure RRset.Decoded (s : RRset) : Prop where
  name : s.name.WF
  typ : s.typ.Canonical
  class_ : s.class_.Canonical
  data : ∀ rd ∈ s.rdatas, rd.kind = s.typ ∧ rd.Fits
  empty : s.rdatas = [] → s.typ = .OPT

theorem safe_rrset' : Safe false RRset.from_wire fun p s e => p + 10 < e ∧ s.Decoded ∧ s.rdatas.length ≤ 1 :=
  safe_rrset.mono fun p s e _ ⟨h1, h2, h3, h4, h5⟩ => by
    refine ⟨h1, ⟨h2, h3, h4, ?_, ?_⟩, ?_⟩
    · rcases h5 with ⟨h, _⟩ | ⟨rd, h, h6, h7⟩
      · simp [h]
      · intro x hx; rw [h, List.mem_singleton] at hx; subst hx; exact ⟨h6, h7⟩
    · rcases h5 with ⟨_, h⟩ | ⟨rd, h, _⟩
      · exact fun _ => h
      · simp [h]
    · rcases h5 with ⟨h, _⟩ | ⟨rd, h, _⟩ <;> simp [h]

theorem safe_fromLoop (n : Nat) (acc : List RRset) (last : RRset) (ha : ∀ s ∈ acc, s.Decoded) (hl : last.Decoded) :
    Safe false (Section.fromLoop n acc last) fun p sets e => p + 10 * n ≤ e ∧ sets ≠ [] ∧ ∀ s ∈ sets, s.Decoded := by
  induction n generalizing acc last with
  | zero =>
    refine Safe.pure fun p => ⟨by omega, by simp, fun s hs => ?_⟩
    rw [List.mem_append, List.mem_singleton] at hs
    rcases hs with hs | rfl
    · exact ha s hs
    · exact hl
  | succ n ih =>
    unfold Section.fromLoop
    refine Safe.bind safe_rrset' fun p s m hpm ⟨h1, h2, h3⟩ => ?_
    obtain ⟨b, hb, hsame⟩ := same_rrset_ok h2.name hl.name
    refine Safe.bind (Safe.lift_ok (Q := fun p x e => x = b ∧ e = p) hb fun p => ⟨rfl, rfl⟩) fun p' x m' _ ⟨hx, hm⟩ => ?_
    subst hx
    by_cases hb' : x = true
    · rw [if_pos hb']
      by_cases ho : s.typ = .OPT
      · rw [if_pos ho]; exact Safe.fail
      · rw [if_neg ho]
        match hr : s.rdatas with
        | [] => exact absurd (h2.empty hr) ho
        | rd :: rest =>
          refine Safe.mono (ih acc _ ha ⟨hl.name, hl.typ, hl.class_, ?_, ?_⟩) fun q sets e _ h => ?_
          · intro r hrm
            rw [List.mem_append, List.mem_singleton] at hrm
            rcases hrm with hrm | rfl
            · exact hl.data r hrm
            · have := h2.data r (by simp [hr])
              exact ⟨this.1.trans (hsame.mp hb').1, this.2⟩
          · simp
          · intro e1 e2; exact ⟨by omega, h.2⟩
    · rw [if_neg hb']
      refine Safe.mono (ih (acc ++ [last]) s ?_ h2) fun q sets e _ h => ?_
      · intro s hs
        rw [List.mem_append, List.mem_singleton] at hs
        rcases hs with hs | rfl
        · exact ha s hs
        · exact hl
      · intro e1 e2; exact ⟨by omega, h.2⟩

/-- a decoded section: absent exactly when the count is 0, at least 10 octets for every record -/
def Section.Decoded (n : UInt16) (s : Section) : Prop :=
  (s = none ↔ n = 0) ∧ ∀ sets, s = some sets → sets ≠ [] ∧ ∀ x ∈ sets, x.Decoded

theorem safe_section (n : UInt16) (t : SectionType) :
    Safe false (Section.from_wire n t) fun p s e => p + 10 * n.toNat ≤ e ∧ Section.Decoded n s := by
  unfold Section.from_wire
  by_cases h0 : n = 0
  · rw [if_pos h0]
    refine Safe.pure fun p => ⟨by rw [h0]; simp, by simp [h0], by simp⟩
  · rw [if_neg h0]
    have hn : 1 ≤ n.toNat := by
      have : n.toNat ≠ 0 := fun h => h0 (UInt16.toNat_inj.mp (by simpa using h))
      omega
    refine Safe.bind safe_rrset' fun p s m hpm ⟨h1, h2, h3⟩ => ?_
    by_cases ho : s.typ = .OPT ∧ t ≠ .Additional
    · rw [if_pos ho]; exact Safe.fail
    · rw [if_neg ho]
      refine Safe.bind (safe_fromLoop _ [] s (by simp) h2) fun p' sets m' _ h4 => Safe.pure fun q e1 e2 => ?_
      refine ⟨by omega, by simp [h0], fun x hx => ?_⟩
      obtain rfl : sets = x := by simpa using hx
      exact h4.2

/-- what the decoder guarantees of every message -/
structure Response.Decoded (m : Response) : Prop where
  question : m.question.Fits
  qd : m.header.qd_count = 1
  answer : Section.Decoded m.header.an_count m.answer
  authority : Section.Decoded m.header.ns_count m.authority
  additional : Section.Decoded m.header.ar_count m.additional

theorem safe_response : Safe false Response.read fun p m e =>
    p + 12 + 10 * (m.header.an_count.toNat + m.header.ns_count.toNat + m.header.ar_count.toNat) ≤ e ∧ m.Decoded := by
  unfold Response.read
  refine Safe.bind safe_header.weak fun p h m hpm h1 => ?_
  by_cases hq : h.qd_count = 1
  · rw [if_neg (by simp [hq])]
    refine Safe.bind safe_question fun p2 q m2 _ h2 => Safe.bind (safe_section _ _) fun p3 a m3 _ h3 =>
      Safe.bind (safe_section _ _) fun p4 b m4 _ h4 => Safe.bind (safe_section _ _) fun p5 c m5 _ h5 =>
      Safe.pure fun x e1 e2 e3 e4 e5 => ⟨?_, ⟨h2.2.1, h2.2.2⟩, hq, h3.2, h4.2, h5.2⟩
    simp only
    omega
  · rw [if_pos (by simpa using hq)]; exact Safe.fail

theorem safe_request : Safe false Request.read fun p m e => p + 12 < e ∧ m.question.Fits ∧ m.header.qd_count = 1 ∧ m.header.an_count = 0 := by
  unfold Request.read
  refine Safe.bind safe_header.weak fun p h m hpm h1 => ?_
  by_cases hq : h.qd_count = 1
  · rw [if_pos hq]
    refine Safe.bind safe_question fun p2 q m2 _ h2 => ?_
    by_cases ha : h.an_count = 0
    · rw [if_neg (by simp [ha]), if_neg (by simp [ha])]
      exact Safe.pure fun x e1 e2 => ⟨by omega, ⟨h2.2.1, h2.2.2⟩, hq, ha⟩
    · rw [if_pos ha]; exact Safe.fail
  · rw [if_neg hq]; exact Safe.fail

theorem safe_notify (h : Header) (q : Question) : Safe false (NotifyRequest.from_wire h q) fun _ m _ =>
    m.header = h ∧ m.question = q ∧ (h.an_count = 1 ↔ m.soa.isSome) := by
  unfold NotifyRequest.from_wire
  by_cases ha : h.an_count = 1
  · rw [if_pos ha]
    refine Safe.bind safe_rrset' fun p s m _ _ => ?_
    by_cases ho : s.typ = .SOA
    · rw [if_neg (by simp [ho])]; exact Safe.pure fun _ _ => ⟨rfl, rfl, by simp [ha]⟩
    · rw [if_pos ho]; exact Safe.fail
  · rw [if_neg ha]
    exact Safe.pure fun _ => ⟨rfl, rfl, by simp [ha]⟩

/-! ## writing sections -/

theorem RRset.Fits.notEmptyRead {s : RRset} (h : s.Fits) {rd : RData} (hr : rd ∈ s.rdatas) : Emits (s.rr_to_wire rd) RRset.from_wire (s.record rd) :=
  emits_rr h.name h.typ h.class_ (h.data rd hr).1 (h.data rd hr).2.1 (h.data rd hr).2.2

theorem sameOwner_refl {s : RRset} (h : s.name.WF) : s.SameOwner s := by
  obtain ⟨ls, h1, h2⟩ := h; exact ⟨rfl, ls, ls, h1, h1, h2, h2, rfl⟩

theorem sameOwner_comm {s t : RRset} : s.SameOwner t ↔ t.SameOwner s := by
  constructor <;> (rintro ⟨h1, a, b, h2, h3, h4, h5, h6⟩; exact ⟨h1.symm, b, a, h3, h2, h5, h4, h6.symm⟩)

theorem records_length (s : RRset) : s.records.length = if s.rdatas = [] then 1 else s.rdatas.length := by
  unfold RRset.records; split <;> simp

/-- what the loop does with the record just read -/
def Section.join (n : Nat) (acc : List RRset) (last rrset : RRset) : St InBuf (List RRset) :=
  St.lift (rrset.is_same_rrset last) >>= fun same =>
    if same then
      if rrset.typ = .OPT then St.fail
      else match rrset.rdatas with
        | [] => St.boom
        | rd :: _ => Section.fromLoop n acc { last with rdatas := last.rdatas ++ [rd] }
    else Section.fromLoop n (acc ++ [last]) rrset

theorem Section.fromLoop_succ (n : Nat) (acc : List RRset) (last : RRset) :
    Section.fromLoop (n + 1) acc last = (RRset.from_wire >>= Section.join n acc last) := rfl

theorem Section.join_same {n : Nat} {acc : List RRset} {last rrset : RRset} (h1 : rrset.name.WF) (h2 : last.name.WF)
    (hs : rrset.SameOwner last) (ho : rrset.typ ≠ .OPT) {rd : RData} {l : List RData} (hr : rrset.rdatas = rd :: l) :
    Section.join n acc last rrset = Section.fromLoop n acc { last with rdatas := last.rdatas ++ [rd] } := by
  obtain ⟨b, hb, hbs⟩ := same_rrset_ok (s := rrset) (t := last) h1 h2
  have hbt : b = true := hbs.mpr hs
  subst hbt
  funext x
  unfold Section.join
  rw [St.lift_ok_bind hb, if_pos rfl, if_neg ho, hr]

theorem Section.join_new {n : Nat} {acc : List RRset} {last rrset : RRset} (h1 : rrset.name.WF) (h2 : last.name.WF)
    (hs : ¬ rrset.SameOwner last) : Section.join n acc last rrset = Section.fromLoop n (acc ++ [last]) rrset := by
  obtain ⟨b, hb, hbs⟩ := same_rrset_ok (s := rrset) (t := last) h1 h2
  have hbt : b = false := by
    cases b
    · rfl
    · exact absurd (hbs.mp rfl) hs
  subst hbt
  funext x
  unfold Section.join
  rw [St.lift_ok_bind hb, if_neg (by simp)]

theorem St.seq_assoc {σ : Type} (a b c : St σ Unit) : ((a >>= fun _ => b) >>= fun _ => c) = (a >>= fun _ => (b >>= fun _ => c)) := by
  funext r
  simp only [St.bind_apply]
  rcases a r with ⟨x | _ | _, r'⟩ <;> rfl

def LoopSpec (rest : List RRset) (rds : List RData) : Prop := ∀ (s : RRset) (acc : List RRset) (done : List RData),
    s.Fits → (∀ x ∈ rest, x.Fits) → NoNeighbours (s :: rest) → (∀ x ∈ s :: rest, x.typ = .OPT → x.rdatas.length ≤ 1) →
    s.rdatas = done ++ rds → (rds ≠ [] → done ≠ []) →
    Emits (s.rrs_to_wire rds >>= fun _ => Section.toLoop rest)
      (Section.fromLoop (rds.length + (rest.flatMap RRset.records).length) acc { s with rdatas := done })
      (acc ++ s :: rest)

theorem loopSpec_data {rest : List RRset} (h0 : LoopSpec rest []) (rds : List RData) : LoopSpec rest rds := by
  induction rds with
  | nil => exact h0
  | cons rd rds ih =>
    intro s acc done hs hrest hnn hopt hd hne
    have hdn := hne (by simp)
    have hno : s.typ ≠ .OPT := by
      intro ho
      have := hopt s (by simp) ho
      rw [hd, List.length_append, List.length_cons] at this
      have : 0 < done.length := List.length_pos_iff.mpr hdn
      omega
    have hem := hs.notEmptyRead (rd := rd) (by rw [hd]; simp)
    have h2 := ih s acc (done ++ [rd]) hs hrest hnn hopt (by rw [hd]; simp) (by simp)
    unfold RRset.rrs_to_wire
    rw [St.seq_assoc, show (rd :: rds).length + (List.flatMap RRset.records rest).length = (rds.length + (List.flatMap RRset.records rest).length) + 1 by
      simp only [List.length_cons]; omega, Section.fromLoop_succ]
    refine Emits.bind hem ?_
    rw [Section.join_same (rrset := s.record rd) (last := { s with rdatas := done }) hs.name hs.name (sameOwner_refl (s := s) hs.name) hno
      (rd := rd) (l := []) rfl]
    exact h2

/-- the rest of one set, then the other sets -/
theorem loopSpec (rest : List RRset) : ∀ rds, LoopSpec rest rds := by
  induction rest with
  | nil =>
    refine loopSpec_data ?_
    intro s acc done hs _ _ _ hd _
    rw [List.append_nil] at hd
    subst hd
    exact Emits.pure _
  | cons t rest ih =>
    refine loopSpec_data ?_
    intro s acc done hs hrest hnn hopt hd _
    rw [List.append_nil] at hd
    subst hd
    have ht := hrest t (by simp)
    have hns : ¬ t.SameOwner s := fun h => hnn.1 (sameOwner_comm.mp h)
    have hw : (s.rrs_to_wire [] >>= fun _ => Section.toLoop (t :: rest)) = (t.to_wire >>= fun _ => Section.toLoop rest) := rfl
    rw [hw]
    have hr : acc ++ s :: t :: rest = (acc ++ [s]) ++ t :: rest := by simp
    rw [hr]
    by_cases he : t.rdatas = []
    · have hl : ([] : List RData).length + ((t :: rest).flatMap RRset.records).length = (0 + (rest.flatMap RRset.records).length) + 1 := by
        rw [List.flatMap_cons, List.length_append, records_length, if_pos he]
        simp only [List.length_nil]; omega
      rw [hl, Section.fromLoop_succ]
      refine Emits.bind (emits_rr_empty ht.name (ht.empty he) ht.class_ he) ?_
      rw [Section.join_new (rrset := t) (last := { s with rdatas := s.rdatas }) ht.name hs.name hns]
      have := ih [] t (acc ++ [s]) [] ht (fun x hx => hrest x (by simp [hx])) hnn.2 (fun x hx => hopt x (List.mem_cons_of_mem _ hx)) (by simp [he]) (by simp)
      have e : ({ t with rdatas := [] } : RRset) = t := by rw [← he]
      rw [e] at this
      exact this
    · obtain ⟨rd, rds, hrd⟩ := List.exists_cons_of_ne_nil he
      have hl : ([] : List RData).length + ((t :: rest).flatMap RRset.records).length = (rds.length + (rest.flatMap RRset.records).length) + 1 := by
        rw [List.flatMap_cons, List.length_append, records_length, if_neg he, hrd]
        simp only [List.length_nil, List.length_cons]; omega
      rw [hl, Section.fromLoop_succ]
      have hw : t.to_wire = (t.rr_to_wire rd >>= fun _ => t.rrs_to_wire rds) := by
        unfold RRset.to_wire
        rw [if_neg he, hrd]; rfl
      rw [hw, St.seq_assoc]
      refine Emits.bind (ht.notEmptyRead (by rw [hrd]; simp)) ?_
      rw [Section.join_new (rrset := t.record rd) (last := { s with rdatas := s.rdatas }) ht.name hs.name hns]
      exact ih rds t (acc ++ [s]) [rd] ht (fun x hx => hrest x (by simp [hx])) hnn.2 (fun x hx => hopt x (List.mem_cons_of_mem _ hx)) (by rw [hrd]; rfl) (by simp)

/-- a section that is not empty reads back; the decoder looks for a misplaced OPT only in the first record -/
theorem emits_sets {t : SectionType} {s : RRset} {rest : List RRset} (hf : ∀ x ∈ s :: rest, x.Fits) (hnn : NoNeighbours (s :: rest))
    (hopt' : ∀ x ∈ s :: rest, x.typ = .OPT → x.rdatas.length ≤ 1) (hoo : ¬ (s.typ = .OPT ∧ t ≠ .Additional)) {n : UInt16}
    (hn : n.toNat = (Section.records (some (s :: rest))).length) :
    Emits (Section.to_wire (some (s :: rest))) (Section.from_wire n t) (some (s :: rest)) := by
  have hsf := hf s (by simp)
  have hpos : 0 < (Section.records (some (s :: rest))).length := by
    simp only [Section.records, List.flatMap_cons, List.length_append, records_length]
    split
    · omega
    · rename_i h
      have := List.length_pos_iff.mpr h; omega
  have hn0 : n ≠ 0 := by rintro rfl; simp at hn; omega
  unfold Section.from_wire
  rw [if_neg hn0]
  have hw : Section.to_wire (some (s :: rest)) = (s.to_wire >>= fun _ => Section.toLoop rest) := rfl
  rw [hw]
  by_cases he : s.rdatas = []
  · refine Emits.bind (emits_rr_empty hsf.name (hsf.empty he) hsf.class_ he) ?_
    rw [if_neg hoo]
    have hl : n.toNat - 1 = 0 + (rest.flatMap RRset.records).length := by
      rw [hn]; simp only [Section.records, List.flatMap_cons, List.length_append, records_length, if_pos he]; omega
    rw [hl]
    have := loopSpec rest [] s [] [] hsf (fun x hx => hf x (by simp [hx])) hnn hopt' (by simp [he]) (by simp)
    have e : ({ s with rdatas := [] } : RRset) = s := by rw [← he]
    rw [e] at this
    exact Emits.map this fun b => rfl
  · obtain ⟨rd, rds, hrd⟩ := List.exists_cons_of_ne_nil he
    have hw : s.to_wire = (s.rr_to_wire rd >>= fun _ => s.rrs_to_wire rds) := by
      unfold RRset.to_wire
      rw [if_neg he, hrd]; rfl
    rw [hw, St.seq_assoc]
    refine Emits.bind (hsf.notEmptyRead (by rw [hrd]; simp)) ?_
    rw [if_neg (by exact hoo)]
    have hl : n.toNat - 1 = rds.length + (rest.flatMap RRset.records).length := by
      have h0 : s.records.length = rds.length + 1 := by rw [records_length, if_neg he, hrd]; rfl
      rw [hn]; simp only [Section.records, List.flatMap_cons, List.length_append, h0]; omega
    rw [hl]
    have := loopSpec rest rds s [] [rd] hsf (fun x hx => hf x (by simp [hx])) hnn hopt' (by rw [hrd]; rfl) (by simp)
    exact Emits.map this fun b => rfl

/-- a section reads back -/
theorem emits_section {t : SectionType} {s : Section} (hs : SectionFits t s) {n : UInt16} (hn : n.toNat = (Section.records s).length) :
    Emits (Section.to_wire s) (Section.from_wire n t) s := by
  match s, hs with
  | none, _ =>
    have : n = 0 := by rw [← UInt16.toNat_inj, hn]; rfl
    subst this
    exact Emits.pure none
  | some [], h => exact absurd rfl h.1
  | some (s :: rest), ⟨_, hf, hnn, hhead, hopt⟩ =>
    exact emits_sets hf hnn hopt (fun ⟨h1, h2⟩ => h2 (hhead s rfl h1)) hn

/-- two records of the same owner and type become one set with the class and TTL of the first -/
theorem emits_two {t : SectionType} {a b : RRset} {ra rb : RData} (ha : a.Fits) (hb : b.Fits) (hra : a.rdatas = [ra]) (hrb : b.rdatas = [rb])
    (hs : b.SameOwner a) (ho : a.typ ≠ .OPT) :
    Emits (Section.to_wire (some [a, b])) (Section.from_wire 2 t) (some [{ a with rdatas := [ra, rb] }]) := by
  have one : ∀ (x : RRset) (rx : RData), x.rdatas = [rx] → x.to_wire = (x.rr_to_wire rx >>= fun _ => pure ()) ∧ x.record rx = x := by
    intro x rx h
    refine ⟨by unfold RRset.to_wire; rw [if_neg (by simp [h]), h]; rfl, ?_⟩
    unfold RRset.record; rw [← h]
  have hw : Section.to_wire (some [a, b]) = (a.rr_to_wire ra >>= fun _ => (b.rr_to_wire rb >>= fun _ => pure ())) := by
    show (a.to_wire >>= fun _ => (b.to_wire >>= fun _ => pure ())) = _
    rw [(one a ra hra).1, (one b rb hrb).1, St.seq_assoc, St.seq_assoc]; rfl
  rw [hw]
  unfold Section.from_wire
  rw [if_neg (by decide)]
  have h1 := ha.notEmptyRead (rd := ra) (by rw [hra]; simp)
  have h2 := hb.notEmptyRead (rd := rb) (by rw [hrb]; simp)
  rw [(one a ra hra).2] at h1
  rw [(one b rb hrb).2] at h2
  refine Emits.bind h1 ?_
  rw [if_neg (fun h => ho h.1)]
  show Emits _ ((RRset.from_wire >>= Section.join 0 [] a) >>= fun rrsets => pure (some rrsets)) _
  have h3 : Emits (b.rr_to_wire rb >>= fun _ => pure ()) (RRset.from_wire >>= Section.join 0 [] a) [{ a with rdatas := [ra, rb] }] := by
    refine Emits.bind h2 ?_
    rw [Section.join_same hb.name ha.name hs (fun h => ho (hs.1.symm.trans h)) hrb, hra]
    exact Emits.pure _
  exact Emits.map h3 fun _ => rfl

end R53
