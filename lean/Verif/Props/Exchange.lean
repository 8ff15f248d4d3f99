import Verif.Spec.Exchange
import Verif.Props.Build
import Verif.Props.Encode
import Verif.Props.Seek
import Verif.Props.Requests
/-!
# C101: a question and its answer
-/
namespace R53
open Name (ofLabels)

/-! ## sections stay neat -/

theorem Proper.nil (L : Nat) (t : SectionType) : Proper L t [] := ⟨by simp, List.Pairwise.nil, by simp⟩

theorem Proper.ok {L : Nat} {t : SectionType} {sets : List RRset} (h : Proper L t sets) : SetsOK sets := ⟨fun s hs => (h.fits s hs).name, h.distinct⟩

theorem Proper.sublist {L : Nat} {t : SectionType} {a b : List RRset} (h : Proper L t b) (hs : List.Sublist a b) : Proper L t a :=
  ⟨fun s hm => h.fits s (hs.subset hm), h.distinct.sublist hs, fun s hm => h.opt s (hs.subset hm)⟩

theorem Proper.added {L : Nat} {t : SectionType} {before after : List RRset} {s : RRset} (h : Proper L t before) (ha : Added before s after) (hs : s.FitsIn L)
    (ho : s.typ = .OPT → t = .Additional ∧ s.rdatas = []) : Proper L t after := by
  refine ⟨added_fits ha h.fits hs, (added_ok hs.name ha h.ok).2, ?_⟩
  rcases ha with ⟨pre, old, post, rfl, -, hso, rfl⟩ | ⟨-, rfl⟩
  · intro x hx hx'
    simp only [List.mem_append, List.mem_cons] at hx
    rcases hx with hx | rfl | hx
    · exact h.opt x (by simp [hx]) hx'
    · have h1 := h.opt old (by simp) hx'
      have h2 := ho (hso.1.symm.trans hx')
      refine ⟨h1.1, ?_⟩
      simp only [h2.2, List.append_nil]
      exact h1.2
    · exact h.opt x (by simp [hx]) hx'
  · intro x hx hx'
    simp only [List.mem_append, List.mem_singleton] at hx
    rcases hx with hx | rfl
    · exact h.opt x hx hx'
    · obtain ⟨h1, h2⟩ := ho hx'
      exact ⟨h1, by rw [h2]; simp⟩

theorem Proper.step {L : Nat} {m : Response} (hm : ∀ t, Proper L t (m.section_ t).sets) {op : BOp} (hv : op.Sendable L) :
    ∃ m', op.run m = .ok m' ∧ ∀ t, Proper L t (m'.section_ t).sets := by
  have add : ∀ t s, s.FitsIn L → (s.typ = .OPT → t = .Additional ∧ s.rdatas = []) →
      ∃ m', Builder.add_rrset m t s = .ok m' ∧ ∀ t, Proper L t (m'.section_ t).sets := by
    intro t s hs ho
    obtain ⟨m2, e1, _, _, e4, after, e5, e6⟩ := c48_add m t s hs.name (hm t).ok.1
    refine ⟨m2, e1, fun t' => ?_⟩
    by_cases ht : t' = t
    · subst ht; rw [e5]; exact (hm t').added e6 hs ho
    · rw [e4 t' ht]; exact hm t'
  cases op with
  | edns e => exact add _ _ (edns_fits L e) fun _ => ⟨rfl, rfl⟩
  | add t s => exact add _ _ hv.1 fun h => absurd h hv.2
  | remove σ t f st =>
    refine ⟨_, rfl, ?_⟩
    intro t'
    unfold Builder.remove_rrset_by
    match hs : m.section_ t with
    | none => exact hm t'
    | some sets =>
      simp only
      rw [section_set]
      have := hm t
      rw [hs] at this
      split
      · rename_i e; subst e; exact this.sublist (retain_sublist f sets st)
      · exact hm t'
  | clear t =>
    refine ⟨_, rfl, ?_⟩
    intro t'
    unfold Builder.clear_section Response.clear_section
    rw [section_set]
    split
    · exact Proper.nil _ _
    · exact hm t'
  | with_section t f =>
    refine ⟨_, rfl, ?_⟩
    intro t'
    unfold Builder.with_section Response.take_section
    simp only
    rw [section_set, section_set]
    split
    · rename_i e; subst e; exact hv _ (hm t')
    · exact hm t'
  | _ =>
    refine ⟨_, rfl, fun t => ?_⟩
    have := hm t
    cases t <;> exact this

theorem Proper.run {L : Nat} : ∀ (ops : List BOp) {m : Response}, (∀ t, Proper L t (m.section_ t).sets) → (∀ op ∈ ops, op.Sendable L) →
    ∃ m', BOp.runAll ops m = .ok m' ∧ ∀ t, Proper L t (m'.section_ t).sets
  | [], m, hm, _ => ⟨m, rfl, hm⟩
  | op :: ops, m, hm, ho => by
    obtain ⟨m1, h1, h2⟩ := Proper.step hm (ho op (by simp))
    obtain ⟨m2, h3, h4⟩ := Proper.run ops h2 fun o h => ho o (by simp [h])
    exact ⟨m2, by rw [BOp.runAll, h1, Res.bind_ok, h3], h4⟩

/-! ## the flags -/

theorem mask_dist (a b c : UInt16) : (a ||| b) &&& c = (a &&& c) ||| (b &&& c) := by
  apply UInt16.toNat_inj.1
  simp only [UInt16.toNat_or, UInt16.toNat_and]
  rw [Nat.and_or_distrib_right]

theorem mask_set {v : UInt16} (h : v &&& 0x87b0 = v) (f : HeaderFlag) : HeaderFlag.set_flag v f &&& 0x87b0 = HeaderFlag.set_flag v f := by
  unfold HeaderFlag.set_flag
  rw [mask_dist, h]
  congr 1
  cases f <;> decide

theorem mask_clear {v : UInt16} (h : v &&& 0x87b0 = v) (f : HeaderFlag) : HeaderFlag.clear_flag v f &&& 0x87b0 = HeaderFlag.clear_flag v f := by
  unfold HeaderFlag.clear_flag
  apply UInt16.toNat_inj.1
  have := congrArg UInt16.toNat h
  simp only [UInt16.toNat_and] at this ⊢
  rw [Nat.and_assoc, Nat.and_comm (UInt16.toNat _) (UInt16.toNat _), ← Nat.and_assoc, this]

theorem flag_run : ∀ (ops : List BOp) {m m' : Response}, BOp.runAll ops m = .ok m' → m.header.flag &&& 0x87b0 = m.header.flag →
    m'.header.flag &&& 0x87b0 = m'.header.flag
  | [], m, m', h, hf => by cases h; exact hf
  | op :: ops, m, m', h, hf => by
    obtain ⟨m1, h1, h2⟩ := Res.bind_eq_ok.1 h
    refine flag_run ops h2 ?_
    cases op with
    | edns e => rw [(add_frame h1).1]; exact hf
    | add t s => rw [(add_frame h1).1]; exact hf
    | remove σ t f st =>
      cases h1
      unfold Builder.remove_rrset_by
      cases hs : m.section_ t with
      | none => exact hf
      | some sets => simp only; rw [(setSection_header _ _ _).1]; exact hf
    | clear t => cases h1; unfold Builder.clear_section Response.clear_section; rw [(setSection_header _ _ _).1]; exact hf
    | with_section t f =>
      cases h1
      unfold Builder.with_section Response.take_section
      simp only
      rw [(setSection_header _ _ _).1, (setSection_header _ _ _).1]; exact hf
    | set_flag f => cases h1; exact mask_set hf f
    | clear_flag f => cases h1; exact mask_clear hf f
    | make_response => cases h1; exact mask_set hf _
    | _ => cases h1; exact hf

theorem question_run : ∀ (ops : List BOp) {L : Nat} {m m' : Response}, BOp.runAll ops m = .ok m' → (∀ op ∈ ops, op.Sendable L) → m.question.Fits → m'.question.Fits := by
  intro ops L m m' h ho hq
  rw [(c82_history ops m m' h).2.2.2.1]
  unfold lastSet
  cases hl : (ops.filterMap BOp.setsQuestion).getLast? with
  | none => exact hq
  | some v =>
    obtain ⟨op, hop, hv⟩ := List.mem_filterMap.mp (List.mem_of_getLast? hl)
    cases op <;> simp [BOp.setsQuestion] at hv
    subst hv
    exact ho _ hop

/-! ## empty sections -/

theorem tidy_to_wire (s : Section) : Section.to_wire s.tidy = Section.to_wire s := by
  match s with
  | none => rfl
  | some [] => rfl
  | some (_ :: _) => rfl

theorem tidy_records (s : Section) : Section.records s.tidy = Section.records s := by
  match s with
  | none => rfl
  | some [] => rfl
  | some (_ :: _) => rfl

theorem tidy_sets (s : Section) : s.tidy.sets = s.sets := by
  match s with
  | none => rfl
  | some [] => rfl
  | some (_ :: _) => rfl

theorem tidy_section_size (s : Section) : Section.size s.tidy = Section.size s := by
  match s with
  | none => rfl
  | some [] => rfl
  | some (_ :: _) => rfl

theorem tidy_section_names (s : Section) : Section.names s.tidy = Section.names s := by
  match s with
  | none => rfl
  | some [] => rfl
  | some (_ :: _) => rfl

theorem Response.tidy_size (m : Response) : m.tidy.size = m.size := by
  simp only [Response.size, Response.tidy, tidy_section_size]; rfl

theorem Response.tidy_names (m : Response) : m.tidy.names = m.names := by
  simp only [Response.names, Response.tidy, tidy_section_names]

theorem Response.tidy_to_wire (m : Response) : m.tidy.to_wire = m.to_wire := by
  have key : ∀ (m m' : Response) (pos : Nat), m.header = m'.header → ∀ (xs ys : List Section), xs.map Section.to_wire = ys.map Section.to_wire →
      m.sectionsLoop pos xs = m'.sectionsLoop pos ys := by
    intro m m' pos hh xs
    induction xs with
    | nil => intro ys h; cases ys with
      | nil => rfl
      | cons => simp at h
    | cons x xs ih =>
      intro ys h
      cases ys with
      | nil => simp at h
      | cons y ys =>
        simp only [List.map_cons, List.cons.injEq] at h
        funext r
        simp only [Response.sectionsLoop]
        rw [h.1, ih ys h.2]
        have ht : m.truncate pos = m'.truncate pos := by unfold Response.truncate; rw [hh]
        rw [ht]
  unfold Response.to_wire
  have := fun pos => key m.tidy m pos rfl [m.tidy.answer, m.tidy.authority, m.tidy.additional] [m.answer, m.authority, m.additional] (by
    simp [Response.tidy, R53.tidy_to_wire])
  simp only [this]
  rfl

theorem Proper.section {L : Nat} {t : SectionType} {s : Section} (h : Proper L t s.sets) : SectionFitsIn L t s.tidy := by
  match s with
  | none => exact trivial
  | some [] => exact trivial
  | some (a :: l) =>
    exact ⟨by simp, h.fits, noNeighbours_of_distinct _ h.distinct, fun s hs ho => (h.opt s (List.mem_of_head? hs) ho).1, fun s hs ho => (h.opt s hs ho).2⟩

/-- what any calls that bring in sets that fit make of a new response can be sent -/
theorem c101_sendable (L : Nat) (id : UInt16) (name : Name) (t : RRType) (ops : List BOp) (hops : ∀ op ∈ ops, op.Sendable L) (hq : (Question.new name t).Fits) :
    ∃ m, BOp.runAll (ops ++ [.done]) (Response.with_question id name t) = .ok m ∧
      ((∀ t, (Section.records (m.section_ t)).length ≤ 65535) → m.tidy.FitsIn L) := by
  have hall : ∀ op ∈ ops ++ [.done], op.Sendable L := by
    intro op h
    rcases List.mem_append.mp h with h | h
    · exact hops op h
    · rw [List.mem_singleton] at h; subst h; exact trivial
  obtain ⟨m, h1, h2⟩ := Proper.run (L := L) (ops ++ [.done]) (m := Response.with_question id name t) (fun t => by cases t <;> exact Proper.nil _ _) hall
  refine ⟨m, h1, fun hc => ?_⟩
  obtain ⟨d1, d2, d3, d4⟩ := c82_done ops _ m h1
  have c16 : ∀ k : Nat, k ≤ 65535 → (UInt16.ofNat k).toNat = k := by intro k hk; rw [UInt16.toNat_ofNat']; omega
  refine ⟨question_run (m := Response.with_question id name t) (m' := m) _ h1 hall hq, (h2 .Answer).section, (h2 .Authority).section, (h2 .Additional).section, ?_, d1, ?_, ?_, ?_⟩
  · exact flag_run (m' := m) _ h1 (by decide : HeaderFlag.set_flag 0 .RecursionDesired &&& 0x87b0 = HeaderFlag.set_flag 0 .RecursionDesired)
  · show m.header.an_count.toNat = (Section.records m.answer.tidy).length
    rw [d2, c16 m.answer.records.length (hc .Answer), R53.tidy_records]
  · show m.header.ns_count.toNat = (Section.records m.authority.tidy).length
    rw [d3, c16 m.authority.records.length (hc .Authority), R53.tidy_records]
  · show m.header.ar_count.toNat = (Section.records m.additional.tidy).length
    rw [d4, c16 m.additional.records.length (hc .Additional), R53.tidy_records]

/-! ## the answer -/

theorem lastSet_none {α : Type} (f : BOp → Option α) (init : α) (ops : List BOp) (h : ∀ op ∈ ops, f op = none) : lastSet f init ops = init := by
  unfold lastSet
  have : ops.filterMap f = [] := List.filterMap_eq_nil_iff.mpr h
  rw [this]; rfl

/-- A server that gets any octets which it accepts as a request and answers with any calls that bring in sets that fit, in any order: the calls succeed, and
with 271 octets more than the name in the buffer something is sent; whatever is sent is decoded by the client as a response with the id and the question of the request and the codes of the last calls; it is what was
built, or, flagged as truncated, has no records at all. -/
theorem c101_answer (raw : List UInt8) (q : Request) (h : Request.from_wire raw = .ok q) (rid : UInt16) (backing : List UInt8) (ops : List BOp)
    (hops : ∀ op ∈ ops, op.Sendable backing.length ∧ op.Answers) :
    ∃ m, BOp.runAll (replyCalls q ops) (Response.with_question rid q.question.name q.question.typ) = .ok m ∧
      ((∀ t, (Section.records (m.section_ t)).length ≤ 65535) → (q.question.name.raw.length + 271 ≤ backing.length → ∃ n r, m.to_wire (Render.new backing) = (.ok n, r)) ∧
        ∀ n r, m.to_wire (Render.new backing) = (.ok n, r) → n = r.data.length ∧ n ≤ backing.length ∧ ∃ m', (∀ tail, Response.from_wire (r.data ++ tail) = .ok m') ∧
          m'.header.id = q.header.id ∧ m'.question = q.question ∧ m'.header.is_flag_set .QueryRespone = true ∧
          m'.header.opcode = lastSet BOp.setsOpcode .Query ops ∧ m'.header.rcode = lastSet BOp.setsRcode .NoError ops ∧
          (m' = m.tidy ∨ (m'.header.is_flag_set .Truncation = true ∧ m'.answer = none ∧ m'.authority = none ∧ m'.additional = none)) ∧
          (ClashFree m.names → m.size ≤ backing.length → m' = m.tidy)) := by
  obtain ⟨_, _, hqf⟩ := c56_checks_partial raw q h
  have hsend : ∀ op ∈ BOp.id q.header.id :: BOp.question q.question :: BOp.make_response :: ops, op.Sendable backing.length := by
    intro op ho
    simp only [List.mem_cons] at ho
    rcases ho with rfl | rfl | rfl | ho
    · exact trivial
    · exact hqf
    · exact trivial
    · exact (hops op ho).1
  obtain ⟨m, h1, h2⟩ := c101_sendable backing.length rid q.question.name q.question.typ _ hsend ⟨hqf.1, hqf.2.1, rfl⟩
  refine ⟨m, h1, fun hc => ?_⟩
  obtain ⟨b1, b2, b3, b4, b5, _⟩ := c82_history _ _ m h1
  have none_last : ∀ {α : Type} (f : BOp → Option α) (v : α), f .done = none → (∀ op ∈ ops, f op = none) → lastSet f v (ops ++ [.done]) = v := by
    intro α f v hd hn
    refine lastSet_none f v _ fun op ho => ?_
    rcases List.mem_append.mp ho with ho | ho
    · exact hn op ho
    · rw [List.mem_singleton] at ho; subst ho; exact hd
  have drop_done : ∀ {α : Type} (f : BOp → Option α) (v : α), f .done = none → lastSet f v (ops ++ [.done]) = lastSet f v ops := by
    intro α f v hd
    unfold lastSet
    rw [List.filterMap_append]
    simp [hd]
  have e1 : m.header.id = q.header.id := by
    rw [b1]
    show lastSet BOp.setsId _ (BOp.id _ :: BOp.question _ :: BOp.make_response :: (ops ++ [BOp.done])) = _
    rw [lastSet_cons, lastSet_cons, lastSet_cons]
    refine none_last _ _ rfl fun op ho => ?_
    have := (hops op ho).2
    cases op <;> first | rfl | exact absurd this (by simp [BOp.Answers])
  have e2 : m.question = q.question := by
    rw [b4]
    show lastSet BOp.setsQuestion _ (BOp.id _ :: BOp.question _ :: BOp.make_response :: (ops ++ [BOp.done])) = _
    rw [lastSet_cons, lastSet_cons, lastSet_cons]
    refine none_last _ _ rfl fun op ho => ?_
    have := (hops op ho).2
    cases op <;> first | rfl | exact absurd this (by simp [BOp.Answers])
  have e3 : m.header.is_flag_set .QueryRespone = true := by
    rw [b5]
    show lastSet (BOp.setsFlag .QueryRespone) _ (BOp.id _ :: BOp.question _ :: BOp.make_response :: (ops ++ [BOp.done])) = _
    rw [lastSet_cons, lastSet_cons, lastSet_cons, drop_done _ _ rfl]
    simp only [BOp.setsFlag, if_true, Option.getD_some]
    unfold lastSet
    cases hl : (ops.filterMap (BOp.setsFlag .QueryRespone)).getLast? with
    | none => rfl
    | some v =>
      obtain ⟨op, hop, hv⟩ := List.mem_filterMap.mp (List.mem_of_getLast? hl)
      have := (hops op hop).2
      cases op <;> simp [BOp.setsFlag, BOp.Answers] at hv this
      · rw [hv.2]; rfl
      · exact absurd hv.1 this
      · rw [hv]; rfl
  have e4 : m.header.opcode = lastSet BOp.setsOpcode .Query ops := by
    rw [b2]
    show lastSet BOp.setsOpcode _ (BOp.id _ :: BOp.question _ :: BOp.make_response :: (ops ++ [BOp.done])) = _
    rw [lastSet_cons, lastSet_cons, lastSet_cons, drop_done _ _ rfl]
    rfl
  have e5 : m.header.rcode = lastSet BOp.setsRcode .NoError ops := by
    rw [b3]
    show lastSet BOp.setsRcode _ (BOp.id _ :: BOp.question _ :: BOp.make_response :: (ops ++ [BOp.done])) = _
    rw [lastSet_cons, lastSet_cons, lastSet_cons, drop_done _ _ rfl]
    rfl
  constructor
  · intro hl
    have hh : m.tidy.headSize = q.question.name.raw.length + 16 := by
      unfold Response.headSize
      rw [show m.tidy.question = q.question from e2]
      omega
    have n1 := c46_safe_sizes m.tidy (h2 hc).typed backing (Or.inr (by omega))
    have n2 := mt (c46_err_iff m.tidy (h2 hc).typed backing).mp (by omega)
    rw [m.tidy_to_wire] at n1 n2
    cases hx : m.to_wire (Render.new backing) with
    | mk x r =>
      rw [hx] at n1 n2
      cases x with
      | ok n => exact ⟨n, r, rfl⟩
      | err => exact absurd rfl n2
      | panic => exact absurd rfl n1
  intro n r hw
  rw [← m.tidy_to_wire] at hw
  obtain ⟨a1, a2, a3⟩ := c44_roundtrip m.tidy backing (h2 hc) n r hw
  refine ⟨a1, a2, ?_⟩
  rcases a3 with a3 | a3
  · exact ⟨m.tidy, a3, e1, e2, e3, e4, e5, Or.inl rfl, fun _ _ => rfl⟩
  · refine ⟨m.tidy.cut, a3, e1, e2, ?_, e4, e5, Or.inr ⟨?_, rfl, rfl, rfl⟩, fun hcf hsz => ?_⟩
    · exact ((c35_set_flag m.header .Truncation true).1 .QueryRespone).trans (by simpa using e3)
    · exact ((c35_set_flag m.header .Truncation true).1 .Truncation).trans (by simp)
    · rw [← m.tidy_size] at hsz
      rw [← m.tidy_names] at hcf
      have hfits : m.tidy.Fits := (h2 hc).fits (by
        by_cases hL : 65535 < backing.length
        · exact Or.inl hL
        · exact Or.inr fun t sets hs x hx rd hrd => by have := m.tidy.rdata_le_size t sets hs x hx rd hrd; omega)
      obtain ⟨n', r', g1, _, _, g2⟩ := c44_whole_partial m.tidy hfits hcf backing hsz
      rw [hw] at g1
      simp only [Prod.mk.injEq, Res.ok.injEq] at g1
      have g2 := g2 []
      rw [← g1.2, a3 []] at g2
      exact Res.ok.inj g2

theorem facts_added {before after : List RRset} {s : RRset} (h : Added before s after) : (after.flatMap RRset.facts).Perm (before.flatMap RRset.facts ++ s.facts) := by
  rcases h with ⟨pre, old, post, rfl, _, ⟨ht, la, lb, hla, hlb, ha, hb, hs⟩, rfl⟩ | ⟨_, rfl⟩
  · have e : RRset.facts { old with rdatas := old.rdatas ++ s.rdatas } = old.facts ++ s.facts := by
      have hn : lowerName old.name.labelList = lowerName s.name.labelList := by
        rw [ha, hb, R53.labels_ofLabels hla, R53.labels_ofLabels hlb]; exact hs
      simp only [RRset.facts, List.map_append, hn, ht]
    simp only [List.flatMap_append, List.flatMap_cons, List.append_assoc, e]
    refine List.Perm.append_left _ (List.Perm.append_left _ ?_)
    exact List.perm_append_comm
  · simp

/-- and if no call takes anything out, each section says exactly what the calls added to it -/
theorem c101_data : ∀ (ops : List BOp) (m m' : Response) (L : Nat), BOp.runAll ops m = .ok m' → (∀ t, Proper L t (m.section_ t).sets) →
    (∀ op ∈ ops, op.Sendable L ∧ op.Grows) → ∀ t, ((m'.section_ t).sets.flatMap RRset.facts).Perm ((m.section_ t).sets.flatMap RRset.facts ++ ops.flatMap (BOp.adds t)) := by
  intro ops
  induction ops with
  | nil => intro m m' L h _ _ t; cases h; simp
  | cons op ops ih =>
    intro m m' L h hm ho t
    obtain ⟨m1, h1, h2⟩ := Res.bind_eq_ok.1 h
    obtain ⟨m1', g1, g2⟩ := Proper.step hm (ho op (by simp)).1
    rw [h1] at g1
    obtain rfl : m1 = m1' := by simpa using g1
    have := ih m1 m' L h2 g2 (fun o h => ho o (by simp [h])) t
    refine this.trans ?_
    rw [List.flatMap_cons, ← List.append_assoc]
    refine List.Perm.append_right _ ?_
    have add : ∀ t' s, s.FitsIn L → Builder.add_rrset m t' s = .ok m1 → ((m1.section_ t).sets.flatMap RRset.facts).Perm
        ((m.section_ t).sets.flatMap RRset.facts ++ if t' = t then s.facts else []) := by
      intro t' s hs ha
      obtain ⟨m2, e1, _, _, e4, after, e5, e6⟩ := c48_add m t' s hs.name (hm t').ok.1
      rw [ha] at e1
      obtain rfl : m1 = m2 := by simpa using e1
      by_cases ht : t' = t
      · subst ht; rw [if_pos rfl, e5]; exact facts_added e6
      · rw [if_neg ht, e4 t (Ne.symm ht)]; simp
    cases op with
    | edns e =>
      have := add .Additional e.to_rrset (edns_fits L e) h1
      have he : e.to_rrset.facts = [] := rfl
      rw [he] at this
      simpa [BOp.adds] using this
    | add t' s => exact add t' s (show s.FitsIn L ∧ _ from (ho (.add t' s) (by simp)).1).1 h1
    | remove => exact (ho _ List.mem_cons_self).2.elim
    | clear => exact (ho _ List.mem_cons_self).2.elim
    | with_section => exact (ho _ List.mem_cons_self).2.elim
    | _ =>
      cases h1
      have : ((m.section_ t).sets.flatMap RRset.facts).Perm ((m.section_ t).sets.flatMap RRset.facts ++ []) := by simp
      cases t <;> exact this

/-! ## how large the response gets -/

/-- the room of the sets of a section -/
def RRset.sizes (sets : List RRset) : Nat := (sets.map RRset.size).sum

theorem section_size (s : Section) : Section.size s = RRset.sizes s.sets := by cases s <;> rfl
theorem section_names (s : Section) : Section.names s = s.sets.flatMap RRset.names := by cases s <;> rfl

theorem same_length {a b : RRset} (h : a.SameOwner b) : a.name.raw.length = b.name.raw.length := by
  obtain ⟨_, la, lb, hla, hlb, ha, hb, hs⟩ := h
  have hs : lowerName la = lowerName lb := hs
  have e : ∀ l : List Label, (wire (l ++ [[]])).length = (wire (lowerName l)).length + 1 := by
    intro l
    rw [← Name.lower_wire_length (l ++ [[]])]
    simp [lowerName, wire_append, lowerLabel, wire, labelWire]
  rw [ha, hb, Name.ofLabels_raw, Name.ofLabels_raw, e, e, hs]

theorem size_added {before after : List RRset} {s : RRset} (h : Added before s after) :
    RRset.sizes after ≤ RRset.sizes before + s.size ∧ ∀ n ∈ after.flatMap RRset.names, n ∈ before.flatMap RRset.names ++ s.names := by
  rcases h with ⟨pre, old, post, rfl, _, ho, rfl⟩ | ⟨_, rfl⟩
  · have hl := same_length ho
    constructor
    · have : RRset.size { old with rdatas := old.rdatas ++ s.rdatas } ≤ old.size + s.size := by
        unfold RRset.size
        by_cases h1 : old.rdatas = []
        · by_cases h2 : s.rdatas = []
          · simp [h1, h2]
          · simp [h1, h2, hl]
        · by_cases h2 : s.rdatas = []
          · simp [h1, h2]
          · simp [h1, h2, hl]
      simp only [RRset.sizes, List.map_append, List.map_cons, List.sum_append, List.sum_cons]
      omega
    · intro n hn
      simp only [RRset.names, List.flatMap_append, List.flatMap_cons, List.mem_append, List.mem_cons] at hn ⊢
      grind
  · constructor
    · simp [RRset.sizes]
    · intro n hn
      simpa using hn

/-- no response is larger than what was added, and no name comes from elsewhere -/
theorem grows : ∀ (ops : List BOp) (m m' : Response) (L : Nat), BOp.runAll ops m = .ok m' → (∀ t, Proper L t (m.section_ t).sets) → (∀ op ∈ ops, op.Sendable L ∧ op.Grows) →
    (Section.size m'.answer + (Section.size m'.authority + Section.size m'.additional) ≤
      Section.size m.answer + (Section.size m.authority + Section.size m.additional) + (ops.map BOp.room).sum) ∧
    ∀ n ∈ Section.names m'.answer ++ Section.names m'.authority ++ Section.names m'.additional,
      n ∈ Section.names m.answer ++ Section.names m.authority ++ Section.names m.additional ++ ops.flatMap BOp.names ∨ n = Name.root := by
  intro ops
  induction ops with
  | nil => intro m m' L h _ _; cases h; exact ⟨by simp, fun n hn => .inl (by simpa using hn)⟩
  | cons op ops ih =>
    intro m m' L h hm ho
    obtain ⟨m1, h1, h2⟩ := Res.bind_eq_ok.1 h
    obtain ⟨m1', g1, g2⟩ := Proper.step hm (ho op (by simp)).1
    rw [h1] at g1
    obtain rfl : m1 = m1' := by simpa using g1
    obtain ⟨k1, k2⟩ := ih m1 m' L h2 g2 (fun o h => ho o (by simp [h]))
    have add : ∀ t' s, s.FitsIn L → Builder.add_rrset m t' s = .ok m1 →
        (Section.size m1.answer + (Section.size m1.authority + Section.size m1.additional) ≤
          Section.size m.answer + (Section.size m.authority + Section.size m.additional) + s.size) ∧
        ∀ n ∈ Section.names m1.answer ++ Section.names m1.authority ++ Section.names m1.additional,
          n ∈ Section.names m.answer ++ Section.names m.authority ++ Section.names m.additional ++ s.names := by
      intro t' s hs ha
      obtain ⟨m2, e1, _, _, e4, after, e5, e6⟩ := c48_add m t' s hs.name (hm t').ok.1
      rw [ha] at e1
      obtain rfl : m1 = m2 := by simpa using e1
      obtain ⟨q1, q2⟩ := size_added e6
      have f : ∀ t, t ≠ t' → m1.section_ t = m.section_ t := fun t ht => e4 t ht
      cases t' with
      | Answer =>
        have f1 : m1.authority = m.authority := f .Authority (by simp)
        have f2 : m1.additional = m.additional := f .Additional (by simp)
        have f3 : m1.answer.sets = after := by rw [show m1.answer = some after from e5]; rfl
        rw [f1, f2, section_size m1.answer, section_names m1.answer, f3, section_size m.answer, section_names m.answer]
        refine ⟨by have : RRset.sizes after ≤ RRset.sizes m.answer.sets + s.size := q1; omega, fun n hn => ?_⟩
        have q2 : ∀ n ∈ after.flatMap RRset.names, n ∈ m.answer.sets.flatMap RRset.names ++ s.names := q2
        simp only [List.mem_append] at hn q2 ⊢
        grind
      | Authority =>
        have f1 : m1.answer = m.answer := f .Answer (by simp)
        have f2 : m1.additional = m.additional := f .Additional (by simp)
        have f3 : m1.authority.sets = after := by rw [show m1.authority = some after from e5]; rfl
        rw [f1, f2, section_size m1.authority, section_names m1.authority, f3, section_size m.authority, section_names m.authority]
        refine ⟨by have : RRset.sizes after ≤ RRset.sizes m.authority.sets + s.size := q1; omega, fun n hn => ?_⟩
        have q2 : ∀ n ∈ after.flatMap RRset.names, n ∈ m.authority.sets.flatMap RRset.names ++ s.names := q2
        simp only [List.mem_append] at hn q2 ⊢
        grind
      | Additional =>
        have f1 : m1.answer = m.answer := f .Answer (by simp)
        have f2 : m1.authority = m.authority := f .Authority (by simp)
        have f3 : m1.additional.sets = after := by rw [show m1.additional = some after from e5]; rfl
        rw [f1, f2, section_size m1.additional, section_names m1.additional, f3, section_size m.additional, section_names m.additional]
        refine ⟨by have : RRset.sizes after ≤ RRset.sizes m.additional.sets + s.size := q1; omega, fun n hn => ?_⟩
        have q2 : ∀ n ∈ after.flatMap RRset.names, n ∈ m.additional.sets.flatMap RRset.names ++ s.names := q2
        simp only [List.mem_append] at hn q2 ⊢
        grind
    rw [List.map_cons, List.sum_cons, List.flatMap_cons]
    have fin : (Section.size m1.answer + (Section.size m1.authority + Section.size m1.additional) ≤
          Section.size m.answer + (Section.size m.authority + Section.size m.additional) + op.room) →
        (∀ n ∈ Section.names m1.answer ++ Section.names m1.authority ++ Section.names m1.additional,
          n ∈ Section.names m.answer ++ Section.names m.authority ++ Section.names m.additional ++ op.names ∨ n = Name.root) →
        (Section.size m'.answer + (Section.size m'.authority + Section.size m'.additional) ≤
          Section.size m.answer + (Section.size m.authority + Section.size m.additional) + (op.room + (ops.map BOp.room).sum)) ∧
        ∀ n ∈ Section.names m'.answer ++ Section.names m'.authority ++ Section.names m'.additional,
          n ∈ Section.names m.answer ++ Section.names m.authority ++ Section.names m.additional ++ (op.names ++ ops.flatMap BOp.names) ∨ n = Name.root := by
      intro a1 a2
      refine ⟨by omega, fun n hn => ?_⟩
      have b1 := k2 n hn
      have b2 := a2 n
      simp only [List.mem_append] at b1 b2 ⊢
      grind
    cases op with
    | edns e =>
      obtain ⟨a1, a2⟩ := add .Additional e.to_rrset (edns_fits L e) h1
      refine fin a1 fun n hn => ?_
      rcases List.mem_append.1 (a2 n hn) with a2 | a2
      · exact .inl (List.mem_append_left _ a2)
      · exact .inr (by simpa [RRset.names, Edns.to_rrset] using a2)
    | add t' s =>
      obtain ⟨a1, a2⟩ := add t' s (show s.FitsIn L ∧ _ from (ho (.add t' s) (by simp)).1).1 h1
      exact fin a1 fun n hn => .inl (a2 n hn)
    | remove => exact (ho _ List.mem_cons_self).2.elim
    | clear => exact (ho _ List.mem_cons_self).2.elim
    | with_section => exact (ho _ List.mem_cons_self).2.elim
    | _ =>
      cases h1
      exact fin (Nat.le_refl _) fun n hn => .inl (List.mem_append_left _ hn)

theorem root_tails : Name.root.tails = [] := by decide

/-- names among these, and the root, do not clash if these do not -/
theorem ClashFree.mono {a b : List Name} (h : ClashFree b) (hs : ∀ n ∈ a, n ∈ b ∨ n = Name.root) : ClashFree a := by
  have key : ∀ x ∈ a.flatMap Name.tails, x ∈ b.flatMap Name.tails := by
    intro x hx
    obtain ⟨n, hn, hx⟩ := List.mem_flatMap.1 hx
    rcases hs n hn with h | rfl
    · exact List.mem_flatMap.2 ⟨n, h, hx⟩
    · rw [root_tails] at hx; cases hx
  exact fun x hx y hy => h x (key x hx) y (key y hy)

/-- The whole exchange: a client asks for a legal name and a type with a number of its own; the server, which sees only the octets, answers with any calls that
add data; the client, which sees only the octets of the answer, gets a response to its question with its id, which is complete - each section has
exactly the data that was added, of the owners and types it was added for - or, flagged as truncated, empty. It is complete if the buffer holds it with all names written
out and no two of the names collide under the hash function of the renderer (C44). -/
theorem c101_exchange (id rid : UInt16) (ls : List Label) (hv : ValidName ls) (t : RRType) (ht : RRType.new t.as_u16 = t) (cb sb : List UInt8)
    (hcb : (nameWire ls).length + 16 ≤ cb.length) (hsb : (nameWire ls).length + 271 ≤ sb.length) (ops : List BOp)
    (hops : ∀ op ∈ ops, op.Sendable sb.length ∧ op.Answers ∧ op.Grows) :
    ∃ nq rq q, (Request.new id (ofLabels ls) t).to_wire (Render.new cb) = (.ok nq, rq) ∧ Request.from_wire rq.data = .ok q ∧
      ∃ m, BOp.runAll (replyCalls q ops) (Response.with_question rid q.question.name q.question.typ) = .ok m ∧
        ((∀ s, (Section.records (m.section_ s)).length ≤ 65535) → ∃ n r m', m.to_wire (Render.new sb) = (.ok n, r) ∧ Response.from_wire r.data = .ok m' ∧
          m'.header.id = id ∧ m'.question = ⟨ofLabels ls, t, .IN⟩ ∧ m'.header.is_flag_set .QueryRespone = true ∧
          m'.header.rcode = lastSet BOp.setsRcode .NoError ops ∧
          ((∀ s, ((m'.section_ s).sets.flatMap RRset.facts).Perm (ops.flatMap (BOp.adds s))) ∨
            (m'.header.is_flag_set .Truncation = true ∧ ∀ s, m'.section_ s = none)) ∧
          (ClashFree (ofLabels ls :: ops.flatMap BOp.names) → (nameWire ls).length + 16 + (ops.map BOp.room).sum ≤ sb.length →
            ∀ s, ((m'.section_ s).sets.flatMap RRset.facts).Perm (ops.flatMap (BOp.adds s)))) := by
  obtain ⟨f1, f2, f3, f4, f5, f6, f7⟩ := c56_new id ls hv t ht
  have hraw : (ofLabels ls).raw = nameWire ls := by rw [Name.ofLabels_raw, nameWire_eq]
  obtain ⟨rq, x1, _⟩ := (c56_exact (Request.new id (ofLabels ls) t) ls hv rfl cb).1 (by omega)
  rcases c56_roundtrip _ f1 f2 f3 f4 cb with x2 | ⟨nq, rq', x2, _, _, x3⟩
  · rw [x1] at x2; simp at x2
  rw [x1] at x2
  simp only [Prod.mk.injEq, Res.ok.injEq] at x2
  obtain ⟨rfl, rfl⟩ := x2
  have x4 := x3 []
  rw [List.append_nil] at x4
  refine ⟨_, rq, _, x1, x4, ?_⟩
  obtain ⟨m, y1, y2⟩ := c101_answer rq.data _ x4 rid sb ops fun op h => ⟨(hops op h).1, (hops op h).2.1⟩
  refine ⟨m, y1, fun hc => ?_⟩
  obtain ⟨z1, z2⟩ := y2 hc
  obtain ⟨n, r, hw⟩ := z1 (by show (ofLabels ls).raw.length + 271 ≤ _; rw [hraw]; exact hsb)
  obtain ⟨_, _, m', w1, w2, w3, w4, _, w5, w6, w7⟩ := z2 n r hw
  have w1 := w1 []
  rw [List.append_nil] at w1
  have hall : ∀ op ∈ replyCalls (Request.new id (ofLabels ls) t) ops, op.Sendable sb.length ∧ op.Grows := by
    intro op ho
    simp only [replyCalls, List.cons_append, List.mem_cons, List.mem_append, List.not_mem_nil, or_false] at ho
    rcases ho with rfl | rfl | rfl | ho | rfl
    · exact ⟨trivial, trivial⟩
    · exact ⟨f1, trivial⟩
    · exact ⟨trivial, trivial⟩
    · exact ⟨(hops op ho).1, (hops op ho).2.2⟩
    · exact ⟨trivial, trivial⟩
  have hnil : ∀ t', Proper sb.length t' ((Response.with_question rid (ofLabels ls) t).section_ t').sets := fun t => by cases t <;> exact Proper.nil _ _
  have hfacts : ∀ s, (((m.tidy).section_ s).sets.flatMap RRset.facts).Perm (ops.flatMap (BOp.adds s)) := by
    intro s
    have := c101_data _ _ m sb.length y1 hnil hall s
    have e1 : (replyCalls (Request.new id (ofLabels ls) t) ops).flatMap (BOp.adds s) = ops.flatMap (BOp.adds s) := by
      simp [replyCalls, List.flatMap_cons, List.flatMap_append, BOp.adds]
    rw [e1] at this
    have e2 : ((Response.with_question rid (ofLabels ls) t).section_ s).sets.flatMap RRset.facts = [] := by cases s <;> rfl
    have e3 : ((m.tidy).section_ s).sets = (m.section_ s).sets := by cases s <;> exact tidy_sets _
    rw [e3]
    refine this.trans ?_
    show (((Response.with_question rid (ofLabels ls) t).section_ s).sets.flatMap RRset.facts ++ _).Perm _
    rw [e2, List.nil_append]
  have hm' : ∀ s, (ClashFree m.names → m.size ≤ sb.length → m' = m.tidy) → ClashFree (ofLabels ls :: ops.flatMap BOp.names) →
      (nameWire ls).length + 16 + (ops.map BOp.room).sum ≤ sb.length → ((m'.section_ s).sets.flatMap RRset.facts).Perm (ops.flatMap (BOp.adds s)) := by
    intro s hwhole hcf hsz
    obtain ⟨k1, k2⟩ := grows _ _ m sb.length y1 hnil hall
    have r1 : ((replyCalls (Request.new id (ofLabels ls) t) ops).map BOp.room).sum = (ops.map BOp.room).sum := by
      simp [replyCalls, BOp.room]
    have r2 : (replyCalls (Request.new id (ofLabels ls) t) ops).flatMap BOp.names = ops.flatMap BOp.names := by
      simp [replyCalls, BOp.names]
    have hq : m.question = (Request.new id (ofLabels ls) t).question := by
      rw [(c82_history _ _ m y1).2.2.2.1]
      show lastSet BOp.setsQuestion _ (BOp.id _ :: BOp.question _ :: BOp.make_response :: (ops ++ [BOp.done])) = _
      rw [lastSet_cons, lastSet_cons, lastSet_cons]
      refine lastSet_none _ _ _ fun op ho => ?_
      rcases List.mem_append.mp ho with ho | ho
      · have := (hops op ho).2.1
        cases op <;> first | rfl | exact absurd this (by simp [BOp.Answers])
      · rw [List.mem_singleton] at ho; subst ho; rfl
    have hqn : m.question.name = ofLabels ls := by rw [hq]; rfl
    rw [hwhole ?_ ?_]
    · exact hfacts s
    · refine hcf.mono fun n hn => ?_
      unfold Response.names at hn
      rw [List.mem_cons, hqn] at hn
      rcases hn with rfl | hn
      · exact .inl (by simp)
      · rcases k2 n hn with h | h
        · rw [r2] at h
          left
          exact List.mem_cons_of_mem _ (by simpa [Section.names, Response.with_question] using h)
        · exact .inr h
    · unfold Response.size Response.headSize
      rw [hqn, hraw]
      rw [r1] at k1
      have : Section.size (Response.with_question rid (ofLabels ls) t).answer + (Section.size (Response.with_question rid (ofLabels ls) t).authority +
        Section.size (Response.with_question rid (ofLabels ls) t).additional) = 0 := rfl
      have k1 : _ ≤ Section.size (Response.with_question rid (ofLabels ls) t).answer + (Section.size (Response.with_question rid (ofLabels ls) t).authority +
        Section.size (Response.with_question rid (ofLabels ls) t).additional) + _ := k1
      omega
  refine ⟨n, r, m', hw, w1, w2, w3, w4, w5, ?_, fun a b s => hm' s w7 a b⟩
  rcases w6 with rfl | ⟨w6, w7, w8, w9⟩
  · exact .inl hfacts
  · right
    exact ⟨w6, fun s => by cases s <;> assumption⟩

/-! ## the premises are met -/

namespace ExchangeSample
/-- a server's calls: two addresses of a., one call each, an authority, and EDNS -/
def addr (o : List UInt8) : RRset := ⟨ofLabels [[97]], .A, .IN, 60, [⟨.A, [.ip o]⟩]⟩
def auth : RRset := ⟨ofLabels [[97]], .NS, .IN, 60, [⟨.NS, [.name (ofLabels [[110], [97]])]⟩]⟩
def calls : List BOp := [.set_flag .AuthAnswer, .add .Answer (addr [1, 2, 3, 4]), .rcode .NoError, .add .Answer (addr [5, 6, 7, 8]), .add .Authority auth,
  .edns ⟨0, 0, 1232, true, none⟩]
/-- what the client gets: the addresses have become one set, and the sections have what was added -/
def gets : Response :=
  ⟨⟨7, 0x8500, .Query, .NoError, 1, 2, 1, 1⟩, ⟨ofLabels [[97]], .A, .IN⟩,
    some [⟨ofLabels [[97]], .A, .IN, 60, [⟨.A, [.ip [1, 2, 3, 4]]⟩, ⟨.A, [.ip [5, 6, 7, 8]]⟩]⟩], some [auth],
    some [⟨Name.root, .OPT, .Unknown 1232, 0x8000, []⟩]⟩

theorem addr_fits (o : List UInt8) (h : o.length = 4) (L : Nat) (hL : L ≤ 65535) : (addr o).FitsIn L := by
  refine ⟨⟨[[97]], by decide, rfl⟩, rfl, rfl, ?_, by simp [addr]⟩
  intro rd hrd
  rw [addr, List.mem_singleton] at hrd
  subst hrd
  have : RData.size ⟨.A, [.ip o]⟩ = 4 := by
    have e : RData.size ⟨.A, [.ip o]⟩ = o.length := by simp [RData.size, schema, fieldsSize, FieldVal.size]
    rw [e, h]
  exact ⟨rfl, ⟨_, rfl, h, trivial⟩, by omega, Or.inl hL⟩

theorem auth_fits (L : Nat) (hL : L ≤ 65535) : auth.FitsIn L := by
  refine ⟨⟨[[97]], by decide, rfl⟩, rfl, rfl, ?_, by simp [auth]⟩
  intro rd hrd
  rw [auth, List.mem_singleton] at hrd
  subst hrd
  exact ⟨rfl, ⟨_, rfl, ⟨[[110], [97]], by decide, rfl⟩, trivial⟩, by decide +kernel, Or.inl hL⟩

theorem calls_ok (L : Nat) (hL : L ≤ 65535) : ∀ op ∈ calls, op.Sendable L ∧ op.Answers ∧ op.Grows := by
  intro op h
  simp only [calls, List.mem_cons, List.not_mem_nil, or_false] at h
  rcases h with rfl | rfl | rfl | rfl | rfl | rfl
  · exact ⟨trivial, trivial, trivial⟩
  · exact ⟨⟨addr_fits _ rfl L hL, by decide⟩, trivial, trivial⟩
  · exact ⟨trivial, trivial, trivial⟩
  · exact ⟨⟨addr_fits _ rfl L hL, by decide⟩, trivial, trivial⟩
  · exact ⟨⟨auth_fits L hL, by decide⟩, trivial, trivial⟩
  · exact ⟨trivial, trivial, trivial⟩

theorem gets_built (rid : UInt16) : BOp.runAll (replyCalls (Request.new 7 (ofLabels [[97]]) .A) calls) (Response.with_question rid (ofLabels [[97]]) .A) = .ok gets := by
  have : ∀ rid, Response.with_question rid (ofLabels [[97]]) .A = { Response.with_question 0 (ofLabels [[97]]) .A with header := { (Response.with_question 0 (ofLabels [[97]]) .A).header with id := rid } } := fun _ => rfl
  have h0 : BOp.runAll (replyCalls (Request.new 7 (ofLabels [[97]]) .A) calls) (Response.with_question 0 (ofLabels [[97]]) .A) = .ok gets := by decide +kernel
  rw [this]
  exact h0
end ExchangeSample

/-- the sample exchange meets the premises; in 512 octets the answer is complete -/
theorem c101_example : ValidName [[97]] ∧ RRType.new RRType.A.as_u16 = .A ∧ (∀ op ∈ ExchangeSample.calls, op.Sendable 512 ∧ op.Answers ∧ op.Grows) ∧
    (∀ rid, BOp.runAll (replyCalls (Request.new 7 (ofLabels [[97]]) .A) ExchangeSample.calls) (Response.with_question rid (ofLabels [[97]]) .A) = .ok ExchangeSample.gets) ∧
    (∀ t, (Section.records (ExchangeSample.gets.section_ t)).length ≤ 65535) ∧
    ClashFree (ofLabels [[97]] :: ExchangeSample.calls.flatMap BOp.names) ∧ (nameWire [[97]]).length + 16 + (ExchangeSample.calls.map BOp.room).sum = 82 ∧
    ExchangeSample.gets.tidy = ExchangeSample.gets ∧ (ExchangeSample.gets.to_wire (Render.new (List.replicate 512 0))).1 = .ok 78 :=
  ⟨by decide, rfl, ExchangeSample.calls_ok 512 (by omega), ExchangeSample.gets_built, fun t => by cases t <;> decide, by decide +kernel, by decide +kernel, rfl, by decide +kernel⟩

end R53
