import Verif.Props.Builder
import Verif.Props.Codes
/-!
# Properties of the calls on a builder (C82)
-/
namespace R53

/-- calls one after the other -/
def BOp.runAll : List BOp → Response → Res Response
  | [], m => .ok m
  | op :: ops, m => do
    let m ← op.run m
    BOp.runAll ops m

/-- the value a list of calls leaves: that of the last call that names one -/
def lastSet {α : Type} (f : BOp → Option α) (init : α) (ops : List BOp) : α := ((ops.filterMap f).getLast?).getD init

/-- the id a call sets -/
def BOp.setsId : BOp → Option UInt16
  | .id v => some v
  | _ => none
/-- the opcode a call sets -/
def BOp.setsOpcode : BOp → Option Opcode
  | .opcode v => some v
  | _ => none
/-- the rcode a call sets -/
def BOp.setsRcode : BOp → Option Rcode
  | .rcode v => some v
  | _ => none
/-- the question a call sets -/
def BOp.setsQuestion : BOp → Option Question
  | .question v => some v
  | _ => none
/-- what a call makes of the flag `f` -/
def BOp.setsFlag (f : HeaderFlag) : BOp → Option Bool
  | .set_flag g => if g = f then some true else none
  | .clear_flag g => if g = f then some false else none
  | .make_response => if f = .QueryRespone then some true else none
  | _ => none
/-- the section a call is about -/
def BOp.section : BOp → Option SectionType
  | .edns _ => some .Additional
  | .add t _ => some t
  | .remove _ t _ _ => some t
  | .clear t => some t
  | .with_section t _ => some t
  | _ => none

theorem add_frame {m m' : Response} {t : SectionType} {s : RRset} (h : Builder.add_rrset m t s = .ok m') :
    m'.header = m.header ∧ m'.question = m.question ∧ ∀ t', t' ≠ t → m'.section_ t' = m.section_ t' := by
  have key : ∀ x, (m.setSection t x).header = m.header ∧ (m.setSection t x).question = m.question ∧
      ∀ t', t' ≠ t → (m.setSection t x).section_ t' = m.section_ t' := fun x =>
    ⟨(setSection_header _ _ _).1, (setSection_header _ _ _).2, fun t' ht => by rw [section_set, if_neg ht]⟩
  unfold Builder.add_rrset at h
  match hs : m.section_ t with
  | none => rw [hs] at h; cases h; exact key _
  | some sets =>
    rw [hs] at h
    obtain ⟨after, _, h⟩ := Res.bind_eq_ok.1 h
    cases h; exact key _

/-- one call changes what it names and nothing else: the fields and flags of the header, the question, the sections and, by `done`
alone, the counts -/
theorem c82_call (op : BOp) (m m' : Response) (h : op.run m = .ok m') :
    m'.header.id = op.setsId.getD m.header.id ∧ m'.header.opcode = op.setsOpcode.getD m.header.opcode ∧
    m'.header.rcode = op.setsRcode.getD m.header.rcode ∧ m'.question = op.setsQuestion.getD m.question ∧
    (∀ f, m'.header.is_flag_set f = (op.setsFlag f).getD (m.header.is_flag_set f)) ∧
    (∀ t, op.section ≠ some t → m'.section_ t = m.section_ t) ∧
    (op = .done → m'.header.qd_count = 1 ∧ m'.header.an_count = UInt16.ofNat (Section.records m.answer).length ∧
      m'.header.ns_count = UInt16.ofNat (Section.records m.authority).length ∧
      m'.header.ar_count = UInt16.ofNat (Section.records m.additional).length) ∧
    (op ≠ .done → m'.header.qd_count = m.header.qd_count ∧ m'.header.an_count = m.header.an_count ∧
      m'.header.ns_count = m.header.ns_count ∧ m'.header.ar_count = m.header.ar_count) := by
  have flag : ∀ (g : HeaderFlag) (b : Bool), (∀ f, (m.header.set_flag g b).is_flag_set f = ((if g = f then some b else none).getD (m.header.is_flag_set f))) := by
    intro g b f
    rw [(c35_set_flag m.header g b).1 f]
    by_cases e : g = f
    · simp [e]
    · rw [if_neg e, if_neg (fun h => e h.symm)]; rfl
  cases op with
  | id v => cases h; exact ⟨rfl, rfl, rfl, rfl, fun _ => rfl, fun t _ => by cases t <;> rfl, (fun h => nomatch h), fun _ => ⟨rfl, rfl, rfl, rfl⟩⟩
  | opcode v => cases h; exact ⟨rfl, rfl, rfl, rfl, fun _ => rfl, fun t _ => by cases t <;> rfl, (fun h => nomatch h), fun _ => ⟨rfl, rfl, rfl, rfl⟩⟩
  | rcode v => cases h; exact ⟨rfl, rfl, rfl, rfl, fun _ => rfl, fun t _ => by cases t <;> rfl, (fun h => nomatch h), fun _ => ⟨rfl, rfl, rfl, rfl⟩⟩
  | question v => cases h; exact ⟨rfl, rfl, rfl, rfl, fun _ => rfl, fun t _ => by cases t <;> rfl, (fun h => nomatch h), fun _ => ⟨rfl, rfl, rfl, rfl⟩⟩
  | set_flag g => cases h; exact ⟨rfl, rfl, rfl, rfl, flag g true, fun t _ => by cases t <;> rfl, (fun h => nomatch h), fun _ => ⟨rfl, rfl, rfl, rfl⟩⟩
  | clear_flag g => cases h; exact ⟨rfl, rfl, rfl, rfl, flag g false, fun t _ => by cases t <;> rfl, (fun h => nomatch h), fun _ => ⟨rfl, rfl, rfl, rfl⟩⟩
  | make_response =>
    cases h
    refine ⟨rfl, rfl, rfl, rfl, fun f => ?_, fun t _ => by cases t <;> rfl, (fun h => nomatch h), fun _ => ⟨rfl, rfl, rfl, rfl⟩⟩
    refine (flag .QueryRespone true f).trans ?_
    cases f <;> rfl
  | edns e =>
    obtain ⟨h1, h2, h3⟩ := add_frame h
    exact ⟨by rw [h1]; rfl, by rw [h1]; rfl, by rw [h1]; rfl, h2, fun f => by rw [h1]; rfl, fun t ht => h3 t (fun e => ht (by rw [e]; rfl)),
      (fun h => nomatch h), fun _ => ⟨by rw [h1], by rw [h1], by rw [h1], by rw [h1]⟩⟩
  | add t s =>
    obtain ⟨h1, h2, h3⟩ := add_frame h
    exact ⟨by rw [h1]; rfl, by rw [h1]; rfl, by rw [h1]; rfl, h2, fun f => by rw [h1]; rfl, fun t ht => h3 t (fun e => ht (by rw [e]; rfl)),
      (fun h => nomatch h), fun _ => ⟨by rw [h1], by rw [h1], by rw [h1], by rw [h1]⟩⟩
  | remove σ t f st =>
    cases h
    unfold Builder.remove_rrset_by
    match hs : m.section_ t with
    | none => exact ⟨rfl, rfl, rfl, rfl, fun _ => rfl, fun t _ => rfl, (fun h => nomatch h), fun _ => ⟨rfl, rfl, rfl, rfl⟩⟩
    | some sets =>
      have e1 : ∀ x, (m.setSection t x).header = m.header := fun x => (setSection_header _ _ _).1
      have e2 : ∀ x, (m.setSection t x).question = m.question := fun x => (setSection_header _ _ _).2
      rw [e1, e2]
      exact ⟨rfl, rfl, rfl, rfl, fun _ => rfl, fun t' ht => by rw [section_set, if_neg (fun e => ht (by rw [e]; rfl))], (fun h => nomatch h), fun _ => ⟨rfl, rfl, rfl, rfl⟩⟩
  | clear t =>
    cases h
    have e1 : (m.setSection t none).header = m.header := (setSection_header _ _ _).1
    have e2 : (m.setSection t none).question = m.question := (setSection_header _ _ _).2
    unfold Builder.clear_section Response.clear_section
    rw [e1, e2]
    exact ⟨rfl, rfl, rfl, rfl, fun _ => rfl, fun t' ht => by rw [section_set, if_neg (fun e => ht (by rw [e]; rfl))], (fun h => nomatch h), fun _ => ⟨rfl, rfl, rfl, rfl⟩⟩
  | with_section t f =>
    cases h
    unfold Builder.with_section Response.take_section
    simp only
    have e1 : ((m.setSection t none).setSection t (f (m.section_ t))).header = m.header :=
      (setSection_header _ _ _).1.trans (setSection_header _ _ _).1
    have e2 : ((m.setSection t none).setSection t (f (m.section_ t))).question = m.question :=
      (setSection_header _ _ _).2.trans (setSection_header _ _ _).2
    rw [e1, e2]
    refine ⟨rfl, rfl, rfl, rfl, fun _ => rfl, fun t' ht => ?_, (fun h => nomatch h), fun _ => ⟨rfl, rfl, rfl, rfl⟩⟩
    have : t' ≠ t := fun e => ht (by rw [e]; rfl)
    rw [section_set, if_neg this, section_set, if_neg this]
  | done =>
    cases h
    refine ⟨rfl, rfl, rfl, rfl, fun _ => rfl, fun t _ => by cases t <;> rfl, fun _ => ⟨rfl, ?_, ?_, ?_⟩, fun h => absurd rfl h⟩ <;>
      simp only [Builder.done, Response.recalculate_header, rr_count_eq]

theorem lastSet_cons {α : Type} (f : BOp → Option α) (init : α) (op : BOp) (ops : List BOp) :
    lastSet f init (op :: ops) = lastSet f ((f op).getD init) ops := by
  unfold lastSet
  cases h : f op with
  | none => simp [h]
  | some v =>
    simp only [List.filterMap_cons, h, Option.getD_some]
    rw [List.getLast?_cons]; rfl

/-- whatever calls are made, in any order, the last one that sets a field or flag decides, and a section no call is about is kept -/
theorem c82_history : ∀ (ops : List BOp) (m m' : Response), BOp.runAll ops m = .ok m' →
    m'.header.id = lastSet BOp.setsId m.header.id ops ∧ m'.header.opcode = lastSet BOp.setsOpcode m.header.opcode ops ∧
    m'.header.rcode = lastSet BOp.setsRcode m.header.rcode ops ∧ m'.question = lastSet BOp.setsQuestion m.question ops ∧
    (∀ f, m'.header.is_flag_set f = lastSet (BOp.setsFlag f) (m.header.is_flag_set f) ops) ∧
    (∀ t, (∀ op ∈ ops, op.section ≠ some t) → m'.section_ t = m.section_ t) := by
  intro ops
  induction ops with
  | nil => intro m m' h; cases h; exact ⟨rfl, rfl, rfl, rfl, fun _ => rfl, fun _ _ => rfl⟩
  | cons op ops ih =>
    intro m m' h
    unfold BOp.runAll at h
    obtain ⟨m1, h1, h⟩ := Res.bind_eq_ok.1 h
    obtain ⟨a1, a2, a3, a4, a5, a6, -, -⟩ := c82_call op m m1 h1
    obtain ⟨b1, b2, b3, b4, b5, b6⟩ := ih m1 m' h
    simp only [lastSet_cons]
    refine ⟨by rw [b1, a1], by rw [b2, a2], by rw [b3, a3], by rw [b4, a4], fun f => by rw [b5 f, a5 f], fun t ht => ?_⟩
    rw [b6 t (fun op ho => ht op (by simp [ho])), a6 t (ht op (by simp))]

/-- and with `done` as the last call the counts are those of the message -/
theorem c82_done (ops : List BOp) (m m' : Response) (h : BOp.runAll (ops ++ [.done]) m = .ok m') :
    m'.header.qd_count = 1 ∧ m'.header.an_count = UInt16.ofNat (Section.records m'.answer).length ∧
    m'.header.ns_count = UInt16.ofNat (Section.records m'.authority).length ∧
    m'.header.ar_count = UInt16.ofNat (Section.records m'.additional).length := by
  induction ops generalizing m with
  | nil =>
    simp only [List.nil_append, BOp.runAll, BOp.run, Res.bind_ok, Res.ok.injEq] at h
    subst h
    exact (c82_call .done m _ rfl).2.2.2.2.2.2.1 rfl
  | cons op ops ih =>
    rw [List.cons_append] at h
    unfold BOp.runAll at h
    obtain ⟨m1, _, h⟩ := Res.bind_eq_ok.1 h
    exact ih m1 h

/-- a history: two ids, a flag set and cleared, a record added; it runs -/
example : ∃ m, BOp.runAll [.id 3, .set_flag .AuthenticData, .make_response, .add .Answer recA, .id 9, .clear_flag .AuthenticData, .rcode .NXDomain, .done] fresh = .ok m ∧
    m.header.id = 9 ∧ m.header.is_flag_set .AuthenticData = false ∧ m.header.is_flag_set .QueryRespone = true ∧ m.header.an_count = 1 := by
  refine ⟨⟨⟨9, 0x8100, .Query, .NXDomain, 1, 1, 0, 0⟩, fresh.question, some [recA], none, none⟩, ?_⟩
  decide +kernel

end R53
