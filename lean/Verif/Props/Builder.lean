import Verif.Spec.Builder
import Verif.Props.Message
/-!
# C48–C52: response builder and iterator
-/
namespace R53

theorem section_set (m : Response) (t t' : SectionType) (s : Section) :
    (m.setSection t s).section_ t' = if t' = t then s else m.section_ t' := by
  cases t <;> cases t' <;> rfl

theorem setSection_header (m : Response) (t : SectionType) (s : Section) : (m.setSection t s).header = m.header ∧
    (m.setSection t s).question = m.question := by cases t <;> exact ⟨rfl, rfl⟩

/-! ## C48 -/

theorem merge_spec {s : RRset} (hs : s.name.WF) : ∀ (sets : List RRset), (∀ x ∈ sets, x.name.WF) →
    ∃ out, Builder.merge s sets = .ok out ∧ Added sets s out := by
  intro sets
  induction sets with
  | nil => intro _; exact ⟨[s], rfl, Or.inr ⟨by simp, rfl⟩⟩
  | cons old rest ih =>
    intro h
    obtain ⟨b, hb, hbs⟩ := same_rrset_ok (s := old) (t := s) (h old (by simp)) hs
    unfold Builder.merge
    cases b with
    | true =>
      refine ⟨{ old with rdatas := old.rdatas ++ s.rdatas } :: rest, by rw [hb]; rfl, Or.inl ⟨[], old, rest, rfl, by simp, hbs.mp rfl, rfl⟩⟩
    | false =>
      have hno : ¬ old.SameOwner s := fun h => by simpa using hbs.mpr h
      obtain ⟨out, h1, h2⟩ := ih fun x hx => h x (by simp [hx])
      refine ⟨old :: out, by rw [hb]; show (do let rest ← Builder.merge s rest; pure (old :: rest)) = _; rw [h1]; rfl, ?_⟩
      rcases h2 with ⟨pre, o, post, e1, e2, e3, e4⟩ | ⟨e1, e2⟩
      · refine Or.inl ⟨old :: pre, o, post, by rw [e1]; rfl, ?_, e3, by rw [e4]; rfl⟩
        intro x hx
        rcases List.mem_cons.mp hx with rfl | hx
        · exact hno
        · exact e2 x hx
      · refine Or.inr ⟨?_, by rw [e2]; rfl⟩
        intro x hx
        rcases List.mem_cons.mp hx with rfl | hx
        · exact hno
        · exact e1 x hx

/-- `add_rrset` returns, merges or appends in the section named, and touches nothing else -/
theorem c48_add (m : Response) (t : SectionType) (s : RRset) (hs : s.name.WF) (hm : ∀ x ∈ (m.section_ t).sets, x.name.WF) :
    ∃ m', Builder.add_rrset m t s = .ok m' ∧ m'.header = m.header ∧ m'.question = m.question ∧
      (∀ t', t' ≠ t → m'.section_ t' = m.section_ t') ∧ ∃ after, m'.section_ t = some after ∧ Added (m.section_ t).sets s after := by
  unfold Builder.add_rrset
  match h : m.section_ t with
  | none =>
    refine ⟨_, rfl, (setSection_header _ _ _).1, (setSection_header _ _ _).2, fun t' ht => ?_, [s], ?_, Or.inr ⟨by simp [Section.sets], rfl⟩⟩
    · rw [section_set, if_neg ht]
    · rw [section_set, if_pos rfl]
  | some sets =>
    rw [h] at hm
    obtain ⟨out, h1, h2⟩ := merge_spec hs sets hm
    refine ⟨m.setSection t (some out), by simp only [h1]; rfl, (setSection_header _ _ _).1, (setSection_header _ _ _).2, fun t' ht => ?_, out, ?_, h2⟩
    · rw [section_set, if_neg ht]
    · rw [section_set, if_pos rfl]

/-- no data is lost or invented, whichever case applies -/
theorem c48_data {before after : List RRset} {s : RRset} (h : Added before s after) :
    (after.flatMap RRset.rdatas).Perm (before.flatMap RRset.rdatas ++ s.rdatas) := by
  rcases h with ⟨pre, old, post, rfl, _, _, rfl⟩ | ⟨_, rfl⟩
  · simp only [List.flatMap_append, List.flatMap_cons, List.append_assoc]
    refine List.Perm.append_left _ (List.Perm.append_left _ ?_)
    exact List.perm_append_comm
  · simp

/-- with a set of the same class and TTL (or no set to merge with), the records of the section afterwards are those before and
those added. Missing: the class and TTL of the new records otherwise, see `c48_class_ttl_violated`. -/
theorem c48_records_partial {before after : List RRset} {s : RRset} (h : Added before s after) (hne : s.rdatas ≠ [])
    (hall : ∀ x ∈ before, x.SameOwner s → x.name = s.name ∧ x.class_ = s.class_ ∧ x.ttl = s.ttl ∧ x.rdatas ≠ []) :
    (after.flatMap RRset.records).Perm (before.flatMap RRset.records ++ s.records) := by
  rcases h with ⟨pre, old, post, rfl, _, h2, rfl⟩ | ⟨_, rfl⟩
  · obtain ⟨e1, e2, e3, e4⟩ := hall old (by simp) h2
    have e5 : old.typ = s.typ := h2.1
    have : RRset.records { old with rdatas := old.rdatas ++ s.rdatas } = old.records ++ s.records := by
      unfold RRset.records
      rw [if_neg (by simp [e4]), if_neg e4, if_neg hne, List.map_append]
      congr 1
      apply List.map_congr_left
      intro rd _
      simp [e1, e2, e3, e5]
    simp only [List.flatMap_append, List.flatMap_cons, List.append_assoc, this]
    refine List.Perm.append_left _ (List.Perm.append_left _ ?_)
    exact List.perm_append_comm
  · simp

/-- merging drops the class and TTL of the added records -/
theorem c48_class_ttl_violated : ∃ m, Builder.add_rrset sampleMsg .Answer recB = .ok m ∧
    ∀ r ∈ Section.records m.answer, r.ttl ≠ recB.ttl ∧ r.class_ ≠ recB.class_ := by
  refine ⟨{ sampleMsg with answer := some [⟨Name.ofLabels [[97]], .A, .IN, 60, [⟨.A, [.ip [1, 2, 3, 4]]⟩, ⟨.A, [.ip [5, 6, 7, 8]]⟩]⟩] }, by decide +kernel, ?_⟩
  decide +kernel

/-- the calls a user can make on a builder; `with_section` runs the user's function -/
inductive BOp : Type 1 where
  | id (v : UInt16)
  | set_flag (f : HeaderFlag)
  | clear_flag (f : HeaderFlag)
  | opcode (op : Opcode)
  | rcode (rc : Rcode)
  | question (q : Question)
  | edns (e : Edns)
  | make_response
  | add (t : SectionType) (s : RRset)
  | remove (σ : Type) (t : SectionType) (f : σ → RRset → Bool × σ) (st : σ)
  | clear (t : SectionType)
  | with_section (t : SectionType) (f : Section → Section)
  | done

def BOp.run : BOp → Response → Res Response
  | .id v, m => .ok (Builder.id m v)
  | .set_flag f, m => .ok (Builder.set_flag m f)
  | .clear_flag f, m => .ok (Builder.clear_flag m f)
  | .opcode op, m => .ok (Builder.opcode m op)
  | .rcode rc, m => .ok (Builder.rcode m rc)
  | .question q, m => .ok (Builder.question m q)
  | .edns e, m => Builder.edns m e
  | .make_response, m => .ok (Builder.make_response m)
  | .add t s, m => Builder.add_rrset m t s
  | .remove _ t f st, m => .ok (Builder.remove_rrset_by m t f st).1
  | .clear t, m => .ok (Builder.clear_section m t)
  | .with_section t f, m => .ok (Builder.with_section m t f)
  | .done, m => .ok (Builder.done m)

/-- sets with valid owners, no two of the same owner and type -/
def SetsOK (sets : List RRset) : Prop := (∀ s ∈ sets, s.name.WF) ∧ AllDistinct sets

/-- what the user brings in: valid names, and functions that keep sections in order -/
def BOp.Valid : BOp → Prop
  | .add _ s => s.name.WF
  | .with_section _ f => ∀ s : Section, SetsOK s.sets → SetsOK (f s).sets
  | _ => True

/-- a response some calls away from a fresh one -/
inductive Built : Response → Prop
  | start (id : UInt16) (name : Name) (t : RRType) : Built (Response.with_question id name t)
  | step {m m' : Response} (op : BOp) : Built m → op.Valid → op.run m = .ok m' → Built m'

theorem retain_sublist {σ : Type} (f : σ → RRset → Bool × σ) : ∀ (l : List RRset) (st : σ), List.Sublist (Builder.retain f st l).1 l := by
  intro l
  induction l with
  | nil => intro st; exact List.Sublist.slnil
  | cons a l ih =>
    intro st
    unfold Builder.retain
    simp only
    split
    · exact (ih _).cons _
    · exact (ih _).cons₂ _

theorem SetsOK.sublist {a b : List RRset} (h : SetsOK b) (hs : List.Sublist a b) : SetsOK a :=
  ⟨fun s hm => h.1 s (hs.subset hm), h.2.sublist hs⟩

theorem SetsOK.nil : SetsOK [] := ⟨by simp, List.Pairwise.nil⟩

theorem added_ok {before after : List RRset} {s : RRset} (hs : s.name.WF) (h : Added before s after) (hb : SetsOK before) : SetsOK after := by
  obtain ⟨h1, h2⟩ := hb
  rcases h with ⟨pre, old, post, rfl, _, _, rfl⟩ | ⟨h3, rfl⟩
  · refine ⟨?_, ?_⟩
    · intro x hx
      rcases List.mem_append.mp hx with hx | hx
      · exact h1 x (by simp [hx])
      · rcases List.mem_cons.mp hx with rfl | hx
        · exact h1 old (by simp)
        · exact h1 x (by simp [hx])
    · unfold AllDistinct at h2 ⊢
      rw [List.pairwise_append, List.pairwise_cons] at h2 ⊢
      obtain ⟨a1, ⟨a2, a3⟩, a4⟩ := h2
      refine ⟨a1, ⟨fun y hy => a2 y hy, a3⟩, fun x hx y hy => ?_⟩
      rcases List.mem_cons.mp hy with rfl | hy
      · exact a4 x hx old (by simp)
      · exact a4 x hx y (by simp [hy])
  · refine ⟨?_, ?_⟩
    · intro x hx
      rcases List.mem_append.mp hx with hx | hx
      · exact h1 x hx
      · rw [List.mem_singleton] at hx; subst hx; exact hs
    · unfold AllDistinct at h2 ⊢
      rw [List.pairwise_append]
      refine ⟨h2, by simp, fun x hx y hy => ?_⟩
      rw [List.mem_singleton] at hy; subst hy; exact h3 x hx

theorem edns_name (e : Edns) : e.to_rrset.name.WF := ⟨[], by decide, rfl⟩

theorem step_ok {m m' : Response} {op : BOp} (hm : ∀ t, SetsOK (m.section_ t).sets) (hv : op.Valid) (h : op.run m = .ok m') :
    ∀ t, SetsOK (m'.section_ t).sets := by
  have add : ∀ t s, s.name.WF → ∀ m', Builder.add_rrset m t s = .ok m' → ∀ t, SetsOK (m'.section_ t).sets := by
    intro t s hs m' h t'
    obtain ⟨m2, e1, _, _, e4, after, e5, e6⟩ := c48_add m t s hs (hm t).1
    rw [e1] at h
    obtain rfl : m2 = m' := by simpa using h
    by_cases ht : t' = t
    · subst ht; rw [e5]; exact added_ok hs e6 (hm t')
    · rw [e4 t' ht]; exact hm t'
  cases op with
  | edns e => exact add _ _ (edns_name e) _ h
  | add t s => exact add _ _ hv _ h
  | remove σ t f st =>
    obtain rfl : (Builder.remove_rrset_by m t f st).1 = m' := by simpa [BOp.run] using h
    intro t'
    unfold Builder.remove_rrset_by
    match hs : m.section_ t with
    | none => exact hm t'
    | some sets =>
      simp only
      rw [section_set]
      have := hm t
      rw [hs] at this
      split
      · exact this.sublist (retain_sublist f sets st)
      · exact hm t'
  | clear t =>
    obtain rfl : Builder.clear_section m t = m' := by simpa [BOp.run] using h
    intro t'
    unfold Builder.clear_section Response.clear_section
    rw [section_set]
    split
    · exact SetsOK.nil
    · exact hm t'
  | with_section t f =>
    obtain rfl : Builder.with_section m t f = m' := by simpa [BOp.run] using h
    intro t'
    unfold Builder.with_section Response.take_section
    simp only
    rw [section_set, section_set]
    split
    · exact hv _ (hm t)
    · exact hm t'
  | _ =>
    simp only [BOp.run, Res.ok.injEq] at h
    subst h
    intro t
    have := hm t
    cases t <;> exact this

/-- at any time no section has two sets of the same owner and type -/
theorem c48_distinct {m : Response} (h : Built m) : ∀ t, AllDistinct (m.section_ t).sets := by
  suffices ∀ t, SetsOK (m.section_ t).sets from fun t => (this t).2
  induction h with
  | start id name t => intro t; cases t <;> exact SetsOK.nil
  | step op _ hv hr ih => exact step_ok ih hv hr

/-- and no call fails -/
theorem c48_total {m : Response} (h : Built m) (op : BOp) (hv : op.Valid) : ∃ m', op.run m = .ok m' := by
  have hm : ∀ t, SetsOK (m.section_ t).sets := by
    induction h with
    | start id name t => intro t; cases t <;> exact SetsOK.nil
    | step op _ hv hr ih => exact step_ok ih hv hr
  cases op with
  | edns e => obtain ⟨m', h, _⟩ := c48_add m .Additional e.to_rrset (edns_name e) (hm _).1; exact ⟨m', h⟩
  | add t s => obtain ⟨m', h, _⟩ := c48_add m t s hv (hm _).1; exact ⟨m', h⟩
  | _ => exact ⟨_, rfl⟩

/-- the two A records of `recA` and `recB` in one set -/
def recAB : RRset := ⟨Name.ofLabels [[97]], .A, .IN, 60, [⟨.A, [.ip [1, 2, 3, 4]]⟩, ⟨.A, [.ip [5, 6, 7, 8]]⟩]⟩
def fresh : Response := Response.with_question 0 (Name.ofLabels []) .A

/-- a history with both cases of `add_rrset` -/
example : Built { fresh with answer := some [recAB, recOpt] } := by
  have h0 : Built fresh := .start 0 (Name.ofLabels []) .A
  have h1 : Built { fresh with answer := some [recA] } := .step (.add .Answer recA) h0 recA_fits.name (by decide +kernel)
  have h2 : Built { fresh with answer := some [recAB] } := .step (.add .Answer recB) h1 recB_fits.name (by decide +kernel)
  exact .step (.add .Answer recOpt) h2 recOpt_fits.name (by decide +kernel)

/-! ## C49 -/

/-- the additional section has no OPT record yet: the EDNS value set is the one read back, from the finished message too.
Missing: sets added behind it, and a second `edns`, see `c49_behind_violated` and `c49_twice_violated`. -/
theorem c49_first_partial (m : Response) (e : Edns) (hw : ∀ x ∈ m.additional.sets, x.name.WF) (hno : ∀ x ∈ m.additional.sets, x.typ ≠ .OPT) :
    ∃ m', Builder.edns m e = .ok m' ∧ m'.get_edns = .ok (some { e with options := none }) ∧
      (Builder.done m').get_edns = .ok (some { e with options := none }) ∧
      m'.answer = m.answer ∧ m'.authority = m.authority ∧ m'.header = m.header ∧ m'.question = m.question := by
  obtain ⟨m', h1, h2, h3, h4, after, h5, h6⟩ := c48_add m .Additional e.to_rrset (edns_name e) hw
  have hafter : after = m.additional.sets ++ [e.to_rrset] := by
    rcases h6 with ⟨pre, old, post, e1, _, e3, _⟩ | ⟨_, e2⟩
    · have e1' : m.additional.sets = pre ++ old :: post := e1
      exact absurd e3.1 (hno old (by rw [e1']; simp))
    · exact e2
  have hadd : m'.additional = some after := h5
  have hg : ∀ x : Response, x.additional = some after → x.get_edns = .ok (some { e with options := none }) := by
    intro x hx
    unfold Response.get_edns
    rw [hx, hafter]
    simp only [List.getLast?_append, List.getLast?_singleton, Option.or_some]
    show (if e.to_rrset.typ = .OPT then _ else _) = _
    rw [if_pos (show e.to_rrset.typ = .OPT from rfl), (c55_record e).2.2.2]; rfl
  exact ⟨m', h1, hg _ hadd, hg _ hadd, h4 .Answer (by decide), h4 .Authority (by decide), h2, h3⟩

/-- a later `edns` call is ignored -/
theorem c49_twice_violated : ∃ m m', Builder.edns fresh (Edns.mk 0 0 512 false none) = .ok m ∧ Builder.edns m (Edns.mk 0 0 4096 true none) = .ok m' ∧
    m' = m ∧ m'.get_edns = .ok (some (Edns.mk 0 0 512 false none)) := by
  refine ⟨{ fresh with additional := some [(Edns.mk 0 0 512 false none).to_rrset] }, _, ?_, ?_, rfl, ?_⟩ <;> decide +kernel

/-- and `get_edns` finds nothing once another set has been added behind it -/
theorem c49_behind_violated : ∃ m m', Builder.edns fresh (Edns.mk 0 0 512 false none) = .ok m ∧ Builder.add_rrset m .Additional recA = .ok m' ∧
    m'.get_edns = .ok none ∧ (Edns.mk 0 0 512 false none).to_rrset ∈ m'.additional.sets := by
  refine ⟨{ fresh with additional := some [(Edns.mk 0 0 512 false none).to_rrset] },
    { fresh with additional := some [(Edns.mk 0 0 512 false none).to_rrset, recA] }, ?_, ?_, ?_, ?_⟩ <;> decide +kernel

/-- what `edns` does in every case: an OPT record of the root that is there already, wherever, stays as it is and the call changes nothing;
else the value becomes the last set of the additional section -/
theorem c49_exact (m : Response) (e : Edns) (hw : ∀ x ∈ m.additional.sets, x.name.WF) :
    ((∃ x ∈ m.additional.sets, x.typ = .OPT ∧ x.name = Name.root) → Builder.edns m e = .ok m) ∧
    ((¬ ∃ x ∈ m.additional.sets, x.typ = .OPT ∧ x.name = Name.root) →
      Builder.edns m e = .ok { m with additional := some (m.additional.sets ++ [e.to_rrset]) } ∧
      Response.get_edns { m with additional := some (m.additional.sets ++ [e.to_rrset]) } = .ok (some { e with options := none })) := by
  obtain ⟨m', h1, h2, h3, h4, after, h5, h6⟩ := c48_add m .Additional e.to_rrset (edns_name e) hw
  have ha : m'.answer = m.answer := h4 .Answer (by decide)
  have hb : m'.authority = m.authority := h4 .Authority (by decide)
  have hc : m'.additional = some after := h5
  have hm : m' = { m with additional := some after } := by
    cases m'; cases m; simp_all
  have same : ∀ x ∈ m.additional.sets, x.SameOwner e.to_rrset ↔ x.typ = .OPT ∧ x.name = Name.root := by
    intro x hx
    obtain ⟨ls, hv, hl⟩ := hw x hx
    constructor
    · rintro ⟨h1, h2⟩
      refine ⟨h1, ?_⟩
      obtain ⟨la, lb, va, vb, ea, eb, hs⟩ := h2
      have eb' : ([] : List Label) = lb := Name.ofLabels_inj (by decide) vb eb
      subst eb'
      have : la = [] := by simpa [SameName, lowerName] using hs
      rw [ea, this]; rfl
    · rintro ⟨h1, h2⟩
      exact ⟨h1, [], [], by decide, by decide, h2, rfl, rfl⟩
  have hadd : Builder.edns m e = .ok m' := h1
  refine ⟨fun ⟨x, hx, hy⟩ => ?_, fun hno => ?_⟩
  · rcases h6 with ⟨pre, old, post, e1, _, e3, e4⟩ | ⟨e1, _⟩
    · have e5 : after = pre ++ old :: post := by rw [e4]; simp [Edns.to_rrset]
      have e6 : m.additional.sets = after := by rw [e5]; exact e1
      have e7 : m.additional = some after := by
        rw [← e6]
        cases hq : m.additional with
        | none => rw [hq] at hx; cases hx
        | some l => rfl
      rw [hadd, hm, ← e7]
    · exact absurd ((same x hx).2 hy) (e1 x hx)
  · rcases h6 with ⟨pre, old, post, e1, _, e3, _⟩ | ⟨_, e2⟩
    · have e1' : m.additional.sets = pre ++ old :: post := e1
      have ho : old ∈ m.additional.sets := by rw [e1']; simp
      exact absurd ⟨old, ho, (same old ho).1 e3⟩ hno
    · have e2' : after = m.additional.sets ++ [e.to_rrset] := e2
      refine ⟨by rw [hadd, hm, e2'], ?_⟩
      unfold Response.get_edns
      simp only [List.getLast?_append, List.getLast?_singleton, Option.or_some]
      show (if e.to_rrset.typ = .OPT then _ else _) = _
      rw [if_pos (show e.to_rrset.typ = .OPT from rfl), (c55_record e).2.2.2]; rfl

/-- `get_edns` sees an OPT record only as the last set of the additional section, and there always -/
theorem c49_seen (m : Response) : (∃ e, m.get_edns = .ok (some e)) ↔ ∃ before s, m.additional = some (before ++ [s]) ∧ s.typ = .OPT := by
  unfold Response.get_edns
  cases h : m.additional with
  | none => simp
  | some l =>
    rcases List.eq_nil_or_concat l with rfl | ⟨b, s, rfl⟩
    · simp
    · simp only [List.concat_eq_append, List.getLast?_append, List.getLast?_singleton, Option.some_or]
      by_cases ho : s.typ = .OPT
      · rw [if_pos ho]
        refine ⟨fun _ => ⟨b, s, rfl, ho⟩, fun _ => ?_⟩
        unfold Edns.from_rrset
        rw [(assertR_eq_ok (u := ())).2 ho]
        exact ⟨_, rfl⟩
      · rw [if_neg ho]
        refine ⟨fun ⟨e, he⟩ => by simp at he, fun ⟨b', s', he, ho'⟩ => ?_⟩
        simp only [Option.some.injEq] at he
        have := List.append_inj_right' he rfl
        simp only [List.cons.injEq, and_true] at this
        exact absurd (this ▸ ho') ho

/-- the first call on a builder whose additional section is not empty -/
example : (∀ x ∈ Section.sets (some [recAB]), x.name.WF) ∧ (∀ x ∈ Section.sets (some [recAB]), x.typ ≠ .OPT) := by
  refine ⟨fun x hx => ?_, by decide⟩
  obtain rfl : x = recAB := by simpa [Section.sets] using hx
  exact ⟨[[97]], by decide, rfl⟩

/-! ## C50 -/

/-- the answers of a stateful predicate called once on each set, in order -/
def answers {σ : Type} (f : σ → RRset → Bool × σ) : σ → List RRset → List Bool
  | _, [] => []
  | st, s :: ss => (f st s).1 :: answers f (f st s).2 ss

theorem retain_eq {σ : Type} (f : σ → RRset → Bool × σ) : ∀ (l : List RRset) (st : σ),
    (Builder.retain f st l).1 = ((l.zip (answers f st l)).filter fun p => !p.2).map (·.1) := by
  intro l
  induction l with
  | nil => intro _; rfl
  | cons s ss ih =>
    intro st
    unfold Builder.retain answers
    simp only
    rw [ih]
    cases h : (f st s).1 <;> simp [h]

/-- exactly the sets the predicate says yes to are gone, the others are there in the same order, and nothing else changes -/
theorem c50_remove (m : Response) (t : SectionType) (p : RRset → Bool) :
    let m' := (Builder.remove_rrset_by m t (fun (_ : Unit) s => (p s, ())) ()).1
    m'.section_ t = (m.section_ t).map (fun sets => sets.filter fun s => !p s) ∧
    (∀ t', t' ≠ t → m'.section_ t' = m.section_ t') ∧ m'.header = m.header ∧ m'.question = m.question := by
  intro m'
  have hr : ∀ l : List RRset, (Builder.retain (fun (_ : Unit) s => (p s, ())) () l).1 = l.filter fun s => !p s := by
    intro l
    induction l with
    | nil => rfl
    | cons s ss ih =>
      unfold Builder.retain
      simp only
      rw [ih]
      cases h : p s <;> simp [h]
  show ((Builder.remove_rrset_by m t (fun (_ : Unit) s => (p s, ())) ()).1.section_ t = _) ∧ _
  match h : m.section_ t with
  | none =>
    have hm : m' = m := by show (Builder.remove_rrset_by m t (fun (_ : Unit) s => (p s, ())) ()).1 = m; unfold Builder.remove_rrset_by; rw [h]
    exact ⟨by rw [show (Builder.remove_rrset_by m t (fun (_ : Unit) s => (p s, ())) ()).1 = m from hm, h]; rfl, fun t' _ => by rw [hm], by rw [hm], by rw [hm]⟩
  | some sets =>
    have hm : m' = m.setSection t (some (sets.filter fun s => !p s)) := by
      show (Builder.remove_rrset_by m t (fun (_ : Unit) s => (p s, ())) ()).1 = _
      unfold Builder.remove_rrset_by; rw [h]; simp only [hr]
    refine ⟨?_, fun t' ht => ?_, ?_, ?_⟩
    · rw [show (Builder.remove_rrset_by m t (fun (_ : Unit) s => (p s, ())) ()).1 = _ from hm, section_set, if_pos rfl]; rfl
    · rw [hm, section_set, if_neg ht]
    · rw [hm]; exact (setSection_header _ _ _).1
    · rw [hm]; exact (setSection_header _ _ _).2

/-- a predicate with state (`FnMut`) is called on every set once, in order -/
theorem c50_stateful {σ : Type} (m : Response) (t : SectionType) (f : σ → RRset → Bool × σ) (st : σ) (sets : List RRset) (h : m.section_ t = some sets) :
    (Builder.remove_rrset_by m t f st).1.section_ t = some (((sets.zip (answers f st sets)).filter fun p => !p.2).map (·.1)) := by
  unfold Builder.remove_rrset_by
  rw [h]
  simp only
  rw [section_set, if_pos rfl, retain_eq]

example : (Builder.remove_rrset_by { fresh with answer := some [recA, recOpt, recB] } .Answer (fun (n : Nat) s => (s.typ = .A && n = 0, n + 1)) 0).1.answer =
    some [recOpt, recB] := by decide +kernel

/-! ## C51, C52 -/

/-- a run of calls on an iterator: the answers and the iterator afterwards -/
def iterRun : List End → ResponseIter → Res (List (Option (RRset × SectionType)) × ResponseIter)
  | [], it => .ok ([], it)
  | .front :: ds, it => do
    let (x, it) ← it.next
    let (xs, it) ← iterRun ds it
    pure (x :: xs, it)
  | .back :: ds, it => do
    let (x, it) ← it.next_back
    let (xs, it) ← iterRun ds it
    pure (x :: xs, it)

/-- the iterator stands between two positions of the items of the message -/
structure IterOK (it : ResponseIter) : Prop where
  a : it.answer_rrset_count = it.msg.answer.sets.length
  b : it.authority_rrset_count = it.msg.authority.sets.length
  c : it.additional_rrset_count = it.msg.additional.sets.length
  le : it.index ≤ it.back_index
  end_ : it.back_index ≤ it.msg.items.length

theorem items_length (m : Response) : m.items.length = m.answer.sets.length + m.authority.sets.length + m.additional.sets.length := by
  simp [Response.items, Nat.add_assoc]

/-- what is left to yield -/
def ResponseIter.rest (it : ResponseIter) : List (RRset × SectionType) := (it.msg.items.take it.back_index).drop it.index

theorem sets_some {s : Section} {i : Nat} (h : i < s.sets.length) : ∃ sets, s = some sets ∧ sets = s.sets := by
  cases s with
  | none => simp [Section.sets] at h
  | some sets => exact ⟨sets, rfl, rfl⟩

theorem item_at {it : ResponseIter} (h : IterOK it) {i : Nat} (hi : i < it.msg.items.length) :
    it.get_rrset_at_index i = .ok (it.msg.items[i]) := by
  have hl := items_length it.msg
  have ha := h.a
  have hb := h.b
  have pick : ∀ (t : SectionType) (p : Nat) (x : RRset), (it.msg.section_ t).sets[p]? = some x → it.place i = .ok (t, p) →
      it.get_rrset_at_index i = .ok (x, t) := by
    intro t p x hp hpl
    unfold ResponseIter.get_rrset_at_index
    rw [hpl]
    show (match it.msg.section_ t with
      | none => Res.panic
      | some rrsets => do let s ← idx rrsets p; pure (s, t)) = _
    match h : it.msg.section_ t with
    | none => rw [h] at hp; simp [Section.sets] at hp
    | some sets =>
      rw [h] at hp
      have : idx sets p = .ok x := by unfold idx; rw [show sets[p]? = some x from hp]
      simp only [this]; rfl
  by_cases h1 : i < it.answer_rrset_count
  · have hp : i < it.msg.answer.sets.length := by omega
    rw [pick .Answer i (it.msg.answer.sets[i]) (List.getElem?_eq_getElem hp) (by unfold ResponseIter.place; rw [if_pos h1])]
    simp only [Response.items, List.append_assoc]
    rw [List.getElem_append_left (by simpa using hp)]
    simp
  · by_cases h2 : i < it.answer_rrset_count + it.authority_rrset_count
    · have hp : i - it.answer_rrset_count < it.msg.authority.sets.length := by omega
      have hc : csub i it.answer_rrset_count = .ok (i - it.answer_rrset_count) := by unfold csub; rw [if_pos (by omega)]
      rw [pick .Authority (i - it.answer_rrset_count) (it.msg.authority.sets[i - it.answer_rrset_count]) (List.getElem?_eq_getElem hp)
        (by unfold ResponseIter.place; rw [if_neg h1, if_pos h2, hc]; rfl)]
      simp only [Response.items]
      rw [List.getElem_append_left (by simp; omega), List.getElem_append_right (by simp; omega)]
      simp [ha]
    · have hp : i - it.answer_rrset_count - it.authority_rrset_count < it.msg.additional.sets.length := by omega
      have hc : csub i it.answer_rrset_count = .ok (i - it.answer_rrset_count) := by unfold csub; rw [if_pos (by omega)]
      have hd : csub (i - it.answer_rrset_count) it.authority_rrset_count = .ok (i - it.answer_rrset_count - it.authority_rrset_count) := by
        unfold csub; rw [if_pos (by omega)]
      rw [pick .Additional _ (it.msg.additional.sets[i - it.answer_rrset_count - it.authority_rrset_count]) (List.getElem?_eq_getElem hp)
        (by unfold ResponseIter.place; rw [if_neg h1, if_neg h2, hc, Res.bind_ok, hd]; rfl)]
      simp only [Response.items]
      rw [List.getElem_append_right (by simp; omega)]
      simp [ha, hb, Nat.sub_add_eq]

theorem iterOK_new (m : Response) : IterOK (ResponseIter.new m) := by
  have e : ∀ t, m.section_rrset_count t = (m.section_ t).sets.length := by
    intro t; unfold Response.section_rrset_count Section.sets
    cases m.section_ t <;> rfl
  refine ⟨e _, e _, e _, Nat.zero_le _, ?_⟩
  rw [items_length]
  show m.section_rrset_count .Answer + m.section_rrset_count .Additional + m.section_rrset_count .Authority ≤ _
  rw [e, e, e]
  show m.answer.sets.length + m.additional.sets.length + m.authority.sets.length ≤ m.answer.sets.length + m.authority.sets.length + m.additional.sets.length
  omega

theorem rest_new (m : Response) : (ResponseIter.new m).rest = m.items := by
  have h := (iterOK_new m)
  have : (ResponseIter.new m).back_index = m.items.length := by
    rw [items_length]
    have e : ∀ t, m.section_rrset_count t = (m.section_ t).sets.length := by
      intro t; unfold Response.section_rrset_count Section.sets
      cases m.section_ t <;> rfl
    show m.section_rrset_count .Answer + m.section_rrset_count .Additional + m.section_rrset_count .Authority = _
    rw [e, e, e]
    show m.answer.sets.length + m.additional.sets.length + m.authority.sets.length = m.answer.sets.length + m.authority.sets.length + m.additional.sets.length
    omega
  unfold ResponseIter.rest
  rw [this]
  show (m.items.take m.items.length).drop 0 = _
  simp

theorem rest_length {it : ResponseIter} (h : IterOK it) : it.rest.length = it.back_index - it.index := by
  unfold ResponseIter.rest
  rw [List.length_drop, List.length_take, Nat.min_eq_left h.end_]

theorem next_spec {it : ResponseIter} (h : IterOK it) : ∃ it', it.next = .ok (it.rest.head?, it') ∧ IterOK it' ∧ it'.rest = it.rest.tail ∧
    it'.msg = it.msg ∧ it'.index = it.index + (if it.rest = [] then 0 else 1) := by
  have hl := rest_length h
  have hle := h.le
  have hend := h.end_
  unfold ResponseIter.next
  by_cases he : it.index = it.back_index
  · have hr : it.rest = [] := List.eq_nil_of_length_eq_zero (by omega)
    rw [if_pos he, hr]
    exact ⟨it, rfl, h, by rw [hr]; rfl, rfl, by simp⟩
  · rw [if_neg he, item_at h (by omega)]
    have hlt : it.index < it.msg.items.length := by omega
    have hc : it.rest = it.msg.items[it.index] :: (it.msg.items.take it.back_index).drop (it.index + 1) := by
      unfold ResponseIter.rest
      rw [List.drop_eq_getElem_cons (by rw [List.length_take]; omega)]
      simp
    refine ⟨{ it with index := it.index + 1 }, by rw [hc]; rfl, ⟨h.a, h.b, h.c, ?_, h.end_⟩, by rw [hc]; rfl, rfl, by rw [hc]; simp⟩
    show it.index + 1 ≤ it.back_index
    omega

theorem next_back_spec {it : ResponseIter} (h : IterOK it) : ∃ it', it.next_back = .ok (it.rest.getLast?, it') ∧ IterOK it' ∧ it'.rest = it.rest.dropLast ∧
    it'.msg = it.msg ∧ it'.index = it.index := by
  have hl := rest_length h
  have hle := h.le
  have hend := h.end_
  unfold ResponseIter.next_back
  by_cases he : it.index = it.back_index
  · have hr : it.rest = [] := List.eq_nil_of_length_eq_zero (by omega)
    rw [if_pos he, hr]
    exact ⟨it, rfl, h, by rw [hr]; rfl, rfl, rfl⟩
  · rw [if_neg he]
    have hc : csub it.back_index 1 = .ok (it.back_index - 1) := by unfold csub; rw [if_pos (by omega)]
    rw [hc, Res.bind_ok, item_at h (by omega)]
    have hlt : it.back_index - 1 < it.msg.items.length := by omega
    have hlast : it.rest.getLast? = some (it.msg.items[it.back_index - 1]) := by
      rw [List.getLast?_eq_getElem?, hl]
      unfold ResponseIter.rest
      rw [List.getElem?_drop, List.getElem?_take, if_pos (by omega)]
      rw [show it.index + (it.back_index - it.index - 1) = it.back_index - 1 by omega]
      exact List.getElem?_eq_getElem hlt
    have hdrop : (it.msg.items.take (it.back_index - 1)).drop it.index = it.rest.dropLast := by
      rw [List.dropLast_eq_take, hl]
      unfold ResponseIter.rest
      rw [List.take_drop, List.take_take]
      congr 2
      omega
    refine ⟨{ it with back_index := it.back_index - 1 }, by rw [hlast]; rfl, ⟨h.a, h.b, h.c, ?_, ?_⟩, hdrop, rfl, rfl⟩
    · show it.index ≤ it.back_index - 1; omega
    · show it.back_index - 1 ≤ it.msg.items.length; omega

theorem iterRun_spec : ∀ (ds : List End) (it : ResponseIter), IterOK it →
    ∃ it', iterRun ds it = .ok ((deque ds it.rest).1, it') ∧ IterOK it' ∧ it'.rest = (deque ds it.rest).2 ∧ it'.msg = it.msg ∧
      it'.index = it.index + (yielded .front ds (deque ds it.rest).1).length := by
  intro ds
  induction ds with
  | nil => intro it h; exact ⟨it, rfl, h, rfl, rfl, rfl⟩
  | cons d ds ih =>
    intro it h
    cases d with
    | front =>
      obtain ⟨i1, e1, e2, e3, e4, e5⟩ := next_spec h
      obtain ⟨i2, f1, f2, f3, f4, f5⟩ := ih i1 e2
      rw [e3] at f1 f3 f5
      refine ⟨i2, ?_, f2, f3, f4.trans e4, ?_⟩
      · unfold iterRun deque
        rw [e1, Res.bind_ok]
        simp only
        rw [f1]; rfl
      · rw [f5, e5]
        simp only [deque, yielded]
        cases hr : it.rest with
        | nil => simp
        | cons a l => simp [Nat.add_assoc, Nat.add_comm 1]
    | back =>
      obtain ⟨i1, e1, e2, e3, e4, e5⟩ := next_back_spec h
      obtain ⟨i2, f1, f2, f3, f4, f5⟩ := ih i1 e2
      rw [e3] at f1 f3 f5
      refine ⟨i2, ?_, f2, f3, f4.trans e4, ?_⟩
      · unfold iterRun deque
        rw [e1, Res.bind_ok]
        simp only
        rw [f1]; rfl
      · rw [f5, e5]
        simp [deque, yielded]

/-- any interleaving of `next` and `next_back` answers as taking from the two ends of the list of sets does; no call panics -/
theorem c51_deque (m : Response) (ds : List End) :
    ∃ it', iterRun ds (ResponseIter.new m) = .ok ((deque ds m.items).1, it') := by
  obtain ⟨it', h, _⟩ := iterRun_spec ds _ (iterOK_new m)
  rw [rest_new] at h
  exact ⟨it', h⟩

/-- so: what came from the front, what is left, and what came from the back (reversed) are the sets of the message, and `None`
is answered only when nothing is left -/
theorem c51_once {α : Type} (ds : List End) (l : List α) :
    l = yielded .front ds (deque ds l).1 ++ (deque ds l).2 ++ (yielded .back ds (deque ds l).1).reverse ∧
    (none ∈ (deque ds l).1 → (deque ds l).2 = []) := by
  induction ds generalizing l with
  | nil => simp [deque, yielded]
  | cons d ds ih =>
    have mono : ∀ (ds : List End), (deque ds ([] : List α)).2 = [] := by
      intro ds; induction ds with
      | nil => rfl
      | cons d ds ih => cases d <;> exact ih
    cases d with
    | front =>
      obtain ⟨h1, h2⟩ := ih l.tail
      refine ⟨?_, ?_⟩
      · cases l with
        | nil =>
          have : ([] : List α).tail = [] := rfl
          rw [this] at h1
          simpa [deque, yielded] using h1
        | cons a l =>
          simp only [List.tail_cons] at h1
          conv => lhs; rw [h1]
          simp [deque, yielded]
      · intro h
        show (deque ds l.tail).2 = []
        have h' : none ∈ l.head? :: (deque ds l.tail).1 := h
        rcases List.mem_cons.mp h' with h' | h'
        · obtain rfl : l = [] := by cases l <;> simp at h' ⊢
          exact mono ds
        · exact h2 h'
    | back =>
      obtain ⟨h1, h2⟩ := ih l.dropLast
      refine ⟨?_, ?_⟩
      · rcases List.eq_nil_or_concat l with rfl | ⟨l', a, rfl⟩
        · have : ([] : List α).dropLast = [] := rfl
          rw [this] at h1
          simpa [deque, yielded] using h1
        · rw [List.concat_eq_append] at h1 ⊢
          rw [List.dropLast_concat] at h1
          conv => lhs; rw [h1]
          simp [deque, yielded]
      · intro h
        show (deque ds l.dropLast).2 = []
        have h' : none ∈ l.getLast? :: (deque ds l.dropLast).1 := h
        rcases List.mem_cons.mp h' with h' | h'
        · obtain rfl : l = [] := by simpa using h'.symm
          exact mono ds
        · exact h2 h'

/-- after the last set every call answers `None` -/
theorem c51_fused {α : Type} (ds : List End) : ∀ x ∈ (deque ds ([] : List α)).1, x = none := by
  induction ds with
  | nil => simp [deque]
  | cons d ds ih =>
    intro x hx
    cases d <;>
    · rcases List.mem_cons.mp hx with rfl | hx
      · rfl
      · exact ih x hx

example : (deque [.front, .back, .front, .back, .front] [1, 2, 3, 4]) = ([some 1, some 4, some 2, some 3, none], []) := by decide
example : (sampleOpt.items.map (·.2)) = [.Answer, .Answer] := by decide +kernel

/-- the hint is the number of sets left plus the number already taken from the back; so it is exact as long as `next_back` has
not yielded. Missing: otherwise, see `c52_violated`. -/
theorem c52_hint_partial (m : Response) (ds : List End) :
    ∃ xs it', iterRun ds (ResponseIter.new m) = .ok (xs, it') ∧
      let left := (deque ds m.items).2.length
      let taken := (yielded .back ds xs).length
      it'.size_hint = .ok (left + taken, some (left + taken)) := by
  obtain ⟨it', h, h2, h3, h4, h5⟩ := iterRun_spec ds _ (iterOK_new m)
  rw [rest_new] at h h3 h5
  refine ⟨_, it', h, ?_⟩
  simp only
  have hl := congrArg List.length (c51_once ds m.items).1
  simp only [List.length_append, List.length_reverse] at hl
  have hi : it'.index = (yielded .front ds (deque ds m.items).1).length := by
    rw [h5]; show 0 + _ = _; omega
  unfold ResponseIter.size_hint
  have hsum : it'.answer_rrset_count + it'.authority_rrset_count + it'.additional_rrset_count = m.items.length := by
    rw [h2.a, h2.b, h2.c, h4, items_length]; rfl
  rw [hsum, hi]
  have : csub m.items.length (yielded .front ds (deque ds m.items).1).length =
      .ok ((deque ds m.items).2.length + (yielded .back ds (deque ds m.items).1).length) := by
    unfold csub; rw [if_pos (by omega)]; congr 1; omega
  rw [this]; rfl

/-- after one `next_back` on a message of one set nothing is left, but the hint says one (and `ExactSizeIterator::len` with it) -/
theorem c52_violated : ∃ m xs it', iterRun [.back] (ResponseIter.new m) = .ok (xs, it') ∧ it'.size_hint = .ok (1, some 1) ∧
    it'.next = .ok (none, it') := by
  refine ⟨sampleMsg, [some (recA, .Answer)], { ResponseIter.new sampleMsg with back_index := 0 }, ?_, ?_, ?_⟩ <;> decide +kernel

end R53
