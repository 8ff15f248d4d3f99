import Verif.Spec.Same
import Verif.Props.Builder
import Verif.Props.Decode
/-!
# C79: equality of messages
-/
namespace R53

/-- a valid question name, and sections of sets with valid owners and fitting data with ASCII names -/
def Response.Good (m : Response) : Prop := m.question.name.WF ∧ ∀ t, ∀ s ∈ (m.section_ t).sets, s.Good

theorem question_eq_spec {a b : Question} (ha : a.name.WF) (hb : b.name.WF) : ∃ r, a.eq b = .ok r ∧ (r = true ↔ a.Same b) := by
  obtain ⟨r, h1, h2⟩ := same_rrset_ok (s := ⟨a.name, .A, .IN, 0, []⟩) (t := ⟨b.name, .A, .IN, 0, []⟩) ha hb
  unfold RRset.is_same_rrset at h1
  rw [if_pos rfl] at h1
  refine ⟨r && decide (a.typ = b.typ) && decide (a.class_ = b.class_), ?_, ?_⟩
  · have h1' : Name.eq a.name b.name = .ok r := h1
    unfold Question.eq
    rw [h1', Res.bind_ok]; rfl
  · simp only [Bool.and_eq_true, decide_eq_true_eq, h2, Question.Same, RRset.SameOwner]
    simp [and_assoc]

/-- equality of questions -/
theorem c79_question (a b : Question) (ha : a.name.WF) (hb : b.name.WF) : (∃ r, a.eq b = .ok r) ∧ (a.eq b = .ok true ↔ a.Same b) := by
  obtain ⟨r, h1, h2⟩ := question_eq_spec ha hb
  exact ⟨⟨r, h1⟩, by rw [h1, ← h2]; simp⟩

variable {mode : Build} {sort : List RData → Res (List RData)}

theorem eqSets_spec (hsort : SortSpec mode sort) : ∀ (a b : List RRset), (∀ s ∈ a, s.Good) → (∀ s ∈ b, s.Good) → a.length = b.length →
    ∃ r, Section.eqSets sort a b = .ok r ∧ (r = true ↔ List.Forall₂ (fun s t => RRset.eq sort s t = .ok true) a b) := by
  intro a
  induction a with
  | nil =>
    intro b _ _ hl
    have : b = [] := by simpa using hl.symm
    subst this
    exact ⟨true, rfl, by simp⟩
  | cons s a ih =>
    intro b ha hb hl
    cases b with
    | nil => simp at hl
    | cons t b =>
      obtain ⟨r, h1⟩ := c40_total hsort (ha s (by simp)) (hb t (by simp))
      unfold Section.eqSets
      rw [h1, Res.bind_ok]
      cases r with
      | false => exact ⟨false, rfl, by simp [h1]⟩
      | true =>
        obtain ⟨r, h2, h3⟩ := ih b (fun x hx => ha x (by simp [hx])) (fun x hx => hb x (by simp [hx])) (by simpa using hl)
        exact ⟨r, h2, by rw [h3]; simp [h1]⟩

theorem forall2_length {α β : Type} {R : α → β → Prop} {a : List α} {b : List β} (h : List.Forall₂ R a b) : a.length = b.length := by
  induction h with
  | nil => rfl
  | cons _ _ ih => simp [ih]

/-- both absent, or equal sets in the same order -/
def EqSections (sort : List RData → Res (List RData)) : Section → Section → Prop
  | none, none => True
  | some a, some b => List.Forall₂ (fun s t => RRset.eq sort s t = .ok true) a b
  | _, _ => False

theorem section_eq_spec (hsort : SortSpec mode sort) (a b : Section) (ha : ∀ s ∈ a.sets, s.Good) (hb : ∀ s ∈ b.sets, s.Good) :
    ∃ r, Section.eq sort a b = .ok r ∧ (r = true ↔ EqSections sort a b) := by
  cases a with
  | none =>
    cases b with
    | none => exact ⟨true, rfl, by simp [EqSections]⟩
    | some b => exact ⟨false, rfl, by simp [EqSections]⟩
  | some a =>
    cases b with
    | none => exact ⟨false, rfl, by simp [EqSections]⟩
    | some b =>
      show ∃ r, (if a.length ≠ b.length then Res.ok false else Section.eqSets sort a b) = .ok r ∧ _
      by_cases hl : a.length = b.length
      · rw [if_neg (by simp [hl])]
        exact eqSets_spec hsort a b ha hb hl
      · rw [if_pos hl]
        exact ⟨false, rfl, by simp only [Bool.false_eq_true, false_iff]; exact fun h => hl (forall2_length h)⟩

theorem response_eq_spec (hsort : SortSpec mode sort) (a b : Response) (ha : a.Good) (hb : b.Good) :
    ∃ r, Response.eq sort a b = .ok r ∧ (r = true ↔ a.header = b.header ∧ a.question.Same b.question ∧
      ∀ t, EqSections sort (a.section_ t) (b.section_ t)) := by
  have all : (∀ t, EqSections sort (a.section_ t) (b.section_ t)) ↔ EqSections sort a.answer b.answer ∧
      EqSections sort a.authority b.authority ∧ EqSections sort a.additional b.additional :=
    ⟨fun h => ⟨h .Answer, h .Authority, h .Additional⟩, fun h t => match t with | .Answer => h.1 | .Authority => h.2.1 | .Additional => h.2.2⟩
  rw [all]
  unfold Response.eq
  by_cases hh : a.header = b.header
  · rw [if_neg (by simp [hh])]
    obtain ⟨q, q1, q2⟩ := question_eq_spec ha.1 hb.1
    obtain ⟨x, x1, x2⟩ := section_eq_spec hsort a.answer b.answer (ha.2 .Answer) (hb.2 .Answer)
    obtain ⟨y, y1, y2⟩ := section_eq_spec hsort a.authority b.authority (ha.2 .Authority) (hb.2 .Authority)
    obtain ⟨z, z1, z2⟩ := section_eq_spec hsort a.additional b.additional (ha.2 .Additional) (hb.2 .Additional)
    rw [q1, Res.bind_ok, x1, y1, z1, ← q2, ← x2, ← y2, ← z2]
    cases q <;> cases x <;> cases y <;> exact ⟨_, rfl, by simp [hh]⟩
  · rw [if_pos hh]
    exact ⟨false, rfl, by simp [hh]⟩

/-- exactly what `==` decides: the headers are the same, the questions are, and the sections have the same sets, one by one in order, as `==` of
sets decides (`c40_exact`) -/
theorem c79_exact (hsort : SortSpec mode sort) (a b : Response) (ha : a.Good) (hb : b.Good) :
    Response.eq sort a b = .ok true ↔ a.header = b.header ∧ a.question.Same b.question ∧ ∀ t, EqSections sort (a.section_ t) (b.section_ t) := by
  obtain ⟨r, h1, h2⟩ := response_eq_spec hsort a b ha hb
  rw [h1, ← h2]; simp

/-- `==` answers on any two messages -/
theorem c79_total (hsort : SortSpec mode sort) (a b : Response) (ha : a.Good) (hb : b.Good) : ∃ r, Response.eq sort a b = .ok r :=
  let ⟨r, h, _⟩ := response_eq_spec hsort a b ha hb; ⟨r, h⟩

/-- the same messages are equal -/
theorem c79_same (hsort : SortSpec mode sort) (a b : Response) (ha : a.Good) (hb : b.Good) (h : a.Same b) : Response.eq sort a b = .ok true := by
  obtain ⟨r, h1, h2⟩ := response_eq_spec hsort a b ha hb
  rw [h1, Res.ok.injEq, h2]
  refine ⟨h.1, h.2.1, fun t => ?_⟩
  have h3 := h.2.2 t
  have ga := ha.2 t
  have gb := hb.2 t
  generalize a.section_ t = x at *
  generalize b.section_ t = y at *
  cases x with
  | none => cases y with
    | none => trivial
    | some y => exact h3.elim
  | some x => cases y with
    | none => exact h3.elim
    | some y =>
      replace ga : ∀ s ∈ x, s.Good := ga
      replace gb : ∀ s ∈ y, s.Good := gb
      replace h3 : List.Forall₂ RRset.SameSet x y := h3
      show List.Forall₂ _ x y
      clear h2 h1
      induction h3 with
      | nil => exact .nil
      | cons h _ ih =>
        exact .cons (c40_up_to_order hsort (ga _ (by simp)) (gb _ (by simp)) h.1 h.2) (ih (fun s hs => ga s (by simp [hs])) (fun s hs => gb s (by simp [hs])))

/-- and only those, as long as no set of less than four data repeats one (`c40_violated`) -/
theorem c79_iff_partial (hsort : SortSpec mode sort) (a b : Response) (ha : a.Good) (hb : b.Good)
    (hn : ∀ t, ∀ s ∈ (a.section_ t).sets, NoRepeat s.rdatas ∨ 4 ≤ s.rdatas.length) : Response.eq sort a b = .ok true ↔ a.Same b := by
  refine ⟨fun h => ?_, c79_same hsort a b ha hb⟩
  obtain ⟨r, h1, h2⟩ := response_eq_spec hsort a b ha hb
  rw [h1, Res.ok.injEq] at h
  obtain ⟨k1, k2, k3⟩ := h2.1 h
  refine ⟨k1, k2, fun t => ?_⟩
  have h3 := k3 t
  have ga := ha.2 t
  have gb := hb.2 t
  have gn := hn t
  generalize a.section_ t = x at *
  generalize b.section_ t = y at *
  cases x with
  | none => cases y with
    | none => trivial
    | some y => exact h3.elim
  | some x => cases y with
    | none => exact h3.elim
    | some y =>
      replace ga : ∀ s ∈ x, s.Good := ga
      replace gb : ∀ s ∈ y, s.Good := gb
      replace gn : ∀ s ∈ x, NoRepeat s.rdatas ∨ 4 ≤ s.rdatas.length := gn
      replace h3 : List.Forall₂ (fun s t => RRset.eq sort s t = .ok true) x y := h3
      show List.Forall₂ _ x y
      clear h2 h1 k3
      induction h3 with
      | nil => exact .nil
      | cons h _ ih =>
        exact .cons ((c40_iff_partial hsort (ga _ (by simp)) (gb _ (by simp)) (gn _ (by simp))).1 h)
          (ih (fun s hs => ga s (by simp [hs])) (fun s hs => gb s (by simp [hs])) (fun s hs => gn s (by simp [hs])))

theorem question_same_refl {q : Question} (h : q.name.WF) : q.Same q := ⟨fieldSame_refl_name h, rfl, rfl⟩

/-- `==` is reflexive -/
theorem c79_refl (hsort : SortSpec mode sort) (a : Response) (ha : a.Good) : Response.eq sort a a = .ok true := by
  obtain ⟨r, h1, h2⟩ := response_eq_spec hsort a a ha ha
  rw [h1, Res.ok.injEq, h2]
  refine ⟨rfl, question_same_refl ha.1, fun t => ?_⟩
  have ga := ha.2 t
  generalize a.section_ t = x at *
  cases x with
  | none => trivial
  | some x =>
    replace ga : ∀ s ∈ x, s.Good := ga
    show List.Forall₂ _ x x
    clear h2 h1
    induction x with
    | nil => exact .nil
    | cons s x ih => exact .cons (c40_refl hsort (ga s (by simp))) (ih (fun s hs => ga s (by simp [hs])))

/-- `==` is transitive -/
theorem c79_trans (hsort : SortSpec mode sort) (a b c : Response) (ha : a.Good) (hb : b.Good) (hc : c.Good)
    (h : Response.eq sort a b = .ok true) (h' : Response.eq sort b c = .ok true) : Response.eq sort a c = .ok true := by
  obtain ⟨r, r1, r2⟩ := response_eq_spec hsort a b ha hb
  obtain ⟨r', q1, q2⟩ := response_eq_spec hsort b c hb hc
  obtain ⟨r'', p1, p2⟩ := response_eq_spec hsort a c ha hc
  rw [r1, Res.ok.injEq] at h
  rw [q1, Res.ok.injEq] at h'
  rw [p1, Res.ok.injEq, p2]
  obtain ⟨e1, ⟨⟨la, lb, va, vb, na, nb, sab⟩, e2, e3⟩, e4⟩ := r2.1 h
  obtain ⟨f1, ⟨⟨lb', lc, vb', vc, nb', nc, sbc⟩, f2, f3⟩, f4⟩ := q2.1 h'
  obtain rfl : lb = lb' := Name.ofLabels_inj vb vb' (nb.symm.trans nb')
  refine ⟨e1.trans f1, ⟨⟨la, lc, va, vc, na, nc, sab.trans sbc⟩, e2.trans f2, e3.trans f3⟩, fun t => ?_⟩
  have h3 := e4 t
  have h4 := f4 t
  have ga := ha.2 t
  have gb := hb.2 t
  have gc := hc.2 t
  generalize a.section_ t = x at *
  generalize b.section_ t = y at *
  generalize c.section_ t = z at *
  cases x with
  | none => cases y with
    | none => exact h4
    | some y => exact h3.elim
  | some x => cases y with
    | none => exact h3.elim
    | some y => cases z with
      | none => exact h4.elim
      | some z =>
        replace ga : ∀ s ∈ x, s.Good := ga
        replace gb : ∀ s ∈ y, s.Good := gb
        replace gc : ∀ s ∈ z, s.Good := gc
        replace h3 : List.Forall₂ (fun s t => RRset.eq sort s t = .ok true) x y := h3
        replace h4 : List.Forall₂ (fun s t => RRset.eq sort s t = .ok true) y z := h4
        show List.Forall₂ _ x z
        clear r2 q2 p2 r1 q1 p1 e4 f4
        induction h3 generalizing z with
        | nil => exact h4
        | cons k _ ih =>
          cases h4 with
          | cons k' h4 =>
            exact .cons (c40_trans hsort (ga _ (by simp)) (gb _ (by simp)) (gc _ (by simp)) k k')
              (ih _ (fun s hs => ga s (List.mem_cons_of_mem _ hs)) (fun s hs => gb s (List.mem_cons_of_mem _ hs))
                (fun s hs => gc s (List.mem_cons_of_mem _ hs)) h4)

/-- symmetry fails with the sets of `c40_violated` -/
theorem c79_symm_violated (sort : List RData → Res (List RData)) : ∃ a b : Response, Response.eq sort a b = .ok true ∧ Response.eq sort b a = .ok false := by
  exact ⟨⟨Header.default 0, Question.new Name.root .A, some [⟨Name.ofLabels [[97]], .A, .IN, 0, [⟨.A, [.ip [1, 1, 1, 1]]⟩, ⟨.A, [.ip [1, 1, 1, 1]]⟩]⟩], none, none⟩,
    ⟨Header.default 0, Question.new Name.root .A, some [⟨Name.ofLabels [[97]], .A, .IN, 0, [⟨.A, [.ip [1, 1, 1, 1]]⟩, ⟨.A, [.ip [1, 1, 1, 2]]⟩]⟩], none, none⟩, rfl, rfl⟩

/-- a message with two sets is good and not equal to its reverse -/
def sameSample : Response := ⟨Header.default 3, Question.new (Name.ofLabels [[97]]) .MX, some [goodSet], none, none⟩
theorem sameSample_good : sameSample.Good := by
  refine ⟨⟨[[97]], by decide, rfl⟩, fun t s hs => ?_⟩
  cases t with
  | Answer => simp [sameSample, Response.section_, Section.sets] at hs; subst hs; exact goodSet_good
  | Authority => cases hs
  | Additional => cases hs

/-- letter case, TTL and order do not matter; the class of the question does -/
example : sameSample.Same { sameSample with question := Question.new (Name.ofLabels [[65]]) .MX, answer := some [{ goodSet with ttl := 6 }] } ∧
    ¬ sameSample.Same { sameSample with question := ⟨Name.ofLabels [[97]], .MX, .CH⟩ } := by
  refine ⟨⟨rfl, ⟨⟨[[97]], [[65]], by decide, by decide, rfl, rfl, by decide⟩, rfl, rfl⟩, fun t => ?_⟩, fun h => absurd h.2.1.2.2 (by decide)⟩
  cases t with
  | Answer =>
    refine .cons ⟨⟨rfl, fieldSame_refl_name goodSet_good.1⟩, ?_⟩ .nil
    rw [sameData_key _ _ (fun b hb => (goodSet_good.2 b hb).1) (fun b hb => (goodSet_good.2 b hb).1)]
  | Authority => trivial
  | Additional => trivial

end R53
