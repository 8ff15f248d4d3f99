import Verif.Props.TextExact
import Verif.Props.Show
import Verif.Props.RoundTrip
/-!
# C81: the text of every message, and which of its lines read back
-/
namespace R53

/-- the records of a section that are printed, one for each datum of a set that is not OPT -/
def Section.printed (s : Section) : List RRset := (Section.visible s).flatMap fun r => r.rdatas.map fun rd => { r with rdatas := [rd] }

theorem forall₂_app {α β : Type} {R : α → β → Prop} {a b : List α} {c d : List β} (h1 : List.Forall₂ R a c) (h2 : List.Forall₂ R b d) : List.Forall₂ R (a ++ b) (c ++ d) := by
  induction h1 with
  | nil => exact h2
  | cons h _ ih => exact .cons h ih

theorem forall₂_of_get {α β : Type} {R : α → β → Prop} : ∀ {as : List α} {bs : List β}, as.length = bs.length →
    (∀ (i : Nat) a b, as[i]? = some a → bs[i]? = some b → R a b) → List.Forall₂ R as bs
  | [], [], _, _ => .nil
  | [], _ :: _, h, _ => by simp at h
  | _ :: _, [], h, _ => by simp at h
  | a :: as, b :: bs, hl, h => .cons (h 0 a b rfl rfl) (forall₂_of_get (by simpa using hl) fun i x y hx hy => h (i + 1) x y (by simpa using hx) (by simpa using hy))

theorem set_text_exact (b : Build) {r : RRset} (hr : r.Typed) : ∃ lines : List (List UInt8), r.to_string stdExt = .ok (lines.flatMap (· ++ [10])) ∧
    List.Forall₂ (fun l x => 10 ∉ l ∧ (RRset.from_str stdExt b l = .ok x ↔ x.Printable)) lines (r.rdatas.map fun rd => { r with rdatas := [rd] }) := by
  obtain ⟨lines, h1, h2, h3, h4, -⟩ := c70_exact b r hr
  refine ⟨lines, h1, forall₂_of_get (by simpa using h3) fun i l x hl hx => ⟨h2 l (List.mem_iff_getElem?.2 ⟨i, hl⟩), ?_⟩⟩
  rw [List.getElem?_map, Option.map_eq_some_iff] at hx
  obtain ⟨rd, hrd, rfl⟩ := hx
  exact h4 i l rd hl hrd

theorem sets_text_exact (b : Build) : ∀ {sets : List RRset}, (∀ r ∈ sets, r.Typed) → ∃ lines : List (List UInt8), Section.showSets stdExt sets = .ok (lines.flatMap (· ++ [10])) ∧
    List.Forall₂ (fun l x => 10 ∉ l ∧ (RRset.from_str stdExt b l = .ok x ↔ x.Printable)) lines (Section.printed (some sets))
  | [], _ => ⟨[], rfl, .nil⟩
  | r :: sets, h => by
    obtain ⟨l1, h1, h2⟩ := set_text_exact b (h r (by simp))
    obtain ⟨l2, h3, h4⟩ := sets_text_exact b fun x hx => h x (List.mem_cons_of_mem _ hx)
    unfold Section.showSets
    rw [h3]
    by_cases ho : r.typ = .OPT
    · refine ⟨l2, by rw [if_neg (by simpa using ho)]; rfl, ?_⟩
      have : Section.printed (some (r :: sets)) = Section.printed (some sets) := by
        simp [Section.printed, Section.visible, ho]
      rw [this]; exact h4
    · refine ⟨l1 ++ l2, by rw [if_pos (by simpa using ho), h1]; simp [Res.bind_ok], ?_⟩
      have : Section.printed (some (r :: sets)) = (r.rdatas.map fun rd => { r with rdatas := [rd] }) ++ Section.printed (some sets) := by
        simp [Section.printed, Section.visible, ho]
      rw [this]; exact forall₂_app h2 h4

theorem section_text_exact (b : Build) (c : UInt16) (title : String) (s : Section) (tail : List UInt8) (h : ∀ sets, s = some sets → ∀ r ∈ sets, r.Typed) :
    ∃ L : List (List UInt8), Response.showSection stdExt c (ascii title) s tail = .ok (titled c title L tail) ∧
      List.Forall₂ (fun l x => 10 ∉ l ∧ (RRset.from_str stdExt b l = .ok x ↔ x.Printable)) L (Section.printed s) := by
  obtain ⟨L, h1, h2⟩ : ∃ L : List (List UInt8), s.to_string stdExt = .ok (L.flatMap (· ++ [10])) ∧
      List.Forall₂ (fun l x => 10 ∉ l ∧ (RRset.from_str stdExt b l = .ok x ↔ x.Printable)) L (Section.printed s) := by
    cases s with
    | none => exact ⟨[], rfl, .nil⟩
    | some sets => exact sets_text_exact b (h sets rfl)
  refine ⟨L, ?_, h2⟩
  unfold Response.showSection titled
  split
  · rw [h1]; rfl
  · rfl

/-- the text of every message of valid names and data of the types of the fields: the header, a line on EDNS if the last additional record is OPT, the
question, and for every section whose count is not zero its title and one line for each record but OPT, in order. The name of the question reads back exactly
if its octets print as themselves, and a line reads back as its record exactly if the record is printable (C70). -/
theorem c81_exact (b : Build) (m : Response) (h : m.Typed) :
    ∃ (e : Option Edns) (nt : List UInt8) (A N D : List (List UInt8)), m.get_edns = .ok e ∧ m.question.name.to_string = .ok nt ∧
      (∀ ls, ValidName ls → m.question.name = Name.ofLabels ls → (Name.new nt = .ok m.question.name ↔ ∀ l ∈ ls, ∀ c ∈ l, Plain c)) ∧
      m.to_string stdExt = .ok (m.header.to_string ++ ascii "\n" ++ Response.showEdns e ++ ascii ";; QUESTION SECTION:\n" ++
        (nt ++ ascii " " ++ m.question.class_.to_str ++ ascii " " ++ m.question.typ.to_str) ++ ascii "\n\n" ++
        titled m.header.an_count ";; ANSWER SECTION:\n" A (ascii "\n") ++
        titled m.header.ns_count ";; AUTHORITY SECTION:\n" N (ascii "\n") ++
        titled m.header.ar_count ";; ADDITIONAL SECTION:\n" D []) ∧
      (List.Forall₂ (fun l x => 10 ∉ l ∧ (RRset.from_str stdExt b l = .ok x ↔ x.Printable)) A (Section.printed m.answer)) ∧
      (List.Forall₂ (fun l x => 10 ∉ l ∧ (RRset.from_str stdExt b l = .ok x ↔ x.Printable)) N (Section.printed m.authority)) ∧
      (List.Forall₂ (fun l x => 10 ∉ l ∧ (RRset.from_str stdExt b l = .ok x ↔ x.Printable)) D (Section.printed m.additional)) := by
  obtain ⟨e, h0⟩ := edns_total m
  obtain ⟨ls, hv, hq⟩ := h.question
  obtain ⟨nt, h4, -⟩ := c05_prints hv
  obtain ⟨A, a1, a2⟩ := section_text_exact b m.header.an_count ";; ANSWER SECTION:\n" m.answer (ascii "\n") (fun sets hs => h.sections .Answer sets hs)
  obtain ⟨N, n1, n2⟩ := section_text_exact b m.header.ns_count ";; AUTHORITY SECTION:\n" m.authority (ascii "\n") (fun sets hs => h.sections .Authority sets hs)
  obtain ⟨D, d1, d2⟩ := section_text_exact b m.header.ar_count ";; ADDITIONAL SECTION:\n" m.additional [] (fun sets hs => h.sections .Additional sets hs)
  refine ⟨e, nt, A, N, D, h0, by rw [hq]; exact h4, fun ks hvk hk => ?_, ?_, a2, n2, d2⟩
  · rw [← c05_exact ks hvk, hk]
    rw [hq] at hk
    constructor
    · intro h; exact ⟨nt, by rw [← hk]; exact h4, h⟩
    · rintro ⟨t, h1, h2⟩
      rw [← hk, h4] at h1
      rw [Res.ok.inj h1]; exact h2
  · have q4 : m.question.to_string = .ok (nt ++ ascii " " ++ m.question.class_.to_str ++ ascii " " ++ m.question.typ.to_str) := by
      unfold Question.to_string
      rw [hq, h4, Res.bind_ok]; rfl
    unfold Response.to_string
    rw [h0, q4, a1, n1, d1]; rfl

/-- a message for `c81_exact`: the two records of the first set read back, that of an empty character-string does not -/
theorem c81_exact_example : ∃ m : Response, m.Typed ∧ (Section.printed m.answer).length = 3 ∧
    (∀ x ∈ (Section.printed m.answer).take 2, x.Printable) ∧ ∀ x ∈ (Section.printed m.answer).drop 2, ¬ x.Printable := by
  obtain ⟨h1, h2, h3, h4⟩ := c70_exact_example
  refine ⟨⟨⟨7, 0x8180, .Query, .NoError, 1, 3, 0, 0⟩, ⟨TextSample.www, .TXT, .IN⟩,
    some [TextSample.set, ⟨TextSample.www, .TXT, .IN, 300, [⟨.TXT, [.text [[]]]⟩]⟩], none, none⟩, ⟨h1.1, fun t sets hs r hr => ?_⟩, rfl, ?_, ?_⟩
  · cases t
    · simp only [Response.section_, Option.some.injEq] at hs
      subst hs
      simp only [List.mem_cons, List.not_mem_nil, or_false] at hr
      rcases hr with rfl | rfl
      · exact h1
      · exact h3
    · cases hs
    · cases hs
  · intro x hx
    simp only [Section.printed, Section.visible, Option.getD_some, TextSample.set] at hx
    simp [List.filter] at hx
    have key : ∀ rd ∈ TextSample.set.rdatas, RRset.Printable { TextSample.set with rdatas := [rd] } := by
      intro rd hrd
      obtain ⟨p1, p2, p3, p4, p5⟩ := h2
      exact ⟨p1, p2, p3, by simp, fun r hr => by simp only [List.mem_singleton] at hr; subst hr; exact p5 r hrd⟩
    rcases hx with rfl | rfl
    · exact key _ (by simp [TextSample.set])
    · exact key _ (by simp [TextSample.set])
  · intro x hx
    simp [Section.printed, Section.visible, TextSample.set, List.filter] at hx
    subst hx
    exact h4

end R53
