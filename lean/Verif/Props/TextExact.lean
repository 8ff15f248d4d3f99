import Verif.Proofs.TextExact
/-!
# C70: exactly the records that are read back from their text
-/
namespace R53

/-- the lines of a set -/
theorem set_lines {r : RRset} (hn : r.name.WF) : ∀ rds : List RData, (∀ rd ∈ rds, rd.Typed) → ∃ lines : List (List UInt8),
    r.linesOf stdExt rds = .ok (lines.flatMap (· ++ [10])) ∧
    List.Forall₂ (fun l rd => r.line stdExt rd = .ok (l ++ [10]) ∧ ∀ c ∈ l, c = 9 ∨ (32 ≤ c ∧ c < 127)) lines rds
  | [], _ => ⟨[], rfl, .nil⟩
  | rd :: rds, h => by
    obtain ⟨l, h1, h2⟩ := line_total (r := r) hn (h rd (by simp))
    obtain ⟨ls, h3, h4⟩ := set_lines hn rds (fun q hq => h q (by simp [hq]))
    refine ⟨l :: ls, ?_, .cons ⟨h1, h2⟩ h4⟩
    unfold RRset.linesOf
    rw [h1, Res.bind_ok, h3, Res.bind_ok]
    simp

theorem shown_utf8 {l : List UInt8} (h : ∀ c ∈ l, c = 9 ∨ (32 ≤ c ∧ c < 127)) : isUtf8 l = true := by
  have key : ∀ c : UInt8, (c = 9 ∨ (32 ≤ c ∧ c < 127)) → c.toNat < 0x80 := by apply forall_u8'; decide +kernel
  exact isUtf8_ascii fun c hc => key c (h c hc)

theorem no_feed {l : List UInt8} (h : ∀ c ∈ l, c = 9 ∨ (32 ≤ c ∧ c < 127)) : 10 ∉ l := fun hc => absurd (h 10 hc) (by decide)

theorem forall₂_get {α β : Type} {R : α → β → Prop} {as : List α} {bs : List β} (h : List.Forall₂ R as bs) : as.length = bs.length ∧
    ∀ (i : Nat) a b, as[i]? = some a → bs[i]? = some b → R a b := by
  induction h with
  | nil => simp
  | cons h1 _ ih =>
    refine ⟨by simp [ih.1], ?_⟩
    intro i a b ha hb
    cases i with
    | zero => simp at ha hb; subst ha; subst hb; exact h1
    | succ i => simp at ha hb; exact ih.2 i a b ha hb

/-- the conclusion of `line_exact` for all lines of a set -/
theorem lines_exact {r : RRset} (hn : r.name.WF) : ∀ {lines : List (List UInt8)} {rds : List RData} {ps : List RRset},
    List.Forall₂ (fun l rd => r.line stdExt rd = .ok (l ++ [10]) ∧ ∀ c ∈ l, c = 9 ∨ (32 ≤ c ∧ c < 127)) lines rds →
    List.Forall₂ (fun s p => ∃ t, Trimmed s t ∧ SetText t p) lines ps → ps.flatMap RRset.rdatas = rds → (∀ rd ∈ rds, rd.Typed) →
    List.Forall₂ (fun p rd => (p.name = r.name → PlainName r.name) ∧ (∀ v, r.class_ ≠ .Unknown v) ∧ (p.typ = r.typ → r.typ ≠ .CERT) ∧
      rd.Printable ∧ rd.kind = p.typ) ps rds
  | _, _, _, .nil, .nil, _, _ => .nil
  | _, _, _, .cons h1 h2, .cons h3 h4, h5, h6 => by
    obtain ⟨t, t1, t2⟩ := h3
    have t3 := t2
    obtain ⟨_, _, _, _, _, rd', _, _, _, _, _, _, _, e⟩ := t3
    rw [List.flatMap_cons, e, List.singleton_append] at h5
    injection h5 with h5 h7
    subst h5
    exact .cons (line_exact hn (h6 _ (by simp)) h1.1 t1 t2 e) (lines_exact hn h2 h4 h7 (fun q hq => h6 q (by simp [hq])))

/-- **C70** which records are read back: for any set of valid names and data of the types of the fields, a line gives the record it was printed
from exactly if the record is printable, and all lines give the set exactly if all of it is, and it is not a set of several OPT records -/
theorem c70_exact (m : Build) (r : RRset) (hr : r.Typed) :
    ∃ lines : List (List UInt8), r.to_string stdExt = .ok (lines.flatMap (· ++ [10])) ∧ (∀ l ∈ lines, 10 ∉ l) ∧
      lines.length = r.rdatas.length ∧
      (∀ (i : Nat) l rd, lines[i]? = some l → r.rdatas[i]? = some rd →
        (RRset.from_str stdExt m l = .ok { r with rdatas := [rd] } ↔ RRset.Printable { r with rdatas := [rd] })) ∧
      (RRset.from_strs stdExt m lines = .ok r ↔ r.Printable ∧ (r.rdatas.length = 1 ∨ r.typ ≠ .OPT)) := by
  have hn : r.name.WF := hr.1
  obtain ⟨lines, h1, h2⟩ := set_lines hn r.rdatas hr.2
  have fg := forall₂_get h2
  have h10 : ∀ l ∈ lines, 10 ∉ l := by
    intro l hl
    obtain ⟨i, hi⟩ := List.mem_iff_getElem?.1 hl
    obtain ⟨rd, hrd⟩ : ∃ rd, r.rdatas[i]? = some rd := by
      have := (List.getElem?_eq_some_iff.1 hi).1
      exact ⟨_, List.getElem?_eq_getElem (by omega)⟩
    exact no_feed (fg.2 i l rd hi hrd).2
  refine ⟨lines, h1, h10, fg.1, ?_, ?_⟩
  · intro i l rd hl hrd
    obtain ⟨k1, k2⟩ := fg.2 i l rd hl hrd
    have ht := hr.2 rd (List.mem_of_getElem? hrd)
    constructor
    · intro h
      obtain ⟨t, t1, t2⟩ := (c84_set_iff m l (shown_utf8 k2) _).1 h
      obtain ⟨a1, a2, a3, a4, a5⟩ := line_exact hn ht k1 t1 t2 rfl
      exact ⟨a1 rfl, a2, a3 rfl, by simp, by simpa using ⟨a5, a4⟩⟩
    · intro h
      obtain ⟨ls, b1, b2, b3, b4, -⟩ := c70_std_partial m _ h
      have : r.line stdExt rd = .ok (ls.flatMap (· ++ [10])) := by
        have : RRset.to_string stdExt { r with rdatas := [rd] } = (RRset.line stdExt { r with rdatas := [rd] } rd >>= fun l => pure (l ++ [])) := rfl
        rw [this] at b1
        obtain ⟨x, x1, x2⟩ := Res.bind_eq_ok.1 b1
        rw [← Res.ok.inj x2, List.append_nil]
        exact x1
      rw [k1] at this
      match ls, b3 with
      | [l'], _ =>
        have e := Res.ok.inj this
        simp at e
        subst e
        exact (b4 0 _ rd rfl rfl).1
  · constructor
    · intro h
      rw [c84_sets_iff m lines (fun l hl => by
        obtain ⟨i, hi⟩ := List.mem_iff_getElem?.1 hl
        obtain ⟨rd, hrd⟩ : ∃ rd, r.rdatas[i]? = some rd := by
          have := (List.getElem?_eq_some_iff.1 hi).1
          exact ⟨_, List.getElem?_eq_getElem (by omega)⟩
        exact shown_utf8 (fg.2 i l rd hi hrd).2)] at h
      obtain ⟨q, qs, f1, f2, f3⟩ := h
      have g := lines_exact hn h2 f1 (by rw [f3]; simp) hr.2
      have e1 : q.name = r.name := by rw [f3]
      have e2 : q.typ = r.typ := by rw [f3]
      have all : ∀ rd ∈ r.rdatas, rd.kind = r.typ ∧ rd.Printable := by
        intro rd hrd
        obtain ⟨i, hi⟩ := List.mem_iff_getElem?.1 hrd
        obtain ⟨p, hp⟩ : ∃ p, (q :: qs)[i]? = some p := by
          have := (List.getElem?_eq_some_iff.1 hi).1
          have := (forall₂_get g).1
          exact ⟨_, List.getElem?_eq_getElem (by omega)⟩
        obtain ⟨-, -, -, a4, a5⟩ := (forall₂_get g).2 i p rd hp hi
        refine ⟨a5.trans ?_, a4⟩
        rcases List.mem_cons.1 (List.mem_of_getElem? hp) with rfl | hp
        · exact e2
        · exact (f2.1 p hp).trans e2
      obtain ⟨rd, rds, hrs⟩ : ∃ rd rds, r.rdatas = rd :: rds := by
        cases hh : r.rdatas with
        | nil => have := (forall₂_get g).1; rw [hh] at this; simp at this
        | cons a b => exact ⟨a, b, rfl⟩
      obtain ⟨a1, a2, a3, -, -⟩ := (forall₂_get g).2 0 q rd rfl (by rw [hrs]; rfl)
      refine ⟨⟨a1 e1, a2, a3 e2, by rw [hrs]; simp, all⟩, ?_⟩
      have hl := (forall₂_get g).1
      cases qs with
      | nil => exact .inl (by simpa using hl.symm)
      | cons a b => exact .inr (e2 ▸ f2.2 (by simp))
    · rintro ⟨h, ho⟩
      obtain ⟨ls, b1, b2, -, -, b5⟩ := c70_std_partial m r h
      obtain rfl : ls = lines := lines_inj' b2 h10 (Res.ok.inj (b1.symm.trans h1))
      exact b5 ho

/-- a set of two records that is read back, and one of an empty character-string that is not -/
theorem c70_exact_example : TextSample.set.Typed ∧ TextSample.set.Printable ∧
    RRset.Typed ⟨TextSample.www, .TXT, .IN, 300, [⟨.TXT, [.text [[]]]⟩]⟩ ∧ ¬ RRset.Printable ⟨TextSample.www, .TXT, .IN, 300, [⟨.TXT, [.text [[]]]⟩]⟩ := by
  have hw : ∃ ls, ValidName ls ∧ TextSample.www = Name.ofLabels ls := by
    obtain ⟨ls, h, e, -⟩ := TextSample.set_printable.1
    exact ⟨ls, h, e⟩
  refine ⟨⟨hw, ?_⟩, TextSample.set_printable, ⟨hw, ?_⟩, ?_⟩
  · intro rd hrd
    have key : ∀ t, (TextSample.sig t).Typed := fun t => ⟨_, rfl, trivial, trivial, trivial, trivial, trivial, trivial, trivial, hw, trivial, trivial⟩
    simp only [TextSample.set, List.mem_cons, List.not_mem_nil, or_false] at hrd
    rcases hrd with rfl | rfl <;> exact key _
  · intro rd hrd
    simp at hrd
    subst hrd
    exact ⟨_, rfl, trivial, trivial⟩
  · rintro ⟨-, -, -, -, h⟩
    obtain ⟨-, cs, h1, h2⟩ := h ⟨.TXT, [.text [[]]]⟩ (by simp)
    cases h1
    exact h2.1.2 [] (by simp) |>.1 rfl

end R53
