import Verif.Proofs.Message2
/-!
# Decoding a section groups its records
-/
namespace R53

theorem sameOwner_trans {s t u : RRset} (h1 : s.SameOwner t) (h2 : t.SameOwner u) : s.SameOwner u := by
  obtain ⟨a, ls, ms, v1, v2, e1, e2, e3⟩ := h1
  obtain ⟨b, ls', ms', w1, w2, f1, f2, f3⟩ := h2
  have : ms = ls' := Name.ofLabels_inj v2 w1 (e2.symm.trans f1)
  subst this
  exact ⟨a.trans b, ls, ms', v1, w2, e1, f2, e3.trans f3⟩

/-- the outcome of one step of the loop -/
theorem join_cases {n : Nat} {acc : List RRset} {last rrset : RRset} (h1 : rrset.Decoded) (h2 : last.name.WF) (b : InBuf) :
    (rrset.SameOwner last ∧ rrset.typ = .OPT ∧ Section.join n acc last rrset b = (.err, b)) ∨
    (rrset.SameOwner last ∧ rrset.typ ≠ .OPT ∧ ∃ rd l, rrset.rdatas = rd :: l ∧
      Section.join n acc last rrset b = Section.fromLoop n acc { last with rdatas := last.rdatas ++ [rd] } b) ∨
    (¬ rrset.SameOwner last ∧ Section.join n acc last rrset b = Section.fromLoop n (acc ++ [last]) rrset b) := by
  by_cases hs : rrset.SameOwner last
  · by_cases ho : rrset.typ = .OPT
    · refine Or.inl ⟨hs, ho, ?_⟩
      obtain ⟨x, hb, hbs⟩ := same_rrset_ok (s := rrset) (t := last) h1.name h2
      have hbt : x = true := hbs.mpr hs
      subst hbt
      unfold Section.join
      rw [St.lift_ok_bind hb, if_pos rfl, if_pos ho]; rfl
    · obtain ⟨rd, l, hr⟩ := List.exists_cons_of_ne_nil fun h => ho (h1.empty h)
      exact Or.inr (Or.inl ⟨hs, ho, rd, l, hr, by rw [Section.join_same h1.name h2 hs ho hr]⟩)
  · exact Or.inr (Or.inr ⟨hs, by rw [Section.join_new h1.name h2 hs]⟩)

theorem Merges.append {chunk : List RRset} {last rrset : RRset} (h : Merges chunk last) (hs : rrset.SameOwner last) {rd : RData}
    (hr : rrset.rdatas = [rd]) : Merges (chunk ++ [rrset]) { last with rdatas := last.rdatas ++ [rd] } := by
  obtain ⟨first, rest, rfl, h1, rfl⟩ := h
  refine ⟨first, rest ++ [rrset], rfl, ?_, ?_⟩
  · intro r hr
    rcases List.mem_append.mp hr with hr | hr
    · exact h1 r hr
    · rw [List.mem_singleton] at hr; subst hr; exact hs
  · simp [List.flatMap_append, hr]

theorem Merges.single (s : RRset) : Merges [s] s := ⟨s, [], rfl, by simp, by simp⟩

theorem noNeighbours_cons {s : RRset} {l : List RRset} (h : NoNeighbours l) (hs : ∀ t, l.head? = some t → ¬ s.SameOwner t) : NoNeighbours (s :: l) := by
  cases l with
  | nil => trivial
  | cons t l => exact ⟨hs t rfl, h⟩

/-- what the loop returns, in terms of the records read one after the other -/
theorem fromLoop_grouped (n : Nat) : ∀ (acc : List RRset) (last : RRset) (b : InBuf) (sets : List RRset) (b' : InBuf),
    b.pos ≤ b.data.length → last.name.WF → Section.fromLoop n acc last b = (.ok sets, b') →
    ∃ recs tail, sets = acc ++ tail ∧ readRRs n b = (.ok recs, b') ∧ (∃ s, tail.head? = some s ∧ s.name = last.name ∧ s.typ = last.typ) ∧
      NoNeighbours tail ∧ ∀ chunk, Merges chunk last → ∃ chunks : List (List RRset), chunks.flatten = chunk ++ recs ∧ List.Forall₂ Merges chunks tail := by
  induction n with
  | zero =>
    intro acc last b sets b' hb hl h
    have h' : (Res.ok (acc ++ [last]), b) = (Res.ok sets, b') := h
    simp only [Prod.mk.injEq, Res.ok.injEq] at h'
    obtain ⟨rfl, rfl⟩ := h'
    exact ⟨[], [last], rfl, rfl, ⟨last, rfl, rfl, rfl⟩, trivial, fun chunk hc => ⟨[chunk], by simp, .cons hc .nil⟩⟩
  | succ n ih =>
    intro acc last b sets b' hb hl h
    rw [Section.fromLoop_succ] at h
    rcases safe_rrset' b hb with ⟨s, e, e1, e2, e3, e4, e5, e6, e7⟩ | ⟨x, e1, e2⟩
    · rw [St.bind_ok e1] at h
      have hrd : ∀ recs, readRRs n ⟨b.data, e⟩ = (.ok recs, b') → readRRs (n + 1) b = (.ok (s :: recs), b') := by
        intro recs hr
        show (RRset.from_wire >>= fun x => readRRs n >>= fun xs => pure (x :: xs)) b = _
        rw [St.bind_ok e1, St.bind_ok hr]; rfl
      rcases join_cases (n := n) (acc := acc) (last := last) e6 hl ⟨b.data, e⟩ with ⟨_, _, hj⟩ | ⟨hs, ho, rd, l, hr, hj⟩ | ⟨hs, hj⟩
      · rw [hj] at h; simp at h
      · rw [hj] at h
        obtain rfl : l = [] := by
          rw [hr] at e7; simp only [List.length_cons] at e7; exact List.length_eq_zero_iff.mp (by omega)
        obtain ⟨recs, tail, t1, t2, t3, t4, t5⟩ := ih acc { last with rdatas := last.rdatas ++ [rd] } ⟨b.data, e⟩ sets b' e3 hl h
        refine ⟨s :: recs, tail, t1, hrd _ t2, t3, t4, fun chunk hc => ?_⟩
        obtain ⟨chunks, c1, c2⟩ := t5 _ (hc.append hs hr)
        exact ⟨chunks, by rw [c1]; simp, c2⟩
      · rw [hj] at h
        obtain ⟨recs, tail, t1, t2, ⟨u, u1, u2, u3⟩, t4, t5⟩ := ih (acc ++ [last]) s ⟨b.data, e⟩ sets b' e3 e6.name h
        refine ⟨s :: recs, last :: tail, by rw [t1]; simp, hrd _ t2, ⟨last, rfl, rfl, rfl⟩, ?_, fun chunk hc => ?_⟩
        · refine noNeighbours_cons t4 fun t ht => ?_
          rw [u1] at ht
          obtain rfl : u = t := by simpa using ht
          intro hsame
          apply hs
          rw [sameOwner_comm] at hsame
          obtain ⟨k1, k2⟩ := hsame
          rw [u2] at k2
          exact ⟨u3.symm.trans k1, k2⟩
        · obtain ⟨chunks, c1, c2⟩ := t5 _ (Merges.single s)
          exact ⟨chunk :: chunks, by rw [List.flatten_cons, c1]; simp, .cons hc c2⟩
    · rw [St.bind_err e1] at h; simp at h

/-- without OPT records the loop accepts whatever the records decode to -/
theorem fromLoop_accepts (n : Nat) : ∀ (acc : List RRset) (last : RRset) (b : InBuf) (recs : List RRset) (b' : InBuf),
    b.pos ≤ b.data.length → last.name.WF → readRRs n b = (.ok recs, b') → (∀ r ∈ recs, r.typ ≠ .OPT) →
    ∃ sets, Section.fromLoop n acc last b = (.ok sets, b') := by
  induction n with
  | zero =>
    intro acc last b recs b' hb hl h _
    have h' : (Res.ok [], b) = (Res.ok recs, b') := h
    simp only [Prod.mk.injEq, Res.ok.injEq] at h'
    obtain ⟨rfl, rfl⟩ := h'
    exact ⟨_, rfl⟩
  | succ n ih =>
    intro acc last b recs b' hb hl h hno
    rw [Section.fromLoop_succ]
    rcases safe_rrset' b hb with ⟨s, e, e1, e2, e3, e4, e5, e6, e7⟩ | ⟨x, e1, e2⟩
    · have h' : (RRset.from_wire >>= fun x => readRRs n >>= fun xs => pure (x :: xs)) b = (.ok recs, b') := h
      rw [St.bind_ok e1] at h'
      obtain ⟨xs, b2, h1, h2⟩ := St.bind_ok_inv h'
      have h2' : (Res.ok (s :: xs), b2) = (Res.ok recs, b') := h2
      simp only [Prod.mk.injEq, Res.ok.injEq] at h2'
      obtain ⟨rfl, rfl⟩ := h2'
      rw [St.bind_ok e1]
      rcases join_cases (n := n) (acc := acc) (last := last) e6 hl ⟨b.data, e⟩ with ⟨_, ho, _⟩ | ⟨hs, ho, rd, l, hr, hj⟩ | ⟨hs, hj⟩
      · exact absurd ho (hno s (by simp))
      · rw [hj]; exact ih _ _ _ _ _ e3 hl h1 fun r hr => hno r (by simp [hr])
      · rw [hj]; exact ih _ _ _ _ _ e3 e6.name h1 fun r hr => hno r (by simp [hr])
    · have h' : (RRset.from_wire >>= fun x => readRRs n >>= fun xs => pure (x :: xs)) b = (.ok recs, b') := h
      rw [St.bind_err e1] at h'; simp at h'

theorem section_grouped {n : UInt16} {t : SectionType} {b b' : InBuf} {s : Section} (hb : b.pos ≤ b.data.length)
    (h : Section.from_wire n t b = (.ok s, b')) (hn : n ≠ 0) :
    ∃ recs sets, s = some sets ∧ readRRs n.toNat b = (.ok recs, b') ∧ Grouped recs sets ∧
      ∃ first, recs.head? = some first ∧ (first.typ = .OPT → t = .Additional) := by
  have hn1 : n.toNat = (n.toNat - 1) + 1 := by
    have : n.toNat ≠ 0 := fun h => hn (UInt16.toNat_inj.mp (by simpa using h))
    omega
  unfold Section.from_wire at h
  rw [if_neg hn] at h
  rcases safe_rrset' b hb with ⟨x, e, e1, e2, e3, e4, e5, e6, e7⟩ | ⟨x, e1, e2⟩
  · rw [St.bind_ok e1] at h
    by_cases ho : x.typ = .OPT ∧ t ≠ .Additional
    · rw [if_pos ho] at h; simp [St.fail] at h
    · rw [if_neg ho] at h
      obtain ⟨sets, b2, h1, h2⟩ := St.bind_ok_inv h
      have h2' : (Res.ok (some sets), b2) = (Res.ok s, b') := h2
      simp only [Prod.mk.injEq, Res.ok.injEq] at h2'
      obtain ⟨rfl, rfl⟩ := h2'
      obtain ⟨recs, tail, t1, t2, t3, t4, t5⟩ := fromLoop_grouped _ [] x ⟨b.data, e⟩ sets b2 e3 e6.name h1
      obtain rfl : sets = tail := by simpa using t1
      obtain ⟨chunks, c1, c2⟩ := t5 [x] (Merges.single x)
      refine ⟨x :: recs, sets, rfl, ?_, ⟨⟨chunks, c1, c2⟩, t4⟩, x, rfl, fun h => ?_⟩
      · rw [hn1]
        show (RRset.from_wire >>= fun x => readRRs (n.toNat - 1) >>= fun xs => pure (x :: xs)) b = _
        rw [St.bind_ok e1, St.bind_ok t2]; rfl
      · exact Classical.not_not.mp fun hc => ho ⟨h, hc⟩
  · rw [St.bind_err e1] at h; simp at h

theorem section_accepts {n : UInt16} {t : SectionType} {b b' : InBuf} {recs : List RRset} (hb : b.pos ≤ b.data.length)
    (h : readRRs n.toNat b = (.ok recs, b')) (hno : ∀ r ∈ recs, r.typ ≠ .OPT) : ∃ s, Section.from_wire n t b = (.ok s, b') := by
  unfold Section.from_wire
  by_cases hn : n = 0
  · subst hn
    have h' : (Res.ok [], b) = (Res.ok recs, b') := h
    simp only [Prod.mk.injEq, Res.ok.injEq] at h'
    obtain ⟨rfl, rfl⟩ := h'
    exact ⟨none, rfl⟩
  · rw [if_neg hn]
    have hn1 : n.toNat = (n.toNat - 1) + 1 := by
      have : n.toNat ≠ 0 := fun h => hn (UInt16.toNat_inj.mp (by simpa using h))
      omega
    rw [hn1] at h
    have h' : (RRset.from_wire >>= fun x => readRRs (n.toNat - 1) >>= fun xs => pure (x :: xs)) b = (.ok recs, b') := h
    rcases safe_rrset' b hb with ⟨x, e, e1, e2, e3, e4, e5, e6, e7⟩ | ⟨x, e1, e2⟩
    · rw [St.bind_ok e1] at h' ⊢
      obtain ⟨xs, b2, h1, h2⟩ := St.bind_ok_inv h'
      have h2' : (Res.ok (x :: xs), b2) = (Res.ok recs, b') := h2
      simp only [Prod.mk.injEq, Res.ok.injEq] at h2'
      obtain ⟨rfl, rfl⟩ := h2'
      rw [if_neg (fun ho => hno x (by simp) ho.1)]
      obtain ⟨sets, hs⟩ := fromLoop_accepts _ [] x _ _ _ e3 e6.name h1 fun r hr => hno r (by simp [hr])
      exact ⟨some sets, by rw [St.bind_ok hs]; rfl⟩
    · rw [St.bind_err e1] at h'; simp at h'

/-- the number of records, and OPT is never merged -/
theorem fromLoop_count (n : Nat) : ∀ (acc : List RRset) (last : RRset) (b : InBuf) (sets : List RRset) (b' : InBuf),
    b.pos ≤ b.data.length → last.Decoded → Section.fromLoop n acc last b = (.ok sets, b') →
    (∀ s ∈ last :: acc, s.typ = .OPT → s.rdatas.length ≤ 1) →
    (sets.flatMap RRset.records).length = (acc.flatMap RRset.records).length + last.records.length + n ∧
    ∀ s ∈ sets, s.typ = .OPT → s.rdatas.length ≤ 1 := by
  induction n with
  | zero =>
    intro acc last b sets b' hb hl h ho
    have h' : (Res.ok (acc ++ [last]), b) = (Res.ok sets, b') := h
    simp only [Prod.mk.injEq, Res.ok.injEq] at h'
    obtain ⟨rfl, rfl⟩ := h'
    refine ⟨by simp [List.flatMap_append], fun s hs => ho s ?_⟩
    rcases List.mem_append.mp hs with h | h
    · exact List.mem_cons_of_mem _ h
    · rw [List.mem_singleton] at h; subst h; simp
  | succ n ih =>
    intro acc last b sets b' hb hl h hopt
    rw [Section.fromLoop_succ] at h
    rcases safe_rrset' b hb with ⟨s, e, e1, e2, e3, e4, e5, e6, e7⟩ | ⟨x, e1, e2⟩
    · rw [St.bind_ok e1] at h
      rcases join_cases (n := n) (acc := acc) (last := last) e6 hl.name ⟨b.data, e⟩ with ⟨_, _, hj⟩ | ⟨hs, ho, rd, l, hr, hj⟩ | ⟨hs, hj⟩
      · rw [hj] at h; simp at h
      · rw [hj] at h
        have hlt : last.typ ≠ .OPT := fun h => ho (hs.1.trans h)
        have hne : last.rdatas ≠ [] := fun h => hlt (hl.empty h)
        have hl' : RRset.Decoded { last with rdatas := last.rdatas ++ [rd] } := by
          refine ⟨hl.name, hl.typ, hl.class_, ?_, by simp⟩
          intro x hx
          rcases List.mem_append.mp hx with hx | hx
          · exact hl.data x hx
          · rw [List.mem_singleton] at hx
            subst hx
            have := e6.data x (by rw [hr]; simp)
            exact ⟨this.1.trans hs.1, this.2⟩
        obtain ⟨h1, h2⟩ := ih acc { last with rdatas := last.rdatas ++ [rd] } _ sets b' e3 hl' h (by
          intro x hx ht
          rcases List.mem_cons.mp hx with rfl | hx
          · exact absurd ht hlt
          · exact hopt x (List.mem_cons_of_mem _ hx) ht)
        refine ⟨?_, h2⟩
        rw [h1, records_length, records_length, if_neg hne, if_neg (by simp)]
        simp only [List.length_append, List.length_cons, List.length_nil]; omega
      · rw [hj] at h
        obtain ⟨h1, h2⟩ := ih (acc ++ [last]) s _ sets b' e3 e6 h (by
          intro x hx ht
          rcases List.mem_cons.mp hx with rfl | hx
          · exact e7
          · rcases List.mem_append.mp hx with hx | hx
            · exact hopt x (List.mem_cons_of_mem _ hx) ht
            · rw [List.mem_singleton] at hx; subst hx; exact hopt x (by simp) ht)
        refine ⟨?_, h2⟩
        have hsr : s.records.length = 1 := by
          rw [records_length]
          split
          · rfl
          · have : 0 < s.rdatas.length := List.length_pos_iff.mpr (by assumption)
            omega
        rw [h1, List.flatMap_append, List.length_append, hsr]
        simp only [List.flatMap_cons, List.flatMap_nil, List.append_nil]; omega
    · rw [St.bind_err e1] at h; simp at h

theorem section_count {n : UInt16} {t : SectionType} {b b' : InBuf} {s : Section} (hb : b.pos ≤ b.data.length)
    (h : Section.from_wire n t b = (.ok s, b')) :
    (Section.records s).length = n.toNat ∧ ∀ sets, s = some sets → ∀ x ∈ sets, x.typ = .OPT → x.rdatas.length ≤ 1 := by
  unfold Section.from_wire at h
  by_cases hn : n = 0
  · subst hn
    rw [if_pos rfl] at h
    have h2' : (Res.ok (none : Section), b) = (Res.ok s, b') := h
    simp only [Prod.mk.injEq, Res.ok.injEq] at h2'
    obtain ⟨rfl, rfl⟩ := h2'
    exact ⟨rfl, by simp⟩
  · rw [if_neg hn] at h
    have hn1 : n.toNat ≠ 0 := fun h => hn (UInt16.toNat_inj.mp (by simpa using h))
    rcases safe_rrset' b hb with ⟨x, e, e1, e2, e3, e4, e5, e6, e7⟩ | ⟨x, e1, e2⟩
    · rw [St.bind_ok e1] at h
      by_cases ho : x.typ = .OPT ∧ t ≠ .Additional
      · rw [if_pos ho] at h; simp [St.fail] at h
      · rw [if_neg ho] at h
        obtain ⟨sets, b2, h1, h2⟩ := St.bind_ok_inv h
        have h2' : (Res.ok (some sets), b2) = (Res.ok s, b') := h2
        simp only [Prod.mk.injEq, Res.ok.injEq] at h2'
        obtain ⟨rfl, rfl⟩ := h2'
        obtain ⟨k1, k2⟩ := fromLoop_count _ [] x _ sets b2 e3 e6 h1 (by
          intro y hy _
          rw [List.mem_singleton] at hy; subst hy; exact e7)
        refine ⟨?_, fun ss hss => by rw [← Option.some.inj hss]; exact k2⟩
        have hsr : x.records.length = 1 := by
          rw [records_length]
          split
          · rfl
          · have : 0 < x.rdatas.length := List.length_pos_iff.mpr (by assumption)
            omega
        show (sets.flatMap RRset.records).length = _
        rw [k1, hsr]; simp only [List.flatMap_nil, List.length_nil]; omega
    · rw [St.bind_err e1] at h; simp at h

/-- `rr_count` counts the records -/
theorem rr_count_eq (s : Section) : Section.rr_count s = (Section.records s).length := by
  match s with
  | none => rfl
  | some sets =>
    have key : ∀ (l : List RRset) (a : Nat), l.foldl (fun count rrset => if rrset.rr_count = 0 then count + 1 else count + rrset.rr_count) a =
        a + (l.flatMap RRset.records).length := by
      intro l
      induction l with
      | nil => intro a; rfl
      | cons x xs ih =>
        intro a
        rw [List.foldl_cons, ih, List.flatMap_cons, List.length_append, records_length]
        by_cases hx : x.rdatas = []
        · rw [if_pos (by simp [RRset.rr_count, hx]), if_pos hx]; omega
        · have : x.rr_count ≠ 0 := fun h => hx (List.length_eq_zero_iff.mp h)
          rw [if_neg this, if_neg hx]; unfold RRset.rr_count; omega
    show sets.foldl _ 0 = (sets.flatMap RRset.records).length
    rw [key]; omega

end R53
