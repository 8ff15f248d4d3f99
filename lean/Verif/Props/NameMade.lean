import Verif.Props.NameWire
/-!
# C19: joining label sequences, without restriction
-/
namespace R53
namespace Name

theorem ends_root {pre last ls : List Label} (hne : last ≠ []) (h : pre ++ last = ls ++ [[]]) : ∃ t, last = t ++ [[]] := by
  refine ⟨last.dropLast, ?_⟩
  have h1 : (pre ++ last).getLast? = some [] := by rw [h]; simp
  have h2 : last.getLast? = some [] := by
    rw [List.getLast?_append] at h1
    cases hl : last.getLast? with
    | none => rw [List.getLast?_eq_none_iff] at hl; exact absurd hl hne
    | some x => rw [hl] at h1; simpa using h1
  obtain ⟨t, ht⟩ := List.getLast?_eq_some_iff.mp h2
  rw [ht, List.dropLast_concat]

/-- whatever label sequences come out of a history of operations, joining them gives, if it gives a name, a valid one if and only if the last of them
ends with the root label -/
theorem c19_exact {s : LabelSequence} {xs : List LabelSequence} {n : Name} (hs : Made (.inr s)) (hx : ∀ x ∈ xs, Made (.inr x))
    (h : LabelSequence.concat_all s xs = .ok n) :
    Name.WF n ↔ ∃ ls : List Label, (s :: xs).getLast? = some (LabelSequence.ofLabels (ls ++ [[]])) := by
  have gs : SeqInv s := made_good hs
  have gx : ∀ x ∈ xs, SeqInv x := fun x hm => made_good (hx x hm)
  obtain ⟨sl, rfl, hsl⟩ := gs
  obtain ⟨lss, rfl, hlss⟩ := seqInv_list gx
  have h63 : ∀ l ∈ sl ++ lss.flatten, l.length ≤ 63 := by
    intro l hl
    rcases List.mem_append.mp hl with h' | h'
    · exact hsl.1.1 l h'
    · obtain ⟨x, hxm, hlx⟩ := List.mem_flatten.mp h'
      exact (hlss x hxm).1.1 l hlx
  have h0 := h
  rw [LabelSequence.c17_exact sl lss h63] at h
  have hseq : ∀ {a b : List Label}, LabelSequence.ofLabels a = LabelSequence.ofLabels b → a = b := by
    intro a b hab
    exact seq_inj (congrArg LabelSequence.data hab) (congrArg LabelSequence.offsets hab)
  by_cases hsn : sl = []
  · rw [if_pos hsn] at h; cases h
  rw [if_neg hsn] at h
  have hn : n = ⟨wire (sl ++ lss.flatten), starts 0 (sl ++ lss.flatten)⟩ ∧ [] ∉ lss := by
    by_cases hz : LabelSequence.zeroEnd sl = true
    · rw [if_pos hz] at h
      by_cases hl : lss = []
      · subst hl
        rw [if_pos rfl] at h
        simp only [Res.ok.injEq] at h
        exact ⟨by simpa using h.symm, by simp⟩
      · rw [if_neg hl] at h; cases h
    · rw [if_neg hz] at h
      by_cases he : [] ∈ lss
      · rw [if_pos he] at h; cases h
      · rw [if_neg he] at h
        split at h
        · simp only [Res.ok.injEq] at h
          exact ⟨h.symm, he⟩
        · cases h
  obtain ⟨hn, hne⟩ := hn
  constructor
  · rintro ⟨ls, hv, he⟩
    rw [hn, Name.ofLabels, Name.mk.injEq] at he
    have he := seq_inj he.1 he.2
    rcases List.eq_nil_or_concat lss with rfl | ⟨pre, last, rfl⟩
    · refine ⟨ls, ?_⟩
      simp only [List.flatten_nil, List.append_nil] at he
      simp [he]
    · rw [List.concat_eq_append] at he hne ⊢
      have hl : last ≠ [] := fun hl => hne (by simp [hl])
      rw [List.flatten_append, ← List.append_assoc] at he
      obtain ⟨t, ht⟩ := ends_root (last := last) hl (pre := sl ++ pre.flatten) (ls := ls) (by simpa using he)
      refine ⟨t, ?_⟩
      simp [ht, List.getLast?_cons]
  · rintro ⟨ls, he⟩
    rcases List.eq_nil_or_concat lss with rfl | ⟨pre, last, rfl⟩
    · simp only [List.map_nil, List.getLast?_singleton, Option.some.injEq] at he
      have he := hseq he
      subst he
      refine ⟨ls, ⟨fun l hl => ⟨?_, hsl.1.1 l (by simp [hl])⟩, ?_⟩, ?_⟩
      · have := hsl.2 l (by simpa using hl)
        exact List.length_pos_iff.mpr this
      · rw [nameWire_eq]; exact hsl.1.2
      · rw [hn]; simp [Name.ofLabels]
    · rw [List.concat_eq_append] at *
      simp only [List.map_append, List.map_cons, List.map_nil, List.getLast?_cons, List.getLast?_append, List.getLast?_singleton, Option.some_or,
        Option.getD_some, Option.some.injEq] at he
      have he := hseq he
      subst he
      exact concat_seq_wf hsl (fun x hxm => hlss x (by simp [hxm])) (hlss _ (by simp)) h0

/-- both kinds of result are met: the runs `a` and the root, cut out of the name `a.`; joined they are a name, and the first alone is answered as one
that is not valid -/
theorem c19_example : Made (.inr (LabelSequence.ofLabels [[97]])) ∧ Made (.inr (LabelSequence.ofLabels [[]])) ∧
    LabelSequence.concat_all (LabelSequence.ofLabels [[97]]) [LabelSequence.ofLabels [[]]] = .ok (ofLabels [[97]]) ∧ Name.WF (ofLabels [[97]]) ∧
    LabelSequence.concat_all (LabelSequence.ofLabels [[97]]) [] = .ok ⟨[1, 97], [0]⟩ ∧ ¬ Name.WF ⟨[1, 97], [0]⟩ := by
  have h1 : Made (.inl (ofLabels [[97]])) := .decoded (c03_round_trip (ls := [[97]]) (by decide) [] [])
  refine ⟨.into h1 (a := 0) (b := 0) (by decide), .into h1 (a := 1) (b := 1) (by decide), by decide, ⟨[[97]], by decide, rfl⟩, ?_⟩
  exact LabelSequence.c17_relative_name

end Name
end R53
