import Verif.Proofs.NameWire2
import Verif.Props.NameOps
/-!
# C01–C03, C19: names from the wire, and what can be made of them
-/
namespace R53
namespace Name

/-! ## C01 -/

/-- on any octets and cursor: an answer (the model is a total function), no panic, the data kept;
on success a valid name and a cursor that moved forward and stays inside the buffer -/
theorem c01_from_wire_safe (b : InBuf) :
    (from_wire b).1 ≠ .panic ∧ (from_wire b).2.data = b.data ∧
    ∀ n, (from_wire b).1 = .ok n →
      (∃ ls, n = ofLabels ls ∧ (∀ l ∈ ls, 1 ≤ l.length ∧ l.length ≤ 63) ∧ n.raw = nameWire ls ∧
        n.raw.length ≤ 255 ∧ n.label_count = ls.length + 1 ∧ n.label_count ≤ 128) ∧
      b.pos < (from_wire b).2.pos ∧ (from_wire b).2.pos ≤ b.data.length := by
  rcases from_wire_spec b with ⟨ls, e, h1, h2, h3⟩ | ⟨_, h2, h3⟩
  · rw [h3]
    refine ⟨by simp, rfl, ?_⟩
    intro n hn
    simp only [Res.ok.injEq] at hn
    subst hn
    refine ⟨⟨ls, rfl, h2.1, by rw [nameWire_eq]; rfl, by rw [ofLabels_raw, ← nameWire_eq]; exact h2.2, ofLabels_count ls, ?_⟩, h1.end_le⟩
    rw [ofLabels_count]; have := h2.count; omega
  · rw [h2]
    exact ⟨by simp, h3, by simp⟩

/-- `www` at 2, then at 6 a label `a` and a pointer to 2 -/
def sampleMsg : List UInt8 := [9, 9, 3, 119, 119, 119, 0, 1, 97, 0xC0, 2, 7]

example : (from_wire ⟨sampleMsg, 7⟩).1 = .ok (ofLabels [[97], [119, 119, 119]]) ∧ (from_wire ⟨sampleMsg, 7⟩).2.pos = 11 := by
  have : Decodes sampleMsg 7 7 [[97], [119, 119, 119]] 11 :=
    .label 1 rfl (by decide) (by decide) rfl rfl
      (.pointer 0xC0 2 rfl (by decide) rfl (by decide)
        (.label 3 rfl (by decide) (by decide) rfl rfl (.root rfl)))
  rw [from_wire_decodes (b := ⟨sampleMsg, 7⟩) this (by decide)]
  exact ⟨rfl, rfl⟩

/-! ## C02 -/

/-- success is exactly RFC 1035 decoding within the length limit (`Decodes`, `Spec/Name.lean`) -/
theorem c02_from_wire_iff (b b' : InBuf) (n : Name) :
    from_wire b = (.ok n, b') ↔
      ∃ ls, Decodes b.data b.pos b.pos ls b'.pos ∧ (nameWire ls).length ≤ 255 ∧ n = ofLabels ls ∧ b'.data = b.data := by
  constructor
  · intro h
    obtain ⟨ls, h1, h2, h3, h4⟩ := from_wire_ok h
    exact ⟨ls, h1, h2.2, h3, h4⟩
  · rintro ⟨ls, h1, h2, rfl, h4⟩
    rw [from_wire_decodes h1 h2, ← h4]

/-- the labels and end are determined by the octets -/
theorem c02_unique {msg : List UInt8} {limit pos e e' : Nat} {ls ls' : List Label}
    (h : Decodes msg limit pos ls e) (h' : Decodes msg limit pos ls' e') : ls = ls' ∧ e = e' := h.det h'

/-- a pointer to itself or forward is refused -/
example : (from_wire ⟨[0xC0, 0], 0⟩).1 = .err := by
  rcases from_wire_spec ⟨[0xC0, 0], 0⟩ with ⟨ls, e, h1, _, _⟩ | ⟨_, h, _⟩
  · cases h1 with
    | root h => simp at h
    | label len h1 h2 h3 => simp at h1; subst h1; simp at h3
    | pointer hi lo h1 h2 h3 h4 => exact absurd h4 (Nat.not_lt_zero _)
  · exact h

/-! ## C03 -/

/-- the wire form of any valid name, anywhere in any buffer, decodes to that name -/
theorem c03_round_trip {ls : List Label} (h : ValidName ls) (before after : List UInt8) :
    from_wire ⟨before ++ nameWire ls ++ after, before.length⟩ =
      (.ok (ofLabels ls), ⟨before ++ nameWire ls ++ after, before.length + (nameWire ls).length⟩) := by
  apply from_wire_decodes (b := ⟨before ++ nameWire ls ++ after, before.length⟩) _ h.2
  exact Decodes.of_wire h.1 (rest := after) (by rw [List.append_assoc, List.drop_left])

example : ValidName wwwUp ∧ (nameWire wwwUp).length = 13 := by decide

/-! ## C19 -/

end Name

namespace LabelSequence

theorem scan_nonempty (seqs : List (List Label)) (acc : Bool × Bool × Nat × Nat) (r : Bool × Bool × Nat × Nat)
    (h : scan (seqs.map ofLabels) acc = .ok r) : ∀ s ∈ seqs, s ≠ [] := by
  induction seqs generalizing acc with
  | nil => simp
  | cons x xs ih =>
    intro s hs
    by_cases hx : x = []
    · subst hx
      simp [scan, is_absolute, ofLabels, csub] at h
    · rcases List.mem_cons.mp hs with rfl | hs
      · exact hx
      · simp only [List.map_cons, scan] at h
        rw [is_absolute_ofLabels hx, Res.bind_ok] at h
        exact ih _ h s hs

theorem concat_all_nonempty {s : List Label} {seqs : List (List Label)} {n : Name}
    (h : concat_all (ofLabels s) (seqs.map ofLabels) = .ok n) : s ≠ [] ∧ ∀ x ∈ seqs, x ≠ [] := by
  by_cases hs : s = []
  · subst hs
    simp [concat_all, is_absolute, ofLabels, csub] at h
  · refine ⟨hs, ?_⟩
    unfold concat_all at h
    rw [is_absolute_ofLabels hs, Res.bind_ok] at h
    by_cases ha : lastOctet s = some 0
    · simp only [ha, decide_true, if_true, List.map_eq_nil_iff] at h
      by_cases hq : seqs = []
      · subst hq; simp
      · rw [if_neg hq] at h; simp at h
    · simp only [ha, decide_false, Bool.false_eq_true, if_false] at h
      cases hsc : scan (List.map ofLabels seqs) (false, true, (ofLabels s).len, (ofLabels s).label_count) with
      | ok r => exact scan_nonempty seqs _ r hsc
      | err => rw [hsc] at h; simp at h
      | panic => rw [hsc] at h; simp at h

end LabelSequence

namespace Name

/-- names (`inl`) and label sequences (`inr`) that can be made: decoded names and the root, closed under
the operations of the API -/
inductive Made : Name ⊕ LabelSequence → Prop
  | root : Made (.inl Name.root)
  | decoded {b b' : InBuf} {n : Name} : from_wire b = (.ok n, b') → Made (.inl n)
  | concat_all {n r : Name} {ns : List Name} :
      Made (.inl n) → (∀ x ∈ ns, Made (.inl x)) → Name.concat_all n ns = .ok r → Made (.inl r)
  | split {n r : Name} {a c : Nat} : Made (.inl n) → Name.split n a c = .ok r → Made (.inl r)
  | parent {n r : Name} {k : Nat} : Made (.inl n) → Name.parent n k = .ok r → Made (.inl r)
  | reverse {n r : Name} : Made (.inl n) → Name.reverse n = .ok r → Made (.inl r)
  | as_lowercase {n r : Name} : Made (.inl n) → Name.as_lowercase n = .ok r → Made (.inl r)
  | strip_left {n r : Name} {k : Nat} : Made (.inl n) → Name.strip_left n k = .ok r → Made (.inl r)
  | strip_right {n r : Name} {k : Nat} : Made (.inl n) → Name.strip_right n k = .ok r → Made (.inl r)
  | into_ancestor {n r : Name} {k : Nat} : Made (.inl n) → Name.into_ancestor n k = .ok r → Made (.inl r)
  | into_child {n r : Name} {k : Nat} : Made (.inl n) → Name.into_child n k = .ok r → Made (.inl r)
  /-- joining label sequences where the last suffix ends in the root label -/
  | sequences {s last : LabelSequence} {xs : List LabelSequence} {r : Name} {ls : List Label} :
      Made (.inr s) → (∀ x ∈ xs, Made (.inr x)) → Made (.inr last) → last = LabelSequence.ofLabels (ls ++ [[]]) →
      LabelSequence.concat_all s (xs ++ [last]) = .ok r → Made (.inl r)
  | into {n : Name} {s : LabelSequence} {a b : Nat} :
      Made (.inl n) → Name.into_label_sequence n a b = .ok s → Made (.inr s)
  | taken {s p q : LabelSequence} {a c : Nat} : Made (.inr s) → LabelSequence.split s a c = .ok (p, q) → Made (.inr p)
  | left {s p q : LabelSequence} {a c : Nat} : Made (.inr s) → LabelSequence.split s a c = .ok (p, q) → Made (.inr q)

/-- what label sequences look like: only the last label can be the root label -/
def SeqInv (s : LabelSequence) : Prop :=
  ∃ ls, s = LabelSequence.ofLabels ls ∧ SeqOK ls ∧ ∀ l ∈ ls.dropLast, l ≠ []

theorem dropLast_inv_sub {a b : List Label} (h : ∀ l ∈ a.dropLast, l ≠ []) (hs : b.Sublist a) :
    ∀ l ∈ b.dropLast, l ≠ [] := by
  intro l hl
  have : b.dropLast.Sublist a.dropLast := by simpa [List.tail_reverse] using (hs.reverse.tail).reverse
  exact h l (this.subset hl)

theorem seq_inj {a b : List Label} {p : Nat} (hw : wire a = wire b) (hs : starts p a = starts p b) : a = b := by
  induction a generalizing b p with
  | nil => cases b with
    | nil => rfl
    | cons => simp at hs
  | cons x a ih =>
    cases b with
    | nil => simp at hs
    | cons y b =>
      simp only [starts_cons, List.cons.injEq, true_and] at hs
      simp only [wire_cons, List.cons.injEq] at hw
      cases a with
      | nil =>
        cases b with
        | nil => simpa using hw.2
        | cons => simp at hs
      | cons x' a =>
        cases b with
        | nil => simp at hs
        | cons y' b =>
          have hl : x.length = y.length := by
            simp only [starts_cons, List.cons.injEq] at hs; omega
          obtain ⟨h1, h2⟩ := List.append_inj hw.2 hl
          rw [hl] at hs
          rw [h1, ih h2 hs]

theorem seqInv_list {xs : List LabelSequence} (h : ∀ x ∈ xs, SeqInv x) :
    ∃ lss : List (List Label), xs = lss.map LabelSequence.ofLabels ∧ ∀ ls ∈ lss, SeqOK ls ∧ ∀ l ∈ ls.dropLast, l ≠ [] := by
  induction xs with
  | nil => exact ⟨[], rfl, by simp⟩
  | cons x xs ih =>
    obtain ⟨l, hl, h1⟩ := h x (by simp)
    obtain ⟨lss, h2, h3⟩ := ih (fun y hy => h y (by simp [hy]))
    refine ⟨l :: lss, by simp [hl, h2], ?_⟩
    intro ls hls
    rcases List.mem_cons.mp hls with rfl | hls
    · exact h1
    · exact h3 ls hls

theorem wf_list {xs : List Name} (h : ∀ x ∈ xs, WF x) :
    ∃ lss : List (List Label), xs = lss.map ofLabels ∧ ∀ ls ∈ lss, ValidName ls := by
  induction xs with
  | nil => exact ⟨[], rfl, by simp⟩
  | cons x xs ih =>
    obtain ⟨l, h1, hl⟩ := h x (by simp)
    obtain ⟨lss, h2, h3⟩ := ih (fun y hy => h y (by simp [hy]))
    refine ⟨l :: lss, by simp [hl, h2], ?_⟩
    intro ls hls
    rcases List.mem_cons.mp hls with rfl | hls
    · exact h1
    · exact h3 ls hls

/-- inner labels of runs not ending in a zero octet are not empty -/
theorem all_nonempty {ls : List Label} (h : ∀ l ∈ ls.dropLast, l ≠ []) (hz : LabelSequence.lastOctet ls ≠ some 0) :
    ∀ l ∈ ls, l ≠ [] := by
  intro l hl
  by_cases hne : ls = []
  · subst hne; simp at hl
  · rw [← List.dropLast_concat_getLast hne] at hl hz
    rcases List.mem_append.mp hl with h' | h'
    · exact h l h'
    · intro h0
      simp only [List.mem_singleton] at h'
      rw [← h', h0] at hz
      exact hz (LabelSequence.lastOctet_root _)

theorem concat_seq_wf {s last : List Label} {xs : List (List Label)} {r : Name}
    (hs : SeqOK s ∧ ∀ l ∈ s.dropLast, l ≠ []) (hx : ∀ ls ∈ xs, SeqOK ls ∧ ∀ l ∈ ls.dropLast, l ≠ [])
    (hl : SeqOK (last ++ [[]]) ∧ ∀ l ∈ (last ++ [([] : Label)]).dropLast, l ≠ [])
    (h : LabelSequence.concat_all (LabelSequence.ofLabels s)
      ((xs ++ [last ++ [[]]]).map LabelSequence.ofLabels) = .ok r) : WF r := by
  have hne := LabelSequence.concat_all_nonempty h
  have h63 : ∀ l ∈ s ++ (xs ++ [last ++ [[]]]).flatten, l.length ≤ 63 := by
    intro l hl'
    rcases List.mem_append.mp hl' with h' | h'
    · exact hs.1.1 l h'
    · obtain ⟨x, hxm, hlx⟩ := List.mem_flatten.mp h'
      rcases List.mem_append.mp hxm with h'' | h''
      · exact (hx x h'').1.1 l hlx
      · simp only [List.mem_singleton] at h''; subst h''; exact hl.1.1 l hlx
  rw [LabelSequence.concat_all_ofLabels _ hne.1 hne.2 h63] at h
  by_cases ha : LabelSequence.lastOctet s = some 0
  · rw [if_pos ha, if_neg (by simp)] at h; simp at h
  · rw [if_neg ha] at h
    by_cases hc : (∀ x ∈ (xs ++ [last ++ [[]]]).dropLast, LabelSequence.lastOctet x ≠ some 0) ∧
        (∀ x, (xs ++ [last ++ [[]]]).getLast? = some x → LabelSequence.lastOctet x = some 0) ∧
        (wire (s ++ (xs ++ [last ++ [[]]]).flatten)).length ≤ 255 ∧ (s ++ (xs ++ [last ++ [[]]]).flatten).length ≤ 128
    · rw [if_pos hc] at h
      simp only [Res.ok.injEq] at h
      have hj : s ++ (xs ++ [last ++ [[]]]).flatten = (s ++ xs.flatten ++ last) ++ [[]] := by simp
      refine ⟨s ++ xs.flatten ++ last, ⟨?_, ?_⟩, ?_⟩
      · intro l hl'
        refine ⟨?_, h63 l (by rw [hj]; exact List.mem_append.mpr (Or.inl hl'))⟩
        apply List.length_pos_iff.mpr
        rcases List.mem_append.mp hl' with h' | h'
        · rcases List.mem_append.mp h' with h' | h'
          · exact all_nonempty hs.2 ha l h'
          · obtain ⟨x, hxm, hlx⟩ := List.mem_flatten.mp h'
            refine all_nonempty (hx x hxm).2 (hc.1 x ?_) l hlx
            simpa using hxm
        · exact hl.2 l (by simpa using h')
      · have := hc.2.2.1
        rw [hj, ← nameWire_eq] at this
        exact this
      · rw [← h, hj]; rfl
    · rw [if_neg hc] at h; simp at h

/-- the invariant: names are valid, label sequences fit -/
def Good : Name ⊕ LabelSequence → Prop
  | .inl n => WF n
  | .inr s => SeqInv s

theorem made_good {x : Name ⊕ LabelSequence} (h : Made x) : Good x := by
  induction h with
  | root => exact ⟨[], validName_nil, rfl⟩
  | decoded h => obtain ⟨ls, _, h1, h2, _⟩ := from_wire_ok h; exact ⟨ls, h1, h2⟩
  | @concat_all m _ ns _ _ h3 h1 h2 =>
    obtain ⟨ls, hv, rfl⟩ := h1
    have h2' : ∀ x ∈ ns, WF x := h2
    obtain ⟨lss, rfl, hvs⟩ := wf_list h2'
    by_cases hne : lss = []
    · subst hne
      rw [List.map_nil, c14_concat_nothing_panics hv] at h3; simp at h3
    · rw [concat_all_ofLabels hv lss hne] at h3
      split at h3
      · rename_i hc
        simp only [Res.ok.injEq] at h3
        refine ⟨ls ++ lss.flatten, ⟨?_, hc.1⟩, h3.symm⟩
        intro l hl
        rcases List.mem_append.mp hl with h' | h'
        · exact hv.1 l h'
        · obtain ⟨x, hx, hlx⟩ := List.mem_flatten.mp h'
          exact (hvs x hx).1 l hlx
      · simp at h3
  | split _ h2 h1 =>
    obtain ⟨ls, hv, rfl⟩ := h1
    rw [(c13_split hv _ _).1] at h2
    split at h2
    · simp only [Res.ok.injEq] at h2; exact ⟨_, (c13_split hv _ _).2, h2.symm⟩
    · simp at h2
  | parent _ h2 h1 =>
    obtain ⟨ls, hv, rfl⟩ := h1
    rw [(c13_parent hv _).1] at h2
    split at h2
    · simp only [Res.ok.injEq] at h2; exact ⟨_, (c13_parent hv _).2, h2.symm⟩
    · split at h2 <;> simp at h2
  | reverse _ h2 h1 =>
    obtain ⟨ls, hv, rfl⟩ := h1
    rw [(c15_reverse hv).1] at h2
    simp only [Res.ok.injEq] at h2; exact ⟨_, (c15_reverse hv).2, h2.symm⟩
  | as_lowercase _ h2 h1 =>
    obtain ⟨ls, hv, rfl⟩ := h1
    rw [as_lowercase_ofLabels hv] at h2
    simp only [Res.ok.injEq] at h2; exact ⟨_, lowerName_valid hv, h2.symm⟩
  | strip_left _ h2 h1 =>
    obtain ⟨ls, hv, rfl⟩ := h1
    rw [(c13_strip_left hv _).1] at h2
    split at h2
    · simp only [Res.ok.injEq] at h2; exact ⟨_, (c13_strip_left hv _).2.2, h2.symm⟩
    · simp at h2
  | strip_right _ h2 h1 =>
    obtain ⟨ls, hv, rfl⟩ := h1
    rw [(c13_strip_right hv _).1] at h2
    split at h2
    · simp only [Res.ok.injEq] at h2; exact ⟨_, (c13_strip_right hv _).2.2, h2.symm⟩
    · simp at h2
  | into_ancestor _ h2 h1 =>
    obtain ⟨ls, hv, rfl⟩ := h1
    rw [(c13_strip_left hv _).2.1, (c13_strip_left hv _).1] at h2
    split at h2
    · simp only [Res.ok.injEq] at h2; exact ⟨_, (c13_strip_left hv _).2.2, h2.symm⟩
    · simp at h2
  | into_child _ h2 h1 =>
    obtain ⟨ls, hv, rfl⟩ := h1
    rw [(c13_strip_right hv _).2.1, (c13_strip_right hv _).1] at h2
    split at h2
    · simp only [Res.ok.injEq] at h2; exact ⟨_, (c13_strip_right hv _).2.2, h2.symm⟩
    · simp at h2
  | @sequences s last xs _ lastls _ _ _ h4 h5 h1 h2 h3 =>
    obtain ⟨ls, rfl, hls⟩ := h1
    have h2' : ∀ x ∈ xs, SeqInv x := h2
    obtain ⟨lss, rfl, hlss⟩ := seqInv_list h2'
    obtain ⟨ls3, h3e, h3i⟩ := h3
    have e : ls3 = lastls ++ [[]] := by
      have hd : wire ls3 = wire (lastls ++ [[]]) := by
        rw [h3e] at h4; exact congrArg LabelSequence.data h4
      have ho : starts 0 ls3 = starts 0 (lastls ++ [[]]) := by
        rw [h3e] at h4; exact congrArg LabelSequence.offsets h4
      exact seq_inj hd ho
    subst e
    subst h4
    refine concat_seq_wf (s := ls) (xs := lss) (last := lastls) hls hlss h3i ?_
    rw [List.map_append]
    exact h5
  | into _ h2 h1 =>
    obtain ⟨ls, hv, rfl⟩ := h1
    rw [into_label_sequence_ofLabels hv] at h2
    split at h2
    · simp only [Res.ok.injEq] at h2
      have hsub : ∀ {a b : Nat}, (((ls ++ [[]]).take (b + 1)).drop a).Sublist (ls ++ [([] : Label)]) :=
        (List.drop_sublist _ _).trans (List.take_sublist _ _)
      refine ⟨_, h2.symm, (SeqOK.root hv).sublist hsub, dropLast_inv_sub ?_ hsub⟩
      simp only [List.dropLast_concat]
      intro l hl h'
      have := (hv.1 l hl).1
      subst h'; simp at this
    · simp at h2
  | taken _ h2 h1 =>
    obtain ⟨ls, rfl, h3, h4⟩ := h1
    rw [(LabelSequence.c17_split h3 _ _).1] at h2
    split at h2
    · simp only [Res.ok.injEq, Prod.mk.injEq] at h2
      exact ⟨_, h2.1.symm, (LabelSequence.c17_split h3 _ _).2.1,
        dropLast_inv_sub h4 ((List.take_sublist _ _).trans (List.drop_sublist _ _))⟩
    · simp at h2
  | @left _ _ _ a c _ h2 h1 =>
    obtain ⟨ls, rfl, h3, h4⟩ := h1
    rw [(LabelSequence.c17_split h3 _ _).1] at h2
    split at h2
    · simp only [Res.ok.injEq, Prod.mk.injEq] at h2
      refine ⟨_, h2.2.symm, (LabelSequence.c17_split h3 _ _).2.2.1, dropLast_inv_sub h4 ?_⟩
      have h5 : ls.take a ++ ls.drop a = ls := List.take_append_drop _ _
      have h6 : (ls.drop (a + c)).Sublist (ls.drop a) := by
        rw [← List.drop_drop]; exact List.drop_sublist _ _
      have h7 := (List.Sublist.refl (ls.take a)).append h6
      rwa [h5] at h7
    · simp at h2

/-- every name that can be made is valid -/
theorem c19_made_valid_partial {n : Name} (h : Made (.inl n)) :
    ∃ ls, n = ofLabels ls ∧ (∀ l ∈ ls, 1 ≤ l.length ∧ l.length ≤ 63) ∧ n.raw = nameWire ls ∧ n.raw.length ≤ 255 := by
  obtain ⟨ls, h1, h2⟩ := made_good h
  subst h2
  exact ⟨ls, rfl, h1.1, by rw [nameWire_eq]; rfl, by rw [ofLabels_raw, ← nameWire_eq]; exact h1.2⟩

/-- a name made by decoding, cutting and joining -/
example : Made (.inl (ofLabels [[119, 119, 119], [119, 119, 119]])) := by
  have h1 : Made (.inl (ofLabels [[119, 119, 119]])) :=
    .decoded (c03_round_trip (ls := [[119, 119, 119]]) (by decide) [1, 2] [3])
  exact .concat_all h1 (ns := [ofLabels [[119, 119, 119]]]) (by simpa using h1) (by decide)

end Name
end R53
