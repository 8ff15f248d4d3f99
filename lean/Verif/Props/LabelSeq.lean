import Verif.Proofs.SliceCmp
import Verif.Proofs.Signed
import Verif.Props.NameText
/-!
# C80: label sequences and slices compare, print and parse like names
-/
namespace R53

theorem isRun_sub {a b : List Label} (h : IsRun b) (hs : a.Sublist b) (ha : a ≠ []) : IsRun a := by
  obtain ⟨_, n, hv, h | h⟩ := h
  · subst h
    exact ⟨ha, a, hv.sublist hs, Or.inl rfl⟩
  · subst h
    obtain ⟨a1, a2, rfl, h1, h2⟩ := List.sublist_append_iff.1 hs
    have hv1 := hv.sublist h1
    cases h2 with
    | cons _ h2 => cases h2; exact ⟨ha, a1, hv1, Or.inl (by simp)⟩
    | cons_cons _ h2 => cases h2; exact ⟨ha, a1, hv1, Or.inr rfl⟩

theorem IsRun.facts {ls : List Label} (h : IsRun ls) : (∀ l ∈ ls, l.length ≤ 63) ∧ (wire ls).length ≤ 255 ∧ ls.length ≤ 128 := by
  obtain ⟨_, n, hv, h | h⟩ := h
  · subst h
    exact ⟨hv.len63, by have := hv.wire_le; omega, by have := hv.count; omega⟩
  · subst h
    exact ⟨Name.h63root hv, (SeqOK.root hv).2, by have := hv.count; simp; omega⟩

theorem foldLabels_false (ls : List Label) : foldLabels false ls = lowerName ls := by
  unfold foldLabels lowerName lowerLabel foldByte; simp

theorem foldLabels_true (ls : List Label) : foldLabels true ls = ls := by
  unfold foldLabels foldByte; simp

theorem wire_inj : ∀ {a b : List Label}, (∀ l ∈ a, l.length ≤ 63) → (∀ l ∈ b, l.length ≤ 63) → wire a = wire b → a = b := by
  intro a
  induction a with
  | nil => intro b _ _ h; cases b with
    | nil => rfl
    | cons y b => simp at h
  | cons x a ih =>
    intro b ha hb h
    cases b with
    | nil => simp at h
    | cons y b =>
      rw [wire_cons, wire_cons, List.cons.injEq] at h
      have hl : x.length = y.length := (Name.u8_ofNat_inj (ha x (by simp)) (hb y (by simp))).1 h.1
      obtain ⟨h1, h2⟩ := List.append_inj h.2 hl
      rw [h1, ih (fun l hl => ha l (by simp [hl])) (fun l hl => hb l (by simp [hl])) h2]

theorem wire_fold_iff (cs : Bool) {a b : List Label} (ha : ∀ l ∈ a, l.length ≤ 63) (hb : ∀ l ∈ b, l.length ≤ 63) :
    SameLabels cs a b ↔ if cs then wire a = wire b else (wire a).map lowerByte = (wire b).map lowerByte := by
  unfold SameLabels
  cases cs
  · rw [foldLabels_false, foldLabels_false, Name.wire_lower a ha, Name.wire_lower b hb]
    simp only [Bool.false_eq_true, if_false]
    refine ⟨fun h => by rw [h], fun h => wire_inj ?_ ?_ h⟩
    · intro l hl
      obtain ⟨x, hx, rfl⟩ := List.mem_map.1 hl
      simpa [lowerLabel] using ha x hx
    · intro l hl
      obtain ⟨x, hx, rfl⟩ := List.mem_map.1 hl
      simpa [lowerLabel] using hb x hx
  · rw [foldLabels_true, foldLabels_true]
    simp only [if_true]
    exact ⟨fun h => by rw [h], wire_inj ha hb⟩

namespace LabelSlice

/-- the slice shows the labels `ls`, out of a longer run perhaps -/
def Shows (s : LabelSlice) (ls : List Label) : Prop := ∃ pre post, View s pre ls post ∧ IsRun (pre ++ ls ++ post)

theorem Shows.run {s : LabelSlice} {ls : List Label} (h : s.Shows ls) : IsRun ls := by
  obtain ⟨pre, post, v, hr⟩ := h
  refine isRun_sub hr ?_ v.nonempty
  rw [List.append_assoc]
  exact (List.sublist_append_left ls post).trans (List.sublist_append_right pre _)

/-- a slice of a name shows its labels and the root label, a slice of a sequence its labels -/
theorem c80_slice_new :
    (∀ ls, ValidName ls → ∃ s, from_name (Name.ofLabels ls) = .ok s ∧ s.Shows (ls ++ [[]])) ∧
    (∀ ls, IsRun ls → ∃ s, from_label_sequence (LabelSequence.ofLabels ls) = .ok s ∧ s.Shows ls) := by
  refine ⟨fun ls h => ⟨_, from_name_ofLabels ls, [], [], view_of_name h, by simp, ls, h, Or.inr (by simp)⟩, fun ls h => ?_⟩
  have h0 : 0 < ls.length := List.length_pos_iff.2 h.1
  refine ⟨⟨wire ls, starts 0 ls, 0, ls.length - 1⟩, ?_, [], [], ⟨by simp, by simp, rfl, by simp; omega, h.1, by simpa using h.facts.1⟩,
    by simpa using h⟩
  unfold from_label_sequence LabelSequence.ofLabels
  simp only [starts_length]
  rw [csub_ok (by omega)]; rfl

/-- `strip_left` and `strip_right` take labels off, and panic exactly when none would be left -/
theorem c80_slice_strip (s : LabelSlice) (ls : List Label) (h : s.Shows ls) (i : Nat) :
    (i < ls.length → (∃ s', s.strip_left i = .ok s' ∧ s'.Shows (ls.drop i)) ∧
      ∃ s', s.strip_right i = .ok s' ∧ s'.Shows (ls.take (ls.length - i))) ∧
    (ls.length ≤ i → s.strip_left i = .panic ∧ s.strip_right i = .panic) := by
  obtain ⟨pre, post, v, hr⟩ := h
  refine ⟨fun hi => ⟨?_, ?_⟩, fun hi => ⟨(v.left i).2 hi, (v.right i).2 hi⟩⟩
  · obtain ⟨s', h1, h2⟩ := (v.left i).1 hi
    refine ⟨s', h1, _, _, h2, ?_⟩
    rw [List.append_assoc pre, List.take_append_drop]; exact hr
  · obtain ⟨s', h1, h2⟩ := (v.right i).1 hi
    refine ⟨s', h1, _, _, h2, ?_⟩
    rw [List.append_assoc, ← List.append_assoc (ls.take _), List.take_append_drop, ← List.append_assoc]; exact hr

/-- number of labels, of octets, and the octets -/
theorem c80_slice_octets (s : LabelSlice) (ls : List Label) (h : s.Shows ls) :
    s.label_count = .ok ls.length ∧ s.len = .ok (wire ls).length ∧ s.bytes = .ok (wire ls) := by
  obtain ⟨pre, post, v, hr⟩ := h
  exact ⟨v.count, v.bytes hr.facts.2.1⟩

/-- `equals` with and without regard to case -/
theorem c80_slice_equals (cs : Bool) (a b : LabelSlice) (la lb : List Label) (ha : a.Shows la) (hb : b.Shows lb) :
    equals a b cs = .ok (decide (SameLabels cs la lb)) := by
  obtain ⟨-, a1, a2⟩ := c80_slice_octets a la ha
  obtain ⟨-, b1, b2⟩ := c80_slice_octets b lb hb
  have key := wire_fold_iff cs ha.run.facts.1 hb.run.facts.1
  unfold equals
  rw [a1, b1, Res.bind_ok, Res.bind_ok, a2, b2]
  by_cases hl : (wire la).length = (wire lb).length
  · rw [if_neg (by simpa using hl), Res.bind_ok, Res.bind_ok]
    cases cs
    · simp only [Bool.false_eq_true, if_false, eqIgnoreCase, Res.pure_eq, Res.ok.injEq] at key ⊢
      rw [Bool.eq_iff_iff, beq_iff_eq, decide_eq_true_iff, key]
    · simp only [if_true, Res.pure_eq, Res.ok.injEq] at key ⊢
      rw [Bool.eq_iff_iff, beq_iff_eq, decide_eq_true_iff, key]
  · rw [if_pos hl]
    have n1 : wire la ≠ wire lb := fun h => hl (by rw [h])
    have n2 : (wire la).map lowerByte ≠ (wire lb).map lowerByte := fun h => hl (by have := congrArg List.length h; simpa using this)
    have : ¬ SameLabels cs la lb := by
      rw [key]; cases cs
      · simpa using n2
      · simpa using n1
    rw [decide_eq_false this]; rfl

theorem foldLabels_reverse (cs : Bool) (a : List Label) : foldLabels cs a.reverse = (foldLabels cs a).reverse := by
  unfold foldLabels; rw [List.map_reverse]

theorem commonFold_full (cs : Bool) : ∀ (a b : List Label), commonFold cs a b = a.length ↔ foldLabels cs a <+: foldLabels cs b := by
  intro a
  induction a with
  | nil => intro b; simp [commonFold, foldLabels]
  | cons x a ih =>
    intro b
    cases b with
    | nil => simp [commonFold, foldLabels]
    | cons y b =>
      have := ih b
      simp only [commonFold, foldLabels, List.map_cons, List.cons_prefix_cons, List.length_cons] at this ⊢
      by_cases h : x.map (foldByte cs) = y.map (foldByte cs)
      · rw [if_pos h]; simp only [h, true_and]; rw [← this]; omega
      · rw [if_neg h]; simp [h]

theorem commonFold_symm (cs : Bool) : ∀ (a b : List Label), commonFold cs a b = commonFold cs b a := by
  intro a
  induction a with
  | nil => intro b; cases b <;> rfl
  | cons x a ih =>
    intro b
    cases b with
    | nil => rfl
    | cons y b =>
      simp only [commonFold, ih b]
      by_cases h : x.map (foldByte cs) = y.map (foldByte cs)
      · rw [if_pos h, if_pos h.symm]
      · rw [if_neg h, if_neg (fun h' => h h'.symm)]

theorem endOf_iff (cs : Bool) (a b : List Label) : EndOf cs a b ↔ commonRight cs a b = a.length := by
  unfold EndOf commonRight
  rw [show a.length = a.reverse.length by simp, commonFold_full, foldLabels_reverse, foldLabels_reverse, List.reverse_prefix]

theorem commonRight_symm (cs : Bool) (a b : List Label) : commonRight cs a b = commonRight cs b a := commonFold_symm cs _ _

theorem sameLabels_iff (cs : Bool) (a b : List Label) : SameLabels cs a b ↔ commonRight cs a b = a.length ∧ commonRight cs a b = b.length := by
  have e1 := endOf_iff cs a b
  have e2 := endOf_iff cs b a
  rw [commonRight_symm cs b a] at e2
  rw [← e1, ← e2]
  unfold SameLabels EndOf
  constructor
  · intro h; rw [h]; exact ⟨List.suffix_refl _, List.suffix_refl _⟩
  · rintro ⟨h1, h2⟩
    exact h1.eq_of_length (Nat.le_antisymm h1.length_le h2.length_le)

/-- `compare` without overflow checks: the number of common labels at the right, and the relation -/
theorem c80_slice_compare (cs : Bool) (a b : LabelSlice) (la lb : List Label) (ha : a.Shows la) (hb : b.Shows lb) :
    ∃ r, compare .release a b cs = .ok r ∧ r.common_label_count = commonRight cs la lb ∧
      (r.relation = .Equal ↔ SameLabels cs la lb) ∧
      (r.relation = .SubDomain ↔ EndOf cs lb la ∧ ¬ SameLabels cs la lb) ∧
      (r.relation = .SuperDomain ↔ EndOf cs la lb ∧ ¬ SameLabels cs la lb) ∧
      (r.relation = .CommonAncestor ↔ ¬ EndOf cs la lb ∧ ¬ EndOf cs lb la ∧ 0 < commonRight cs la lb) ∧
      (r.relation = .None ↔ commonRight cs la lb = 0) ∧
      (r.order = 0 ↔ SameLabels cs la lb) := by
  have fa := ha.run.facts
  have fb := hb.run.facts
  have na := ha.run.1
  have nb := hb.run.1
  obtain ⟨pre, post, v, hr⟩ := ha
  obtain ⟨pre', post', v', hr'⟩ := hb
  obtain ⟨r, h1, h2, h3, h4⟩ := relF_release cs la.reverse lb.reverse 0 (by simp; omega) (by simp; omega) (Or.inl (by simp [na, nb]))
    (fun l hl => fa.1 l (by simpa using hl)) (fun l hl => fb.1 l (by simpa using hl))
  rw [← compare_fold .release cs v v'] at h1
  have hc := commonFold_le cs la.reverse lb.reverse
  have e0 : commonFold cs la.reverse lb.reverse = commonRight cs la lb := rfl
  rw [e0] at h2 h3 hc
  have p1 : 0 < la.length := List.length_pos_iff.2 na
  have p2 : 0 < lb.length := List.length_pos_iff.2 nb
  simp only [List.length_reverse, Nat.zero_add] at h2 h3 hc
  have s1 := sameLabels_iff cs la lb
  have s2 := endOf_iff cs la lb
  have s3 := endOf_iff cs lb la
  rw [commonRight_symm cs lb la] at s3
  generalize commonRight cs la lb = k at *
  have hrel : r.relation = (if k = la.length then (if k = lb.length then .Equal else .SuperDomain)
      else if k = lb.length then .SubDomain else if k = 0 then .None else .CommonAncestor) := by
    rw [h3]; unfold relationOf
    by_cases x : k = la.length
    · by_cases y : k = lb.length
      · rw [if_pos (Or.inl x.symm), if_pos ⟨x, y⟩, if_pos x, if_pos y]
      · rw [if_pos (Or.inl x.symm), if_neg (fun h => y h.2), if_pos x, if_pos x, if_neg y]
    · by_cases y : k = lb.length
      · rw [if_pos (Or.inr y.symm), if_neg (fun h => x h.1), if_neg x, if_neg x, if_pos y]
      · rw [if_neg (fun h => h.elim (fun h => x h.symm) (fun h => y h.symm)), if_neg x, if_neg y]
  have all : (r.relation = .Equal ↔ k = la.length ∧ k = lb.length) ∧ (r.relation = .SubDomain ↔ k ≠ la.length ∧ k = lb.length) ∧
      (r.relation = .SuperDomain ↔ k = la.length ∧ k ≠ lb.length) ∧ (r.relation = .CommonAncestor ↔ k ≠ la.length ∧ k ≠ lb.length ∧ k ≠ 0) ∧
      (r.relation = .None ↔ k ≠ la.length ∧ k ≠ lb.length ∧ k = 0) := by
    rw [hrel]
    by_cases x : k = la.length
    · by_cases y : k = lb.length
      · rw [if_pos x, if_pos y]; exact ⟨⟨fun _ => ⟨x, y⟩, fun _ => rfl⟩, ⟨by simp, fun h => absurd x h.1⟩, ⟨by simp, fun h => absurd y h.2⟩, ⟨by simp, fun h => absurd x h.1⟩, ⟨by simp, fun h => absurd x h.1⟩⟩
      · rw [if_pos x, if_neg y]; exact ⟨⟨by simp, fun h => absurd h.2 y⟩, ⟨by simp, fun h => absurd x h.1⟩, ⟨fun _ => ⟨x, y⟩, fun _ => rfl⟩, ⟨by simp, fun h => absurd x h.1⟩, ⟨by simp, fun h => absurd x h.1⟩⟩
    · by_cases y : k = lb.length
      · rw [if_neg x, if_pos y]; exact ⟨⟨by simp, fun h => absurd h.1 x⟩, ⟨fun _ => ⟨x, y⟩, fun _ => rfl⟩, ⟨by simp, fun h => absurd h.1 x⟩, ⟨by simp, fun h => absurd y h.2.1⟩, ⟨by simp, fun h => absurd y h.2.1⟩⟩
      · by_cases z : k = 0
        · rw [if_neg x, if_neg y, if_pos z]; exact ⟨⟨by simp, fun h => absurd h.1 x⟩, ⟨by simp, fun h => absurd h.2 y⟩, ⟨by simp, fun h => absurd h.1 x⟩, ⟨by simp, fun h => absurd z h.2.2⟩, ⟨fun _ => ⟨x, y, z⟩, fun _ => rfl⟩⟩
        · rw [if_neg x, if_neg y, if_neg z]; exact ⟨⟨by simp, fun h => absurd h.1 x⟩, ⟨by simp, fun h => absurd h.2 y⟩, ⟨by simp, fun h => absurd h.1 x⟩, ⟨fun _ => ⟨x, y, z⟩, fun _ => rfl⟩, ⟨by simp, fun h => absurd h.2.2 z⟩⟩
  refine ⟨r, h1, by rw [h2]; omega, ?_, ?_, ?_, ?_, ?_, ?_⟩
  · rw [all.1, s1]
  · rw [all.2.1, s1, s3]; omega
  · rw [all.2.2.1, s1, s2]; omega
  · rw [all.2.2.2.1, s2, s3]; omega
  · rw [all.2.2.2.2]; omega
  · rw [h4, foldLabels_reverse, foldLabels_reverse]
    unfold SameLabels
    exact ⟨fun h => List.reverse_inj.1 h, fun h => by rw [h]⟩

/-- with overflow checks `compare` gives the same answer or panics -/
theorem c80_slice_compare_debug (cs : Bool) (a b : LabelSlice) (la lb : List Label) (ha : a.Shows la) (hb : b.Shows lb) :
    compare .debug a b cs = .panic ∨ compare .debug a b cs = compare .release a b cs := by
  obtain ⟨pre, post, v, hr⟩ := ha
  obtain ⟨pre', post', v', hr'⟩ := hb
  rw [compare_fold .debug cs v v', compare_fold .release cs v v']
  exact relF_debug cs _ _ _

/-- comparing up to case, for all octets and both builds: the sign of the order is the order of the labels from the right, with octets compared by the sign of their
difference in eight bits as in C09; with overflow checks it panics exactly when that difference does not fit -/
theorem c80_slice_order_exact (m : Build) (a b : LabelSlice) (la lb : List Label) (ha : a.Shows la) (hb : b.Shows lb) :
    match nameOrder (diffOrder (decide (m = .debug))) la lb with
    | none => compare m a b false = .panic
    | some o => ∃ r, compare m a b false = .ok r ∧ compare .release a b false = .ok r ∧ (r.order < 0 ↔ o = .lt) ∧ (r.order = 0 ↔ o = .eq) ∧ (0 < r.order ↔ o = .gt) := by
  have fa := ha.run.facts
  have fb := hb.run.facts
  have na := ha.run.1
  have nb := hb.run.1
  have hd := c80_slice_compare_debug false a b la lb ha hb
  obtain ⟨pre, post, v, hr⟩ := ha
  obtain ⟨pre', post', v', hr'⟩ := hb
  have h := list_spec m la.reverse lb.reverse 0 (by simp; omega) (by simp; omega) (Or.inl ⟨by simpa using na, by simpa using nb⟩)
    (fun l hl => fa.1 l (by simpa using hl)) (fun l hl => fb.1 l (by simpa using hl))
  rw [← compare_view m v v'] at h
  change match nameOrder (diffOrder (checks m)) la lb with
    | none => compare m a b false = .panic
    | some o => _
  unfold nameOrder
  cases ho : listOrder (diffOrder (checks m)) la.reverse lb.reverse with
  | none => rw [ho] at h; exact h
  | some o =>
    rw [ho] at h
    obtain ⟨r, h1, h2⟩ := h
    refine ⟨r, h1, ?_, ?_⟩
    · cases m with
      | release => exact h1
      | debug =>
        rcases hd with h3 | h3
        · rw [h3] at h1; cases h1
        · rw [← h3]; exact h1
    · subst h2
      unfold signOf
      refine ⟨?_, ?_, ?_⟩
      · split
        · simp [*]
        · split <;> simp [*]
      · split
        · simp; omega
        · split <;> simp [*]
      · split
        · simp; omega
        · split
          · simp; omega
          · simp; omega

/-- on ASCII labels both builds agree, and the sign of the order is the order of the labels from the right.
Missing: other octets, where the order is wrong (`c09_not_canonical`). -/
theorem c80_slice_order_partial (m : Build) (cs : Bool) (a b : LabelSlice) (la lb : List Label) (ha : a.Shows la) (hb : b.Shows lb)
    (aa : ∀ l ∈ la, ∀ c ∈ l, c.toNat < 128) (ab : ∀ l ∈ lb, ∀ c ∈ l, c.toNat < 128) :
    ∃ r, compare m a b cs = .ok r ∧ compare .release a b cs = .ok r ∧
      (r.order < 0 ↔ rightOrder cs la lb = .lt) ∧ (r.order = 0 ↔ rightOrder cs la lb = .eq) ∧ (0 < r.order ↔ rightOrder cs la lb = .gt) := by
  have fa := ha.run.facts
  have fb := hb.run.facts
  have na := ha.run.1
  have nb := hb.run.1
  obtain ⟨pre, post, v, hr⟩ := ha
  obtain ⟨pre', post', v', hr'⟩ := hb
  obtain ⟨e, r, h1, h2⟩ := relF_ascii m cs la.reverse lb.reverse 0 (by simp; omega) (by simp; omega) (Or.inl (by simp [na, nb]))
    (fun l hl => fa.1 l (by simpa using hl)) (fun l hl => fb.1 l (by simpa using hl))
    (fun l hl => aa l (by simpa using hl)) (fun l hl => ab l (by simpa using hl))
  refine ⟨r, by rw [compare_fold m cs v v', h1], by rw [compare_fold .release cs v v', ← e, h1], ?_⟩
  change _ ∧ rightOrder cs la lb = _ ∨ _ ∧ rightOrder cs la lb = _ ∨ _ ∧ rightOrder cs la lb = _ at h2
  rcases h2 with ⟨h, h'⟩ | ⟨h, h'⟩ | ⟨h, h'⟩ <;> rw [h'] <;> simp <;> omega

/-- `www.A.` without its first label, and the run `a` of a longer sequence, are such slices, and related as stated -/
example : ∃ s t, (do let s ← from_name (Name.ofLabels [[119], [65]]); s.strip_left 1) = .ok s ∧ s.Shows [[65], []] ∧
    (do let s ← from_label_sequence (LabelSequence.ofLabels [[97], []]); s.strip_right 1) = .ok t ∧ t.Shows [[97]] ∧
    (compare .debug s t false).bind (fun r => .ok r.relation) = .ok .None := by
  have hv : ValidName [[119], [65]] := by decide
  obtain ⟨s0, e0, h0⟩ := c80_slice_new.1 _ hv
  obtain ⟨s, e1, h1⟩ := ((c80_slice_strip s0 _ h0 1).1 (by decide)).1
  obtain ⟨t0, f0, g0⟩ := c80_slice_new.2 [[97], []] ⟨by simp, [[97]], by decide, Or.inr rfl⟩
  obtain ⟨t, f1, g1⟩ := ((c80_slice_strip t0 _ g0 1).1 (by decide)).2
  refine ⟨s, t, by rw [e0]; exact e1, h1, by rw [f0]; exact f1, g1, ?_⟩
  cases e0; cases f0; cases e1; cases f1
  decide

end LabelSlice

namespace LabelSequence

theorem octetOrder_false (a b : Label) : octetOrder false a b = cmpLabel a b := by
  induction a generalizing b with
  | nil => cases b <;> rfl
  | cons x a ih =>
    cases b with
    | nil => rfl
    | cons y b => simp [octetOrder, cmpLabel, ih, foldByte]

theorem rightOrder_false (a b : List Label) : rightOrder false a b = canonicalCmp a b := by
  have key : ∀ a b, labelsOrder false a b = cmpLabelsMSF a b := by
    intro a
    induction a with
    | nil => intro b; cases b <;> rfl
    | cons x a ih =>
      intro b
      cases b with
      | nil => rfl
      | cons y b => simp [labelsOrder, cmpLabelsMSF, ih, octetOrder_false]
  exact key _ _

/-- `equals`, also of empty rests of a `split` -/
theorem c80_equals (cs : Bool) (a b : List Label) (ha : IsRun a ∨ a = []) (hb : IsRun b ∨ b = []) :
    equals (ofLabels a) (ofLabels b) cs = decide (SameLabels cs a b) := by
  have fa : ∀ l ∈ a, l.length ≤ 63 := by
    rcases ha with h | h
    · exact h.facts.1
    · subst h; simp
  have fb : ∀ l ∈ b, l.length ≤ 63 := by
    rcases hb with h | h
    · exact h.facts.1
    · subst h; simp
  have key := wire_fold_iff cs fa fb
  unfold equals len ofLabels
  simp only
  by_cases hl : (wire a).length = (wire b).length
  · rw [if_neg (by simpa using hl)]
    cases cs
    · simp only [Bool.false_eq_true, if_false, LabelSlice.eqIgnoreCase] at key ⊢
      rw [Bool.eq_iff_iff, beq_iff_eq, decide_eq_true_iff, key]
    · simp only [if_true] at key ⊢
      rw [Bool.eq_iff_iff, beq_iff_eq, decide_eq_true_iff, key]
  · rw [if_pos hl]
    have n1 : wire a ≠ wire b := fun h => hl (by rw [h])
    have n2 : (wire a).map lowerByte ≠ (wire b).map lowerByte := fun h => hl (by have := congrArg List.length h; simpa using this)
    have : ¬ SameLabels cs a b := by
      rw [key]; cases cs
      · simpa using n2
      · simpa using n1
    rw [decide_eq_false this]

/-- for sequences with labels, `cmp` is `compare` on the slices of the whole sequences -/
theorem cmp_slices (m : Build) (a b : LabelSequence) (sa sb : LabelSlice) (ha : LabelSlice.from_label_sequence a = .ok sa)
    (hb : LabelSlice.from_label_sequence b = .ok sb) : cmp m a b = (do
      let r ← LabelSlice.compare m sa sb false
      pure (if r.order < 0 then .lt else if r.order > 0 then .gt else .eq)) := by
  have key : ∀ (s : LabelSequence) (t : LabelSlice), LabelSlice.from_label_sequence s = .ok t →
      s.sliceCount m = .ok s.label_count ∧ t.label_count = .ok s.label_count ∧ t = ⟨s.data, s.offsets, 0, s.label_count - 1⟩ := by
    intro s t h
    unfold LabelSlice.from_label_sequence at h
    by_cases hs : 1 ≤ s.offsets.length
    · rw [csub_ok hs, Res.bind_ok] at h
      simp only [Res.pure_eq, Res.ok.injEq] at h
      subst h
      refine ⟨?_, ?_, rfl⟩
      · unfold sliceCount; rw [if_neg]; unfold label_count; omega
      · unfold LabelSlice.label_count
        simp only
        rw [csub_ok (by omega), Res.bind_ok]
        simp only [Res.pure_eq, label_count, Res.ok.injEq]
        omega
    · rw [show csub s.offsets.length 1 = .panic by unfold csub; rw [if_neg hs], Res.bind_panic] at h
      cases h
  obtain ⟨a1, a2, a3⟩ := key a sa ha
  obtain ⟨b1, b2, b3⟩ := key b sb hb
  unfold cmp LabelSlice.compare
  rw [a1, b1, a2, b2]
  simp only [Res.bind_ok]
  rw [a3, b3]

/-- without overflow checks `cmp` answers, and `Equal` exactly for the same labels up to case; with them it gives the
same answer or panics -/
theorem c80_cmp (a b : List Label) (ha : IsRun a) (hb : IsRun b) :
    (∃ o, cmp .release (ofLabels a) (ofLabels b) = .ok o ∧ (o = .eq ↔ SameLabels false a b) ∧
      (o = .eq ↔ equals (ofLabels a) (ofLabels b) false = true)) ∧
    (cmp .debug (ofLabels a) (ofLabels b) = .panic ∨ cmp .debug (ofLabels a) (ofLabels b) = cmp .release (ofLabels a) (ofLabels b)) := by
  obtain ⟨sa, e1, h1⟩ := LabelSlice.c80_slice_new.2 a ha
  obtain ⟨sb, e2, h2⟩ := LabelSlice.c80_slice_new.2 b hb
  obtain ⟨r, h3, -, -, -, -, -, -, h4⟩ := LabelSlice.c80_slice_compare false sa sb a b h1 h2
  have hd := LabelSlice.c80_slice_compare_debug false sa sb a b h1 h2
  simp only [cmp_slices _ _ _ sa sb e1 e2]
  constructor
  · have key : ((if r.order < 0 then Ordering.lt else if r.order > 0 then .gt else .eq) = .eq) ↔ SameLabels false a b := by
      rw [← h4]
      split
      · simp; omega
      · split
        · simp; omega
        · simp; omega
    refine ⟨_, by rw [h3]; rfl, key, ?_⟩
    rw [key, c80_equals false a b (Or.inl ha) (Or.inl hb), decide_eq_true_iff]
  · rcases hd with h | h
    · left; rw [h]; rfl
    · right; rw [h]

/-- what `cmp` answers for all octets and both builds, see `c80_slice_order_exact` -/
theorem c80_cmp_exact (m : Build) (a b : List Label) (ha : IsRun a) (hb : IsRun b) :
    cmp m (ofLabels a) (ofLabels b) = match nameOrder (diffOrder (decide (m = .debug))) a b with
      | none => .panic
      | some o => .ok o := by
  obtain ⟨sa, e1, h1⟩ := LabelSlice.c80_slice_new.2 a ha
  obtain ⟨sb, e2, h2⟩ := LabelSlice.c80_slice_new.2 b hb
  have h := LabelSlice.c80_slice_order_exact m sa sb a b h1 h2
  simp only [cmp_slices _ _ _ sa sb e1 e2]
  cases ho : nameOrder (diffOrder (decide (m = .debug))) a b with
  | none => rw [ho] at h; simp only at h ⊢; rw [h]; rfl
  | some o =>
    rw [ho] at h
    obtain ⟨r, h3, -, h4, h5, h6⟩ := h
    rw [h3]
    simp only [Res.bind_ok, Res.pure_eq, Res.ok.injEq]
    split
    · rename_i h; exact (h4.1 h).symm
    · split
      · rename_i h; exact (h6.1 h).symm
      · exact (h5.1 (by omega)).symm

/-- with octets above 127, in runs of two labels: the wrong order without overflow checks, and a panic with them -/
theorem c80_cmp_exact_example : IsRun [[100], [99]] ∧ IsRun [[128], [99]] ∧ nameOrder (diffOrder false) [[100], [99]] [[128], [99]] = some .lt ∧
    nameOrder (diffOrder true) [[100], [99]] [[128], [99]] = none ∧ nameOrder (diffOrder true) [[20], [99]] [[230], [99]] = some .gt := by
  refine ⟨⟨by simp, [[100], [99]], by decide, .inl rfl⟩, ⟨by simp, [[128], [99]], by decide, .inl rfl⟩, by decide, by decide, by decide⟩

/-- on ASCII labels `cmp` is the canonical order in both builds. Missing: other octets (`c80_order_violated`). -/
theorem c80_cmp_partial (m : Build) (a b : List Label) (ha : IsRun a) (hb : IsRun b)
    (aa : ∀ l ∈ a, ∀ c ∈ l, c.toNat < 128) (ab : ∀ l ∈ b, ∀ c ∈ l, c.toNat < 128) :
    cmp m (ofLabels a) (ofLabels b) = .ok (canonicalCmp a b) := by
  obtain ⟨sa, e1, h1⟩ := LabelSlice.c80_slice_new.2 a ha
  obtain ⟨sb, e2, h2⟩ := LabelSlice.c80_slice_new.2 b hb
  obtain ⟨r, h3, -, h4, h5, h6⟩ := LabelSlice.c80_slice_order_partial m false sa sb a b h1 h2 aa ab
  rw [rightOrder_false] at h4 h5 h6
  simp only [cmp_slices _ _ _ sa sb e1 e2]
  rw [h3]
  simp only [Res.bind_ok, Res.pure_eq, Res.ok.injEq]
  split
  · rename_i h; exact (h4.1 h).symm
  · split
    · rename_i h; exact (h6.1 h).symm
    · exact (h5.1 (by omega)).symm

example : IsRun [[119], [67]] ∧ IsRun [[99], []] ∧ cmp .debug (ofLabels [[119], [67]]) (ofLabels [[99], []]) = .ok .gt ∧
    canonicalCmp [[119], [67]] [[99], []] = .gt :=
  ⟨⟨by simp, [[119], [67]], by decide, Or.inl rfl⟩, ⟨by simp, [[99]], by decide, Or.inr rfl⟩, by decide, by decide⟩

/-- VIOLATION: octets above 127 are ordered as negative numbers, and with overflow checks may panic -/
theorem c80_order_violated : canonicalCmp [[0x10]] [[0xC0]] = .lt ∧
    cmp .release (ofLabels [[0x10]]) (ofLabels [[0xC0]]) = .ok .gt ∧
    cmp .debug (ofLabels [[100]]) (ofLabels [[128]]) = .panic := by decide

/-- VIOLATION: after all labels were split off, the rest cannot be printed, nor, with overflow checks, compared -/
theorem c80_empty_violated : ∃ p r, split (ofLabels [[97], [98]]) 0 2 = .ok (p, r) ∧ p = ofLabels [[97], [98]] ∧
    to_string r = .panic ∧ ∀ b, cmp .debug r b = .panic :=
  ⟨ofLabels [[97], [98]], ⟨[], []⟩, by decide, rfl, rfl, fun _ => rfl⟩

/-- without overflow checks the rest without labels is equal to itself and smaller than any other run of labels; a run of 128 labels (the most
there are) is said to be smaller than it as well, since 128 is negative as an `i8` -/
theorem c80_empty_release (b : List Label) (hb : IsRun b) : cmp .release (ofLabels []) (ofLabels b) = .ok .lt ∧
    cmp .release (ofLabels b) (ofLabels []) = .ok (if b.length = 128 then .lt else .gt) ∧ cmp .release (ofLabels []) (ofLabels []) = .ok .eq := by
  have hl : 1 ≤ b.length := List.length_pos_iff.2 hb.1
  have hc := hb.facts.2.2
  have key : (ofLabels b).sliceCount .release = .ok b.length := by
    unfold sliceCount label_count ofLabels
    simp only [starts_length]
    rw [if_neg (by omega)]
  have e : (ofLabels []).sliceCount .release = .ok 0 := rfl
  refine ⟨?_, ?_, rfl⟩
  · unfold cmp
    rw [key, e]
    simp only [Res.bind_ok, Nat.zero_min, LabelSlice.cmpLoop, Res.pure_eq, Res.ok.injEq]
    rw [if_pos]
    unfold LabelSlice.truncI8
    simp only
    omega
  · unfold cmp
    rw [key, e]
    rw [Res.bind_ok, Res.bind_ok, Nat.min_zero]
    unfold LabelSlice.cmpLoop
    rw [Res.bind_ok, Res.pure_eq]
    have h1 : b.length = 128 → LabelSlice.truncI8 ((b.length : Int) - (0 : Nat)) < 0 := by
      intro h; rw [h]; decide
    have h2 : b.length ≠ 128 → 0 < LabelSlice.truncI8 ((b.length : Int) - (0 : Nat)) := by
      intro h
      have : b.length < 128 := by omega
      have e : ((b.length : Int) - (0 : Nat)) % 256 = b.length := by omega
      unfold LabelSlice.truncI8
      rw [e]
      dsimp only
      rw [if_pos (by omega)]
      omega
    generalize LabelSlice.truncI8 ((b.length : Int) - (0 : Nat)) = x at h1 h2
    by_cases h : b.length = 128
    · have := h1 h
      rw [if_pos h]
      dsimp only
      rw [if_pos this]
    · have := h2 h
      rw [if_neg h]
      dsimp only
      rw [if_neg (by omega), if_pos this]

/-- `from_str` accepts what `Name::new` accepts and gives its labels, with the root label exactly when the text ends with it -/
theorem c80_parse (t : List UInt8) :
    (Name.new t = .err ∧ from_str t = .err) ∨
    ∃ ls, (∀ l ∈ ls, ValidLabel l) ∧ Name.new t = .ok (Name.ofLabels ls) ∧
      from_str t = .ok (ofLabels (if EndsWithRoot t then ls ++ [[]] else ls)) := from_str_of_new t

/-- a text without backslash gives the labels between the dots, if they are within the limits of a name, and is refused otherwise.
Missing: texts with a backslash, for which only the agreement with `Name::new` is shown (`c80_parse`). -/
theorem c80_parse_partial (t : List UInt8) (h : 92 ∉ t) :
    (∀ ls, denotes t = some ls → from_str t = .ok (ofLabels (if EndsWithRoot t then ls ++ [[]] else ls))) ∧
    (denotes t = none → from_str t = .err) := by
  have hn := Name.new_plain t h
  rcases from_str_of_new t with ⟨h1, h2⟩ | ⟨ls, hv, h1, h2⟩
  · rw [h1] at hn
    cases hd : denotes t with
    | none => exact ⟨by simp, fun _ => h2⟩
    | some ls => rw [hd] at hn; simp at hn
  · rw [h1] at hn
    cases hd : denotes t with
    | none => rw [hd] at hn; simp at hn
    | some ls' =>
      rw [hd] at hn
      refine ⟨fun l hl => ?_, by simp⟩
      cases hl
      simp only [Res.ok.injEq] at hn
      have hv' : ValidName ls' := by
        unfold denotes at hd
        split at hd
        · cases hd; decide
        · split at hd
          · cases hd; rename_i h; exact h.2
          · simp at hd
      have : ls = ls' := by
        apply Name.nameWire_inj hv hv'.1
        rw [nameWire_eq, nameWire_eq]
        exact congrArg Name.raw hn
      rw [h2, this]

theorem intercalate_cons (l : Label) (ls : List Label) : List.intercalate [46] (l :: ls) = l ++ ls.flatMap (46 :: ·) := by
  induction ls generalizing l with
  | nil => simp [List.intercalate]
  | cons m ls ih =>
    have := ih m
    simp only [List.intercalate, List.intersperse, List.flatten_cons, List.flatMap_cons] at this ⊢
    cases ls with
    | nil => simp
    | cons k ls => simp [List.intersperse] at this ⊢; rw [this]

theorem dispLoop_run (ls : List Label) (buf : List UInt8) (hb : buf ≠ []) (hv : ∀ l ∈ ls, ValidLabel l) (hp : ∀ l ∈ ls, ∀ c ∈ l, Plain c) :
    LabelSlice.dispLoop (wire ls) buf = .ok (buf ++ ls.flatMap (46 :: ·)) := by
  induction ls generalizing buf with
  | nil => rw [wire_nil, LabelSlice.dispLoop]; simp
  | cons l ls ih =>
    have hl := hv l (by simp)
    have hu := u8_len hl.2
    rw [wire_cons, LabelSlice.dispLoop]
    have h0 : UInt8.ofNat l.length ≠ 0 := by
      intro h'; have := congrArg UInt8.toNat h'; rw [hu] at this; simp at this; have := hl.1; subst_vars; simp_all
    simp only [if_neg h0, if_neg hb, hu]
    rw [if_neg (by simp), List.take_left, List.drop_left, Name.flatMap_plain l (hp l (by simp)),
      ih _ (by simp) (fun x hx => hv x (by simp [hx])) (fun x hx => hp x (by simp [hx]))]
    simp

theorem intercalate_dotted (l : Label) (ls : List Label) : List.intercalate [46] (l :: ls ++ [[]]) = Name.dotted (l :: ls) := by
  rw [List.cons_append, intercalate_cons]
  induction ls generalizing l with
  | nil => simp [Name.dotted]
  | cons m ls ih => rw [Name.dotted, ← ih m]; simp

theorem to_string_run {ls : List Label} (h : IsRun ls) (hp : ∀ l ∈ ls, ∀ c ∈ l, Plain c) : to_string (ofLabels ls) = .ok (joinDots ls) := by
  obtain ⟨s, e1, h1⟩ := LabelSlice.c80_slice_new.2 ls h
  obtain ⟨-, -, h2⟩ := LabelSlice.c80_slice_octets s ls h1
  unfold to_string LabelSlice.to_string
  rw [e1, Res.bind_ok, h2, Res.bind_ok]
  obtain ⟨h0, n, hv, h | h⟩ := h
  · subst h
    cases ls with
    | nil => exact absurd rfl h0
    | cons l ls =>
      have hl := hv.1 l (by simp)
      have hu := u8_len hl.2
      have hne : l ≠ [] := by intro h'; have := hl.1; rw [h'] at this; simp at this
      have h0 : UInt8.ofNat l.length ≠ 0 := by
        intro h'; have := congrArg UInt8.toNat h'; rw [hu] at this; simp at this; have := hl.1; subst_vars; simp_all
      rw [wire_cons, LabelSlice.dispLoop]
      simp only [if_neg h0, hu]
      rw [if_neg (by simp), List.take_left, List.drop_left, Name.flatMap_plain l (hp l (by simp)), if_pos trivial, List.nil_append,
        dispLoop_run ls l hne (fun x hx => hv.1 x (by simp [hx])) (fun x hx => hp x (by simp [hx]))]
      unfold joinDots
      rw [if_neg (by simp [hne]), intercalate_cons]
  · subst h
    rw [Name.dispLoop_plain n [] hv.1 (fun l hl => hp l (by simp [hl])), if_pos rfl]
    unfold joinDots
    cases n with
    | nil => simp
    | cons l n => rw [if_neg (by simp), if_neg (by simp), intercalate_dotted]

theorem splitDots_inter (l : Label) (ls : List Label) (h : ∀ x ∈ l :: ls, (46 : UInt8) ∉ x) : splitDots (l ++ ls.flatMap (46 :: ·)) = l :: ls := by
  have aux : ∀ (l : Label) (t : List UInt8), (46 : UInt8) ∉ l → splitDots (l ++ 46 :: t) = l :: splitDots t := by
    intro l t hl
    induction l with
    | nil => simp [splitDots]
    | cons c l ih =>
      have hc : c ≠ 46 := fun h' => hl (by simp [h'])
      simp only [List.cons_append, splitDots, if_neg hc, ih (fun h' => hl (by simp [h']))]
  have aux2 : ∀ (l : Label), (46 : UInt8) ∉ l → splitDots l = [l] := by
    intro l hl
    induction l with
    | nil => rfl
    | cons c l ih =>
      have hc : c ≠ 46 := fun h' => hl (by simp [h'])
      simp only [splitDots, if_neg hc, ih (fun h' => hl (by simp [h']))]
  induction ls generalizing l with
  | nil => simpa using aux2 l (h l (by simp))
  | cons m ls ih =>
    rw [List.flatMap_cons, List.cons_append, aux l _ (h l (by simp)), ih m (fun x hx => h x (List.mem_cons_of_mem _ hx))]

theorem from_str_run {ls : List Label} (h : IsRun ls) (hp : ∀ l ∈ ls, ∀ c ∈ l, Plain c) : from_str (joinDots ls) = .ok (ofLabels ls) := by
  obtain ⟨h0, n, hv, h | h⟩ := h
  · subst h
    cases ls with
    | nil => exact absurd rfl h0
    | cons l ls =>
      have hl := hv.1 l (by simp)
      have hne : l ≠ [] := by intro h'; have := hl.1; rw [h'] at this; simp at this
      have h46 : ∀ x ∈ l :: ls, (46 : UInt8) ∉ x := fun x hx hc => (Name.plain_not _ (hp x hx _ hc)).1 rfl
      have ej : joinDots (l :: ls) = l ++ ls.flatMap (46 :: ·) := by
        unfold joinDots; rw [if_neg (by simp [hne]), intercalate_cons]
      have hmem : ∀ c ∈ joinDots (l :: ls), c = 46 ∨ Plain c := by
        rw [ej]; intro c hc
        rcases List.mem_append.1 hc with hc | hc
        · exact Or.inr (hp l (by simp) c hc)
        · obtain ⟨x, hx, hc⟩ := List.mem_flatMap.1 hc
          rcases List.mem_cons.1 hc with hc | hc
          · exact Or.inl hc
          · exact Or.inr (hp x (by simp [hx]) c hc)
      have h92 : (92 : UInt8) ∉ joinDots (l :: ls) := by
        intro hc
        rcases hmem _ hc with h | h
        · simp at h
        · exact absurd h (by decide)
      have hlast : (joinDots (l :: ls)).getLast? ≠ some 46 := by
        rw [ej]
        intro hc
        have e : l ++ ls.flatMap (46 :: ·) = l ++ ls.flatMap (46 :: ·) := rfl
        rcases List.eq_nil_or_concat ls with hls | ⟨m, x, hls⟩
        · subst hls
          rw [List.flatMap_nil, List.append_nil] at hc
          exact h46 l (by simp) (List.mem_of_getLast? hc)
        · subst hls
          have hx := hv.1 x (by simp)
          have hxne : x ≠ [] := by intro h'; have := hx.1; rw [h'] at this; simp at this
          rw [List.concat_eq_append, List.flatMap_append, ← List.append_assoc, List.getLast?_append] at hc
          simp only [List.flatMap_cons, List.flatMap_nil, List.append_nil, List.getLast?_cons] at hc
          cases hg : x.getLast? with
          | none => exact hxne (List.getLast?_eq_none_iff.1 hg)
          | some c =>
            rw [hg] at hc
            simp at hc
            subst hc
            exact h46 x (by simp) (List.mem_of_getLast? hg)
      have h64 : joinDots (l :: ls) ≠ [64] := by
        intro hc
        rcases hmem 64 (by rw [hc]; simp) with h | h
        · simp at h
        · exact absurd h (by decide)
      have hd : denotes (joinDots (l :: ls)) = some (l :: ls) := by
        have hdf : dropFinal (splitDots (joinDots (l :: ls))) = l :: ls := by
          rw [ej, splitDots_inter l ls h46]
          unfold dropFinal
          rw [if_neg]
          intro hc
          have := hv.1 [] (List.mem_of_getLast? hc)
          exact absurd this.1 (by simp)
        unfold denotes
        rw [hdf, if_neg, if_pos ⟨by simp, hv⟩]
        rintro (h | h)
        · exact hlast (by rw [h]; rfl)
        · exact h64 h
      rw [(c80_parse_partial _ h92).1 _ hd, if_neg]
      rintro (h | h)
      · exact hlast h
      · exact h64 h
  · subst h
    have hn := Name.new_dotted hv (fun l hl => hp l (by simp [hl]))
    have ej : joinDots (n ++ [[]]) = if n = [] then [46] else Name.dotted n := by
      unfold joinDots
      cases n with
      | nil => simp
      | cons l n => rw [if_neg (by simp), if_neg (by simp), intercalate_dotted]
    have hlast : EndsWithRoot (joinDots (n ++ [[]])) := by
      left
      unfold joinDots
      cases n with
      | nil => rfl
      | cons l n => rw [if_neg (by simp), List.cons_append, intercalate_cons]; simp
    rw [← ej] at hn
    rcases from_str_of_new (joinDots (n ++ [[]])) with ⟨h1, h2⟩ | ⟨ls, hv', h1, h2⟩
    · rw [h1] at hn; simp at hn
    · rw [h1] at hn
      simp only [Res.ok.injEq] at hn
      have : ls = n := by
        apply Name.nameWire_inj hv' hv.1
        rw [nameWire_eq, nameWire_eq]
        exact congrArg Name.raw hn
      rw [h2, if_pos hlast, this]

/-- a run of labels is printed joined by dots, and reading that text gives it back, for the labels whose octets print as
themselves. Missing: octets printed with a backslash, for which it is false (`c80_roundtrip_violated`). -/
theorem c80_roundtrip_partial (ls : List Label) (h : IsRun ls) (hp : ∀ l ∈ ls, ∀ c ∈ l, Plain c) :
    to_string (ofLabels ls) = .ok (joinDots ls) ∧ from_str (joinDots ls) = .ok (ofLabels ls) := ⟨to_string_run h hp, from_str_run h hp⟩

example : IsRun [[119], [67]] ∧ to_string (ofLabels [[119], [67]]) = .ok [119, 46, 67] ∧ from_str [119, 46, 67] = .ok (ofLabels [[119], [67]]) ∧
    from_str [119, 46, 67, 46] = .ok (ofLabels [[119], [67], []]) ∧ from_str [64] = .ok (ofLabels [[]]) :=
  ⟨⟨by simp, [[119], [67]], by decide, Or.inl rfl⟩, by decide +kernel, by decide +kernel, by decide +kernel, by decide +kernel⟩

/-- the code violates the round trip: the relative label `a(` is printed `a\(` and read as `a((` -/
theorem c80_roundtrip_violated : IsRun [[97, 40]] ∧ to_string (ofLabels [[97, 40]]) = .ok [97, 92, 40] ∧
    from_str [97, 92, 40] = .ok (ofLabels [[97, 40, 40]]) :=
  ⟨⟨by simp, [[97, 40]], by decide, Or.inl rfl⟩, by decide +kernel, by decide +kernel⟩

end LabelSequence
end R53
