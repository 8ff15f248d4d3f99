import Verif.Proofs.NameCmp
/-! # The comparison loop against the RFC 4034 order -/
namespace R53

/-! ## the specification order is a total order -/

theorem cmpLabel_swap (a b : Label) : cmpLabel b a = (cmpLabel a b).swap := by
  induction a generalizing b with
  | nil => cases b <;> rfl
  | cons x a ih =>
    cases b with
    | nil => rfl
    | cons y b =>
      simp only [cmpLabel, ih b, Ordering.swap_then]
      rw [Nat.compare_swap]

theorem cmpLabel_eq_iff (a b : Label) : cmpLabel a b = .eq ↔ lowerLabel a = lowerLabel b := by
  induction a generalizing b with
  | nil => cases b <;> simp [cmpLabel, lowerLabel]
  | cons x a ih =>
    cases b with
    | nil => simp [cmpLabel, lowerLabel]
    | cons y b =>
      simp only [cmpLabel, Ordering.then_eq_eq, ih, lowerLabel, List.map_cons, List.cons.injEq, Nat.compare_eq_eq]
      constructor
      · rintro ⟨h1, h2⟩; exact ⟨UInt8.toNat_inj.mp h1, h2⟩
      · rintro ⟨h1, h2⟩; exact ⟨by rw [h1], h2⟩

theorem cmpLabel_lt_trans (a b c : Label) (h1 : cmpLabel a b = .lt) (h2 : cmpLabel b c = .lt) : cmpLabel a c = .lt := by
  induction a generalizing b c with
  | nil =>
    cases c with
    | nil => cases b <;> simp [cmpLabel] at h1 h2
    | cons => rfl
  | cons x a ih =>
    cases b with
    | nil => simp [cmpLabel] at h1
    | cons y b =>
      cases c with
      | nil => simp [cmpLabel] at h2
      | cons z c =>
        simp only [cmpLabel, Ordering.then_eq_lt, Nat.compare_eq_lt, Nat.compare_eq_eq] at *
        rcases h1 with h1 | ⟨h1, h1'⟩ <;> rcases h2 with h2 | ⟨h2, h2'⟩
        · left; omega
        · left; omega
        · left; omega
        · right; exact ⟨by omega, ih b c h1' h2'⟩

theorem cmpLabel_eq_left (a b c : Label) (h : lowerLabel a = lowerLabel b) : cmpLabel a c = cmpLabel b c := by
  induction a generalizing b c with
  | nil => cases b with
    | nil => rfl
    | cons => simp [lowerLabel] at h
  | cons x a ih =>
    cases b with
    | nil => simp [lowerLabel] at h
    | cons y b =>
      simp only [lowerLabel, List.map_cons, List.cons.injEq] at h
      cases c with
      | nil => rfl
      | cons z c => simp only [cmpLabel, h.1, ih b c h.2]

theorem cmpLabel_eq_right (a b c : Label) (h : lowerLabel a = lowerLabel b) : cmpLabel c a = cmpLabel c b := by
  rw [cmpLabel_swap a c, cmpLabel_swap b c, cmpLabel_eq_left a b c h]

theorem cmpMSF_swap (a b : List Label) : cmpLabelsMSF b a = (cmpLabelsMSF a b).swap := by
  induction a generalizing b with
  | nil => cases b <;> rfl
  | cons x a ih =>
    cases b with
    | nil => rfl
    | cons y b => simp only [cmpLabelsMSF, ih b, Ordering.swap_then, cmpLabel_swap x y]

theorem cmpMSF_eq_iff (a b : List Label) : cmpLabelsMSF a b = .eq ↔ lowerName a = lowerName b := by
  induction a generalizing b with
  | nil => cases b <;> simp [cmpLabelsMSF, lowerName]
  | cons x a ih =>
    cases b with
    | nil => simp [cmpLabelsMSF, lowerName]
    | cons y b =>
      simp only [cmpLabelsMSF, Ordering.then_eq_eq, ih, cmpLabel_eq_iff, lowerName, List.map_cons, List.cons.injEq]

theorem cmpMSF_lt_trans (a b c : List Label) (h1 : cmpLabelsMSF a b = .lt) (h2 : cmpLabelsMSF b c = .lt) :
    cmpLabelsMSF a c = .lt := by
  induction a generalizing b c with
  | nil =>
    cases c with
    | nil => cases b <;> simp [cmpLabelsMSF] at h1 h2
    | cons => rfl
  | cons x a ih =>
    cases b with
    | nil => simp [cmpLabelsMSF] at h1
    | cons y b =>
      cases c with
      | nil => simp [cmpLabelsMSF] at h2
      | cons z c =>
        simp only [cmpLabelsMSF, Ordering.then_eq_lt] at *
        rcases h1 with h1 | ⟨h1, h1'⟩ <;> rcases h2 with h2 | ⟨h2, h2'⟩
        · left; exact cmpLabel_lt_trans _ _ _ h1 h2
        · left; rw [← cmpLabel_eq_right y z x ((cmpLabel_eq_iff _ _).mp h2)]; exact h1
        · left; rw [cmpLabel_eq_left x y z ((cmpLabel_eq_iff _ _).mp h1)]; exact h2
        · right
          refine ⟨?_, ih b c h1' h2'⟩
          rw [cmpLabel_eq_left x y z ((cmpLabel_eq_iff _ _).mp h1)]; exact h2

theorem lowerName_reverse (a : List Label) : lowerName a.reverse = (lowerName a).reverse := by
  simp [lowerName]

theorem canonicalCmp_eq_iff (a b : List Label) : canonicalCmp a b = .eq ↔ SameName a b := by
  unfold canonicalCmp SameName
  rw [cmpMSF_eq_iff, lowerName_reverse, lowerName_reverse, List.reverse_inj]

/-! ## octet comparison -/

namespace LabelSlice

theorem asI8_inj (a b : UInt8) (h : asI8 a = asI8 b) : a = b := by
  have ha := a.toNat_lt
  have hb := b.toNat_lt
  unfold asI8 at h
  apply UInt8.toNat_inj.mp
  split at h <;> split at h <;> omega

theorem asI8_range (a : UInt8) : -128 ≤ asI8 a ∧ asI8 a ≤ 127 := by
  have ha := a.toNat_lt
  unfold asI8
  split <;> omega

theorem subI8_release (x y : UInt8) : ∃ d, subI8 .release (asI8 x) (asI8 y) = .ok d ∧ (d = 0 ↔ x = y) := by
  have hx := asI8_range x
  have hy := asI8_range y
  unfold subI8
  simp only
  split
  · refine ⟨_, rfl, ?_⟩
    constructor
    · intro h; exact asI8_inj _ _ (by omega)
    · rintro rfl; omega
  · refine ⟨_, rfl, ?_⟩
    constructor
    · intro h; split at h <;> omega
    · rintro rfl; omega

theorem subI8_debug (x y : UInt8) : subI8 .debug (asI8 x) (asI8 y) = .panic ∨
    subI8 .debug (asI8 x) (asI8 y) = subI8 .release (asI8 x) (asI8 y) := by
  unfold subI8
  simp only
  split
  · right; rfl
  · left; rfl

theorem subI8_ascii (m : Build) (x y : UInt8) (hx : x.toNat < 128) (hy : y.toNat < 128) :
    subI8 m (asI8 x) (asI8 y) = .ok ((x.toNat : Int) - (y.toNat : Int)) := by
  unfold subI8 asI8
  simp only [hx, hy, if_true]
  rw [if_pos (by omega)]

/-- do the labels agree, up to case, as far as both go? -/
def prefixSame : Label → Label → Bool
  | a :: as, b :: bs => lowerByte a == lowerByte b && prefixSame as bs
  | _, _ => true

theorem prefixSame_iff (a b : Label) (h : a.length = b.length) : prefixSame a b = true ↔ lowerLabel a = lowerLabel b := by
  induction a generalizing b with
  | nil => cases b with
    | nil => simp [prefixSame]
    | cons => simp at h
  | cons x a ih =>
    cases b with
    | nil => simp at h
    | cons y b => simp [prefixSame, lowerLabel, ih b (by simpa using h)]

theorem bytesDiff_release (a b : Label) : ∃ o, bytesDiff .release a b = .ok o ∧
    (match o with | none => prefixSame a b = true | some d => d ≠ 0 ∧ prefixSame a b = false) := by
  induction a generalizing b with
  | nil => exact ⟨none, by simp [bytesDiff, prefixSame]⟩
  | cons x a ih =>
    cases b with
    | nil => exact ⟨none, by simp [bytesDiff, prefixSame]⟩
    | cons y b =>
      obtain ⟨d, hd, hz⟩ := subI8_release (lowerByte x) (lowerByte y)
      simp only [bytesDiff, hd, Res.bind_ok]
      by_cases h0 : d = 0
      · rw [if_neg (by simpa using h0)]
        obtain ⟨o, ho, hp⟩ := ih b
        refine ⟨o, ho, ?_⟩
        have := hz.mp h0
        cases o <;> simp_all [prefixSame]
      · rw [if_pos h0]
        refine ⟨some d, rfl, h0, ?_⟩
        have : ¬ lowerByte x = lowerByte y := fun h => h0 (hz.mpr h)
        simp [prefixSame, this]

theorem bytesDiff_debug (a b : Label) : bytesDiff .debug a b = .panic ∨ bytesDiff .debug a b = bytesDiff .release a b := by
  induction a generalizing b with
  | nil => right; rfl
  | cons x a ih =>
    cases b with
    | nil => right; rfl
    | cons y b =>
      simp only [bytesDiff]
      rcases subI8_debug (lowerByte x) (lowerByte y) with h | h
      · left; rw [h]; rfl
      · rw [h]
        obtain ⟨d, hd, hz⟩ := subI8_release (lowerByte x) (lowerByte y)
        rw [hd]
        simp only [Res.bind_ok]
        by_cases h0 : d = 0
        · simp only [h0, ne_eq, not_true_eq_false, if_false]; exact ih b
        · right; simp only [ne_eq, h0, not_false_eq_true, if_true]

/-- all octets below 128 -/
def AsciiLabel (l : Label) : Prop := ∀ c ∈ l, c.toNat < 128

theorem bytesDiff_ascii (m : Build) (a b : Label) (ha : AsciiLabel a) (hb : AsciiLabel b) :
    ∃ o, bytesDiff m a b = .ok o ∧
    (match o with
     | none => prefixSame a b = true ∧ cmpLabel a b = Ord.compare a.length b.length
     | some d => prefixSame a b = false ∧ (d < 0 ∧ cmpLabel a b = .lt ∨ 0 < d ∧ cmpLabel a b = .gt)) := by
  induction a generalizing b with
  | nil =>
    refine ⟨none, by simp [bytesDiff], ?_⟩
    cases b with
    | nil => simp [prefixSame, cmpLabel]
    | cons y b =>
      simp only [prefixSame, cmpLabel, List.length_nil, List.length_cons, true_and]
      exact (Nat.compare_eq_lt.mpr (by omega)).symm
  | cons x a ih =>
    cases b with
    | nil =>
      refine ⟨none, by simp [bytesDiff], ?_⟩
      simp only [prefixSame, cmpLabel, List.length_nil, List.length_cons, true_and]
      exact (Nat.compare_eq_gt.mpr (by omega)).symm
    | cons y b =>
      have hx := lowerByte_lt128 x (ha x (by simp))
      have hy := lowerByte_lt128 y (hb y (by simp))
      simp only [bytesDiff]
      rw [subI8_ascii m _ _ hx hy]
      simp only [Res.bind_ok]
      by_cases h0 : (lowerByte x).toNat = (lowerByte y).toNat
      · have h0' := UInt8.toNat_inj.mp h0
        rw [if_neg (by omega)]
        obtain ⟨o, ho, hp⟩ := ih b (fun c hc => ha c (by simp [hc])) (fun c hc => hb c (by simp [hc]))
        refine ⟨o, ho, ?_⟩
        have e : Ord.compare (lowerByte x).toNat (lowerByte y).toNat = .eq := Nat.compare_eq_eq.mpr h0
        cases o with
        | none =>
          simp only at hp ⊢
          simp only [prefixSame, h0', cmpLabel, List.length_cons]
          rw [Nat.compare_eq_eq.mpr rfl, hp.1, hp.2]
          simp only [Ordering.eq_then, BEq.rfl, Bool.and_self, true_and]
          rw [Nat.compare_eq_ite_lt, Nat.compare_eq_ite_lt]
          simp
        | some d =>
          simp only at hp ⊢
          simp only [prefixSame, h0', cmpLabel]
          rw [Nat.compare_eq_eq.mpr rfl, hp.1]
          simpa using hp.2
      · rw [if_pos (by omega)]
        refine ⟨_, rfl, ?_⟩
        have h0' : lowerByte x ≠ lowerByte y := fun h => h0 (by rw [h])
        simp only [prefixSame, cmpLabel, beq_eq_false_iff_ne.mpr h0', Bool.false_and, true_and]
        rcases Nat.lt_or_gt_of_ne h0 with h | h
        · left; refine ⟨by omega, ?_⟩; rw [Nat.compare_eq_lt.mpr h]; rfl
        · right; refine ⟨by omega, ?_⟩; rw [Nat.compare_eq_gt.mpr h]; rfl

/-! ## label list comparison -/

/-- relation of two label sequences from the number of labels they share -/
def relationOf (common la lb : Nat) : NameRelation :=
  if common = la ∧ common = lb then .Equal
  else if common = la then .SuperDomain
  else if common = lb then .SubDomain
  else if common = 0 then .None
  else .CommonAncestor

theorem commonMSF_le (a b : List Label) : commonMSF a b ≤ a.length ∧ commonMSF a b ≤ b.length := by
  induction a generalizing b with
  | nil => simp [commonMSF]
  | cons x a ih =>
    cases b with
    | nil => simp [commonMSF]
    | cons y b =>
      have := ih b
      simp only [commonMSF]; split <;> simp <;> omega

theorem commonMSF_full (a b : List Label) (h : a.length = b.length) :
    commonMSF a b = a.length ↔ lowerName a = lowerName b := by
  induction a generalizing b with
  | nil => cases b with
    | nil => simp [commonMSF]
    | cons => simp at h
  | cons x a ih =>
    cases b with
    | nil => simp at h
    | cons y b =>
      simp only [commonMSF, lowerName, List.map_cons, List.cons.injEq, List.length_cons]
      have := ih b (by simpa using h)
      by_cases hxy : lowerLabel x = lowerLabel y
      · rw [if_pos hxy]
        simp only [hxy, true_and, Nat.add_right_cancel_iff]
        exact this
      · rw [if_neg hxy]; simp [hxy]

theorem truncI8_small (x : Int) (h : -128 ≤ x ∧ x ≤ 127) : truncI8 x = x := by
  unfold truncI8
  simp only
  by_cases hx : 0 ≤ x
  · rw [Int.emod_eq_of_lt hx (by omega), if_pos (by omega)]
  · have : x % 256 = x + 256 := by omega
    rw [this, if_neg (by omega)]; omega

theorem relSpec_release (as bs : List Label) (n : Nat) (hla : as.length ≤ 128) (hlb : bs.length ≤ 128)
    (hne : as ≠ [] ∧ bs ≠ [] ∨ (as.length : Int) - bs.length ≤ 127 ∧ (bs.length : Int) - as.length ≤ 127)
    (h63a : ∀ l ∈ as, l.length ≤ 63) (h63b : ∀ l ∈ bs, l.length ≤ 63) :
    ∃ r, relSpec .release as bs n = .ok r ∧ r.common_label_count = (n + commonMSF as bs) % 256 ∧
      r.relation = (if as.length = commonMSF as bs ∨ bs.length = commonMSF as bs
        then relationOf (commonMSF as bs) as.length bs.length
        else if n + commonMSF as bs = 0 then .None else .CommonAncestor) ∧
      (r.order = 0 ↔ lowerName as = lowerName bs) := by
  induction as generalizing bs n with
  | nil =>
    refine ⟨_, rfl, ?_⟩
    simp only [commonMSF, Nat.add_zero, List.length_nil, true_or, if_true, relationOf, true_and]
    rw [truncI8_small _ (by simp only [List.length_nil] at hne; omega)]
    cases bs with
    | nil => simp [lowerName]
    | cons y bs => simp [lowerName]; omega
  | cons x as ih =>
    cases bs with
    | nil =>
      refine ⟨_, rfl, ?_⟩
      simp only [commonMSF, Nat.add_zero, List.length_nil, or_true, if_true, relationOf, true_and]
      rw [truncI8_small _ (by simp only [List.length_nil, List.length_cons] at hne ⊢; simp at hne; omega)]
      simp [lowerName]; omega
    | cons y bs =>
      obtain ⟨o, ho, hp⟩ := bytesDiff_release x y
      have hx := h63a x (by simp)
      have hy := h63b y (by simp)
      simp only [relSpec, ho, Res.bind_ok]
      cases o with
      | some d =>
        simp only at hp
        have hxy : lowerLabel x ≠ lowerLabel y := by
          intro h
          have hl : x.length = y.length := by have := congrArg List.length h; simpa [lowerLabel] using this
          have := (prefixSame_iff x y hl).mpr h
          simp [this] at hp
        refine ⟨_, rfl, ?_⟩
        simp [mismatch, commonMSF, hxy, lowerName, hp.1]
      | none =>
        simp only at hp
        by_cases hl : x.length = y.length
        · rw [if_neg (by omega)]
          have hxy := (prefixSame_iff x y hl).mp hp
          obtain ⟨r, hr, h1, h2, h3⟩ := ih bs (n + 1) (by simp at hla; omega) (by simp at hlb; omega)
            (by simp at hla hlb hne ⊢; omega)
            (fun l hl => h63a l (by simp [hl])) (fun l hl => h63b l (by simp [hl]))
          refine ⟨r, hr, ?_, ?_, ?_⟩
          · rw [h1]; simp only [commonMSF, if_pos hxy]; congr 1; omega
          · rw [h2]
            have hc := commonMSF_le as bs
            simp only [commonMSF, if_pos hxy, List.length_cons, Nat.add_right_cancel_iff]
            by_cases hcc : as.length = commonMSF as bs ∨ bs.length = commonMSF as bs
            · rw [if_pos hcc, if_pos hcc]
              simp only [relationOf, Nat.add_right_cancel_iff]
              rcases hcc with h | h <;> simp [← h]
            · rw [if_neg hcc, if_neg hcc]
              congr 1; simp
          · rw [h3]; simp [lowerName, hxy]
        · rw [if_pos (by omega)]
          have hxy : lowerLabel x ≠ lowerLabel y := by
            intro h; have := congrArg List.length h; simp [lowerLabel] at this; exact hl this
          refine ⟨_, rfl, ?_⟩
          simp only [mismatch, commonMSF, if_neg hxy]
          rw [truncI8_small _ (by omega)]
          simp [lowerName, hxy]; omega

theorem relSpec_debug (as bs : List Label) (n : Nat) :
    relSpec .debug as bs n = .panic ∨ relSpec .debug as bs n = relSpec .release as bs n := by
  induction as generalizing bs n with
  | nil => right; simp only [relSpec]
  | cons x as ih =>
    cases bs with
    | nil => right; simp only [relSpec]
    | cons y bs =>
      simp only [relSpec]
      rcases bytesDiff_debug x y with h | h
      · left; rw [h]; rfl
      · rw [h]
        obtain ⟨o, ho, hp⟩ := bytesDiff_release x y
        rw [ho]
        simp only [Res.bind_ok]
        cases o with
        | some d => right; rfl
        | none =>
          simp only
          split
          · right; rfl
          · exact ih bs (n + 1)

/-- for ASCII labels: no panic in either build, and the sign is the RFC 4034 order -/
theorem relSpec_ascii (m : Build) (as bs : List Label) (n : Nat) (hla : as.length ≤ 128) (hlb : bs.length ≤ 128)
    (hne : as ≠ [] ∧ bs ≠ [] ∨ (as.length : Int) - bs.length ≤ 127 ∧ (bs.length : Int) - as.length ≤ 127)
    (h63a : ∀ l ∈ as, l.length ≤ 63) (h63b : ∀ l ∈ bs, l.length ≤ 63)
    (haa : ∀ l ∈ as, AsciiLabel l) (hab : ∀ l ∈ bs, AsciiLabel l) :
    relSpec m as bs n = relSpec .release as bs n ∧
    ∃ r, relSpec m as bs n = .ok r ∧
      (r.order < 0 ∧ cmpLabelsMSF as bs = .lt ∨ r.order = 0 ∧ cmpLabelsMSF as bs = .eq ∨
       0 < r.order ∧ cmpLabelsMSF as bs = .gt) := by
  induction as generalizing bs n with
  | nil =>
    refine ⟨by simp only [relSpec], _, rfl, ?_⟩
    simp only
    rw [truncI8_small _ (by simp only [List.length_nil] at hne ⊢; simp at hne; omega)]
    cases bs with
    | nil => right; left; simp [cmpLabelsMSF]
    | cons y bs => left; simp [cmpLabelsMSF]
  | cons x as ih =>
    cases bs with
    | nil =>
      refine ⟨by simp only [relSpec], _, rfl, ?_⟩
      simp only
      rw [truncI8_small _ (by simp only [List.length_nil, List.length_cons] at hne ⊢; simp at hne; omega)]
      right; right; simp [cmpLabelsMSF]
    | cons y bs =>
      have hx := h63a x (by simp)
      have hy := h63b y (by simp)
      obtain ⟨o, ho, hp⟩ := bytesDiff_ascii m x y (haa x (by simp)) (hab y (by simp))
      obtain ⟨o', ho', _⟩ := bytesDiff_release x y
      have heq : bytesDiff m x y = bytesDiff .release x y := by
        cases m with
        | release => rfl
        | debug =>
          rcases bytesDiff_debug x y with h | h
          · rw [ho] at h; simp at h
          · exact h
      simp only [relSpec]
      rw [← heq, ho]
      simp only [Res.bind_ok]
      cases o with
      | some d =>
        simp only at hp ⊢
        refine ⟨trivial, _, rfl, ?_⟩
        simp only [mismatch, cmpLabelsMSF]
        rcases hp.2 with ⟨h1, h2⟩ | ⟨h1, h2⟩
        · left; rw [h2]; exact ⟨h1, rfl⟩
        · right; right; rw [h2]; exact ⟨h1, rfl⟩
      | none =>
        simp only at hp ⊢
        by_cases hl : x.length = y.length
        · rw [if_neg (by omega), if_neg (by omega)]
          have := ih bs (n + 1) (by simp at hla; omega) (by simp at hlb; omega)
            (by simp at hla hlb hne ⊢; omega)
            (fun l hl => h63a l (by simp [hl])) (fun l hl => h63b l (by simp [hl]))
            (fun l hl => haa l (by simp [hl])) (fun l hl => hab l (by simp [hl]))
          simp only [cmpLabelsMSF, hp.2, Nat.compare_eq_eq.mpr hl, Ordering.eq_then]
          exact this
        · rw [if_pos (by omega), if_pos (by omega)]
          refine ⟨rfl, _, rfl, ?_⟩
          simp only [mismatch, cmpLabelsMSF, hp.2]
          rw [truncI8_small _ (by omega)]
          rcases Nat.lt_or_gt_of_ne hl with h | h
          · left; rw [Nat.compare_eq_lt.mpr h]; exact ⟨by omega, rfl⟩
          · right; right; rw [Nat.compare_eq_gt.mpr h]; exact ⟨by omega, rfl⟩

end LabelSlice
end R53
