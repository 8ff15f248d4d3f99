import Verif.Proofs.NameOrder
/-!
# get_relation and cmp against the specification
-/
namespace R53
namespace Name

/-- all octets of all labels below 128 -/
def Ascii (ls : List Label) : Prop := ∀ l ∈ ls, ∀ c ∈ l, c.toNat < 128

theorem commonMSF_prefix (a b : List Label) : commonMSF a b = b.length ↔ lowerName b <+: lowerName a := by
  induction a generalizing b with
  | nil => cases b <;> simp [commonMSF, lowerName]
  | cons x a ih =>
    cases b with
    | nil => simp [commonMSF, lowerName]
    | cons y b =>
      have := ih b
      simp only [commonMSF, lowerName, List.map_cons, List.length_cons, List.cons_prefix_cons]
      by_cases h : lowerLabel x = lowerLabel y
      · rw [if_pos h]
        simp only [Nat.add_right_cancel_iff, h, true_and]; exact this
      · rw [if_neg h]
        constructor
        · intro h'; omega
        · intro h'; exact absurd h'.1.symm h

theorem commonMSF_comm (a b : List Label) : commonMSF a b = commonMSF b a := by
  induction a generalizing b with
  | nil => cases b <;> rfl
  | cons x a ih =>
    cases b with
    | nil => rfl
    | cons y b =>
      simp only [commonMSF]
      by_cases h : lowerLabel x = lowerLabel y
      · rw [if_pos h, if_pos h.symm, ih]
      · rw [if_neg h, if_neg (fun h' => h h'.symm)]

theorem lowerName_reverse (a : List Label) : lowerName a.reverse = (lowerName a).reverse := by simp [lowerName]

/-- sharing all of `b`'s labels is being below `b` -/
theorem commonLabels_sub (a b : List Label) : commonLabels a b = b.length ↔ IsSubdomain a b := by
  unfold commonLabels IsSubdomain
  rw [← List.length_reverse (as := b), commonMSF_prefix, lowerName_reverse, lowerName_reverse, List.reverse_prefix]

theorem commonLabels_super (a b : List Label) : commonLabels a b = a.length ↔ IsSubdomain b a := by
  unfold commonLabels
  rw [commonMSF_comm]; exact commonLabels_sub b a

theorem sub_antisymm {a b : List Label} (h1 : IsSubdomain a b) (h2 : IsSubdomain b a) : SameName a b := by
  unfold IsSubdomain at h1 h2
  exact (List.IsSuffix.eq_of_length h2 (Nat.le_antisymm h2.length_le h1.length_le))

theorem same_sub {a b : List Label} (h : SameName a b) : IsSubdomain a b := by
  unfold IsSubdomain; rw [show lowerName a = lowerName b from h]; exact List.suffix_refl _

/-- the relation the documentation describes -/
def relationSpec (a b : List Label) : NameRelation :=
  if SameName a b then .Equal
  else if IsSubdomain a b then .SubDomain
  else if IsSubdomain b a then .SuperDomain
  else .CommonAncestor

theorem rev_root_bounds {a : List Label} (ha : ValidName a) :
    (([] : Label) :: a.reverse).length ≤ 128 ∧ ∀ l ∈ ([] : Label) :: a.reverse, l.length ≤ 63 := by
  constructor
  · have := ha.count; simp; omega
  · intro l hl
    rcases List.mem_cons.mp hl with rfl | h
    · simp
    · exact ha.len63 l (by simpa using h)

theorem get_relation_release {a b : List Label} (ha : ValidName a) (hb : ValidName b) :
    ∃ r, get_relation .release (ofLabels a) (ofLabels b) = .ok r ∧
      r.common_label_count = commonLabels a b + 1 ∧ r.relation = relationSpec a b ∧
      (r.order = 0 ↔ SameName a b) := by
  have hca := rev_root_bounds ha
  have hcb := rev_root_bounds hb
  obtain ⟨r, hr, h1, h2, h3⟩ := LabelSlice.relSpec_release ([] :: a.reverse) ([] :: b.reverse) 0
    hca.1 hcb.1 (Or.inl ⟨by simp, by simp⟩) hca.2 hcb.2
  have hc : commonMSF (([] : Label) :: a.reverse) ([] :: b.reverse) = commonLabels a b + 1 := by
    simp [commonMSF, commonLabels]
  have hle := LabelSlice.commonMSF_le a.reverse b.reverse
  simp only [List.length_reverse] at hle
  change commonLabels a b ≤ _ ∧ commonLabels a b ≤ _ at hle
  refine ⟨r, ?_, ?_, ?_, ?_⟩
  · rw [get_relation_ofLabels .release ha hb]; exact hr
  · rw [h1, hc]
    have := ha.count
    rw [Nat.zero_add, Nat.mod_eq_of_lt (by omega)]
  · rw [h2, hc]
    unfold relationSpec
    simp only [List.length_cons, List.length_reverse, Nat.add_right_cancel_iff, LabelSlice.relationOf]
    by_cases hs : SameName a b
    · have e1 := (commonLabels_sub a b).mpr (same_sub hs)
      have e2 := R53.Name.SameName.length hs
      rw [if_pos hs]; simp [e1, e2]
    · rw [if_neg hs]
      by_cases hab : IsSubdomain a b
      · have e1 := (commonLabels_sub a b).mpr hab
        have e2 : ¬ commonLabels a b = a.length := fun h => hs (sub_antisymm hab ((commonLabels_super a b).mp h))
        rw [if_pos hab]; simp [e1]; grind
      · rw [if_neg hab]
        have e1 : ¬ commonLabels a b = b.length := fun h => hab ((commonLabels_sub a b).mp h)
        by_cases hba : IsSubdomain b a
        · have e2 := (commonLabels_super a b).mpr hba
          rw [if_pos hba]; grind
        · have e2 : ¬ commonLabels a b = a.length := fun h => hba ((commonLabels_super a b).mp h)
          rw [if_neg hba]; grind
  · rw [h3]
    simp only [lowerName, List.map_cons, SameName]
    simp [List.map_reverse]

/-- with overflow checks `compare` panics or gives what the wrapping build gives -/
theorem get_relation_debug {a b : List Label} (ha : ValidName a) (hb : ValidName b) :
    get_relation .debug (ofLabels a) (ofLabels b) = .panic ∨
    get_relation .debug (ofLabels a) (ofLabels b) = get_relation .release (ofLabels a) (ofLabels b) := by
  rw [get_relation_ofLabels .debug ha hb, get_relation_ofLabels .release ha hb]
  exact LabelSlice.relSpec_debug _ _ _

theorem ascii_rev {a : List Label} (h : Ascii a) : ∀ l ∈ ([] : Label) :: a.reverse, LabelSlice.AsciiLabel l := by
  intro l hl
  rcases List.mem_cons.mp hl with rfl | h'
  · intro c hc; simp at hc
  · exact h l (by simpa using h')

theorem get_relation_ascii (m : Build) {a b : List Label} (ha : ValidName a) (hb : ValidName b)
    (haa : Ascii a) (hab : Ascii b) :
    get_relation m (ofLabels a) (ofLabels b) = get_relation .release (ofLabels a) (ofLabels b) := by
  have hca := rev_root_bounds ha
  have hcb := rev_root_bounds hb
  rw [get_relation_ofLabels m ha hb, get_relation_ofLabels .release ha hb]
  exact (LabelSlice.relSpec_ascii m _ _ 0 hca.1 hcb.1 (Or.inl ⟨by simp, by simp⟩) hca.2 hcb.2
    (ascii_rev haa) (ascii_rev hab)).1

theorem cmp_ascii (m : Build) {a b : List Label} (ha : ValidName a) (hb : ValidName b)
    (haa : Ascii a) (hab : Ascii b) : cmp m (ofLabels a) (ofLabels b) = .ok (canonicalCmp a b) := by
  have hca := rev_root_bounds ha
  have hcb := rev_root_bounds hb
  obtain ⟨_, r, hr, h⟩ := LabelSlice.relSpec_ascii m ([] :: a.reverse) ([] :: b.reverse) 0 hca.1 hcb.1
    (Or.inl ⟨by simp, by simp⟩) hca.2 hcb.2 (ascii_rev haa) (ascii_rev hab)
  have hc : cmpLabelsMSF ([] :: a.reverse) ([] :: b.reverse) = canonicalCmp a b := by
    simp [cmpLabelsMSF, cmpLabel, canonicalCmp]
  rw [hc] at h
  unfold cmp
  rw [get_relation_ofLabels m ha hb, hr]
  simp only [Res.bind_ok, Res.pure_eq, Res.ok.injEq]
  rcases h with ⟨h1, h2⟩ | ⟨h1, h2⟩ | ⟨h1, h2⟩
  · rw [h2, if_pos h1]
  · rw [h2, h1]; rfl
  · rw [h2, if_neg (by omega), if_neg (by omega)]

end Name
end R53
