import Batteries.Data.List.Perm
import Verif.Proofs.NameRel
import Verif.Proofs.RRset
import Verif.Spec.RRset
/-!
# Order and equality of record data
-/
namespace R53

/-! ## lawful comparisons -/

structure LawfulC {α : Type} (c : α → α → Ordering) : Prop where
  swap : ∀ a b, c b a = (c a b).swap
  eq_iff : ∀ a b, c a b = .eq ↔ a = b
  trans : ∀ x y z, c x y = .lt → c y z = .lt → c x z = .lt

theorem lawful_nat : LawfulC (compare : Nat → Nat → Ordering) where
  swap a b := (Nat.compare_swap a b).symm
  eq_iff a b := Nat.compare_eq_eq
  trans x y z h1 h2 := by rw [Nat.compare_eq_lt] at *; omega

theorem LawfulC.lex {α : Type} {c : α → α → Ordering} (h : LawfulC c) : LawfulC (lexBy c) where
  swap a b := by
    induction a generalizing b with
    | nil => cases b <;> rfl
    | cons x a ih =>
      cases b with
      | nil => rfl
      | cons y b => simp only [lexBy, ih b, Ordering.swap_then, h.swap x y]
  eq_iff a b := by
    induction a generalizing b with
    | nil => cases b <;> simp [lexBy]
    | cons x a ih =>
      cases b with
      | nil => simp [lexBy]
      | cons y b => simp [lexBy, Ordering.then_eq_eq, ih, h.eq_iff]
  trans a b d h1 h2 := by
    induction a generalizing b d with
    | nil =>
      cases d with
      | nil => cases b <;> simp [lexBy] at h1 h2
      | cons => rfl
    | cons x a ih =>
      cases b with
      | nil => simp [lexBy] at h1
      | cons y b =>
        cases d with
        | nil => simp [lexBy] at h2
        | cons z d =>
          simp only [lexBy, Ordering.then_eq_lt] at *
          rcases h1 with h1 | ⟨h1, h1'⟩ <;> rcases h2 with h2 | ⟨h2, h2'⟩
          · left; exact h.trans _ _ _ h1 h2
          · left; rw [(h.eq_iff _ _).mp h2] at h1; exact h1
          · left; rw [(h.eq_iff _ _).mp h1]; exact h2
          · right
            rw [(h.eq_iff _ _).mp h1]
            exact ⟨h2, ih b d h1' h2'⟩

/-! ## keys -/

open Classical in
/-- the labels of a name -/
noncomputable def Name.labels (n : Name) : List Label := if h : n.WF then h.choose else []

theorem Name.labels_of {n : Name} (h : n.WF) : ValidName n.labels ∧ n = Name.ofLabels n.labels := by
  unfold Name.labels; rw [dif_pos h]; exact h.choose_spec

theorem Name.labels_ofLabels {ls : List Label} (h : ValidName ls) : (Name.ofLabels ls).labels = ls := by
  have := Name.labels_of ⟨ls, h, rfl⟩
  exact (Name.ofLabels_inj h this.1 this.2).symm

def labelKey (l : Label) : List Nat := l.map fun c => (lowerByte c).toNat

abbrev FKey := List (List Nat)
abbrev cmpF : FKey → FKey → Ordering := lexBy (lexBy compare)

theorem cmpLabel_key (a b : Label) : cmpLabel a b = lexBy compare (labelKey a) (labelKey b) := by
  induction a generalizing b with
  | nil => cases b <;> rfl
  | cons x a ih =>
    cases b with
    | nil => rfl
    | cons y b => simp only [cmpLabel, ih b]; rfl

theorem cmpMSF_key (a b : List Label) : cmpLabelsMSF a b = cmpF (a.map labelKey) (b.map labelKey) := by
  induction a generalizing b with
  | nil => cases b <;> rfl
  | cons x a ih =>
    cases b with
    | nil => rfl
    | cons y b => simp only [cmpLabelsMSF, ih b, cmpLabel_key]; rfl

noncomputable def FieldVal.key : FieldVal → FKey
  | .name n => n.labels.reverse.map labelKey
  | .ip o => [o.map UInt8.toNat]
  | .u8 v => [[v.toNat]]
  | .u16 v => [[v.toNat]]
  | .u32 v => [[v.toNat]]
  | .rrtype t => [[t.as_u16.toNat]]
  | .text ds => ds.map fun d => d.map UInt8.toNat
  | .bytes d => [d.map UInt8.toNat]

theorem lexBy_map {α β : Type} (f : α → β) (c : β → β → Ordering) (a b : List α) :
    lexBy (fun x y => c (f x) (f y)) a b = lexBy c (a.map f) (b.map f) := by
  induction a generalizing b with
  | nil => cases b <;> rfl
  | cons x a ih =>
    cases b with
    | nil => rfl
    | cons y b => simp only [lexBy, ih b, List.map_cons]

theorem lexBy_single {α : Type} (c : α → α → Ordering) (a b : α) : lexBy c [a] [b] = c a b := by
  simp [lexBy]

theorem lexU8 (a b : List UInt8) : lexBy cmpU8 a b = lexBy compare (a.map UInt8.toNat) (b.map UInt8.toNat) := lexBy_map UInt8.toNat compare a b

theorem cmp_field (m : Build) (c : Codec) (a b : FieldVal) (ha : FieldFits c a) (hb : FieldFits c b) (aa : a.Ascii) (ab : b.Ascii) :
    FieldVal.cmp m a b = .ok (cmpF a.key b.key) := by
  cases c <;> cases a <;> simp only [FieldFits] at ha <;> cases b <;> simp only [FieldFits] at hb <;>
    simp only [FieldVal.cmp, FieldVal.key, cmpF, lexBy_single, lexU8]
  case name.name.name a b =>
    obtain ⟨la, h1, rfl, h2⟩ := aa
    obtain ⟨lb, h3, rfl, h4⟩ := ab
    rw [Name.cmp_ascii m h1 h3 h2 h4, Name.labels_ofLabels h1, Name.labels_ofLabels h3]
    rw [canonicalCmp, cmpMSF_key]
  case rrtype.rrtype.rrtype => rfl
  case text.text.text a b =>
    rw [← lexBy_map (fun d : List UInt8 => d.map UInt8.toNat) (lexBy compare)]
    congr 2
    funext x y
    exact lexU8 x y

theorem map_inj {α β : Type} {f : α → β} (hf : ∀ x y, f x = f y → x = y) {a b : List α} (h : a.map f = b.map f) : a = b := by
  induction a generalizing b with
  | nil => cases b <;> simp_all
  | cons x a ih =>
    cases b with
    | nil => simp at h
    | cons y b =>
      simp only [List.map_cons, List.cons.injEq] at h
      rw [hf _ _ h.1, ih h.2]

theorem map_toNat_inj {a b : List UInt8} : a.map UInt8.toNat = b.map UInt8.toNat ↔ a = b := by
  constructor
  · intro h
    exact map_inj (fun x y h => UInt8.toNat_inj.mp h) h
  · intro h; rw [h]

theorem labelKey_inj {a b : Label} : labelKey a = labelKey b ↔ lowerLabel a = lowerLabel b := by
  unfold labelKey lowerLabel
  rw [show (a.map fun c => (lowerByte c).toNat) = (a.map lowerByte).map UInt8.toNat by simp,
    show (b.map fun c => (lowerByte c).toNat) = (b.map lowerByte).map UInt8.toNat by simp, map_toNat_inj]

theorem labelsKey_inj {a b : List Label} : a.map labelKey = b.map labelKey ↔ lowerName a = lowerName b := by
  induction a generalizing b with
  | nil => cases b <;> simp [lowerName]
  | cons x a ih =>
    cases b with
    | nil => simp [lowerName]
    | cons y b =>
      simp only [List.map_cons, List.cons.injEq, lowerName, labelKey_inj]
      rw [ih]; rfl

theorem fieldSame_key (c : Codec) (a b : FieldVal) (ha : FieldFits c a) (hb : FieldFits c b) : FieldSame a b ↔ a.key = b.key := by
  cases c <;> cases a <;> simp only [FieldFits] at ha <;> cases b <;> simp only [FieldFits] at hb <;>
    simp only [FieldVal.key, FieldSame, FieldVal.ip.injEq, FieldVal.u8.injEq, FieldVal.u16.injEq,
      FieldVal.u32.injEq, FieldVal.bytes.injEq, FieldVal.text.injEq, FieldVal.rrtype.injEq, List.cons.injEq, and_true, map_toNat_inj,
      UInt8.toNat_inj, UInt16.toNat_inj, UInt32.toNat_inj]
  case name.name.name a b =>
    obtain ⟨la, h1, rfl⟩ := ha
    obtain ⟨lb, h2, rfl⟩ := hb
    rw [Name.labels_ofLabels h1, Name.labels_ofLabels h2, labelsKey_inj, lowerName_reverse, lowerName_reverse, List.reverse_inj]
    constructor
    · rintro ⟨x, y, hx, hy, ex, ey, h⟩
      rw [Name.ofLabels_inj h1 hx ex, Name.ofLabels_inj h2 hy ey]; exact h
    · intro h; exact ⟨la, lb, h1, h2, rfl, rfl, h⟩
  case rrtype.rrtype.rrtype a b =>
    constructor
    · intro h; rw [h]
    · intro h; rw [← ha, ← hb, h]
  case text.text.text a b =>
    constructor
    · intro h; rw [h]
    · intro h; exact map_inj (fun x y h => map_toNat_inj.mp h) h

theorem eq_field (c : Codec) (a b : FieldVal) (ha : FieldFits c a) (hb : FieldFits c b) :
    FieldVal.eq a b = .ok (decide (a.key = b.key)) ∧ (FieldSame a b ↔ a.key = b.key) := by
  have hs := fieldSame_key c a b ha hb
  refine ⟨?_, hs⟩
  have conv : ∀ {x : Bool}, FieldVal.eq a b = .ok x → (x = true ↔ FieldSame a b) → FieldVal.eq a b = .ok (decide (a.key = b.key)) := by
    intro x h1 h2
    rw [h1]
    congr 1
    rw [Bool.eq_iff_iff, decide_eq_true_eq, h2, hs]
  cases c <;> cases a <;> simp only [FieldFits] at ha <;> cases b <;> simp only [FieldFits] at hb
  case name.name.name a b =>
    obtain ⟨la, h1, rfl⟩ := ha
    obtain ⟨lb, h2, rfl⟩ := hb
    refine conv (Name.eq_ofLabels h1 h2) ?_
    rw [decide_eq_true_eq]
    constructor
    · intro h; exact ⟨la, lb, h1, h2, rfl, rfl, h⟩
    · rintro ⟨x, y, hx, hy, ex, ey, h⟩
      rw [Name.ofLabels_inj h1 hx ex, Name.ofLabels_inj h2 hy ey]; exact h
  all_goals exact conv rfl (by rw [decide_eq_true_eq]; rfl)

noncomputable def RData.key (rd : RData) : List FKey := [[RData.variant rd.kind]] :: rd.fields.map FieldVal.key

abbrev cmpK : List FKey → List FKey → Ordering := lexBy cmpF

theorem lawfulK : LawfulC cmpK := lawful_nat.lex.lex.lex

theorem cmp_all (m : Build) (cs : List (Codec × Disp)) (a b : List FieldVal) (ha : FieldsFit cs a) (hb : FieldsFit cs b)
    (aa : ∀ v ∈ a, v.Ascii) (ab : ∀ v ∈ b, v.Ascii) :
    FieldVal.cmpAll m a b = .ok (cmpK (a.map FieldVal.key) (b.map FieldVal.key)) := by
  induction cs generalizing a b with
  | nil =>
    cases a with
    | cons => simp [FieldsFit] at ha
    | nil =>
      cases b with
      | cons => simp [FieldsFit] at hb
      | nil => rfl
  | cons c cs ih =>
    cases a with
    | nil => simp [FieldsFit] at ha
    | cons x a =>
      cases b with
      | nil => simp [FieldsFit] at hb
      | cons y b =>
        unfold FieldVal.cmpAll
        rw [cmp_field m c.1 x y ha.1 hb.1 (aa x (by simp)) (ab y (by simp)), Res.bind_ok]
        have := ih a b ha.2 hb.2 (fun v hv => aa v (by simp [hv])) (fun v hv => ab v (by simp [hv]))
        simp only [List.map_cons, cmpK, lexBy]
        cases hc : cmpF x.key y.key
        · simp [hc]
        · simp only [this, cmpK]; rfl
        · simp [hc]

theorem eq_all (cs : List (Codec × Disp)) (a b : List FieldVal) (ha : FieldsFit cs a) (hb : FieldsFit cs b) :
    FieldVal.eqAll a b = .ok (decide (a.map FieldVal.key = b.map FieldVal.key)) ∧
    (List.Forall₂ FieldSame a b ↔ a.map FieldVal.key = b.map FieldVal.key) := by
  induction cs generalizing a b with
  | nil =>
    cases a with
    | cons => simp [FieldsFit] at ha
    | nil =>
      cases b with
      | cons => simp [FieldsFit] at hb
      | nil => exact ⟨rfl, by simp⟩
  | cons c cs ih =>
    cases a with
    | nil => simp [FieldsFit] at ha
    | cons x a =>
      cases b with
      | nil => simp [FieldsFit] at hb
      | cons y b =>
        obtain ⟨h1, h2⟩ := eq_field c.1 x y ha.1 hb.1
        obtain ⟨h3, h4⟩ := ih a b ha.2 hb.2
        constructor
        · unfold FieldVal.eqAll
          rw [h1, Res.bind_ok]
          by_cases hk : x.key = y.key
          · simp only [hk, decide_true, if_true, h3, List.map_cons, List.cons.injEq, true_and]
          · simp [hk]
        · simp only [List.forall₂_cons, h2, h4, List.map_cons, List.cons.injEq]

theorem variant_inj {a b : RData} (ha : a.Fits) (hb : b.Fits) : RData.variant a.kind = RData.variant b.kind ↔ a.kind = b.kind := by
  constructor
  · intro h
    obtain ⟨ca, h1, _⟩ := ha
    obtain ⟨cb, h2, _⟩ := hb
    revert h h1 h2
    generalize a.kind = x
    generalize b.kind = y
    cases x <;> simp only [schema, reduceCtorEq, false_implies, implies_true, RData.variant] <;> cases y <;>
      simp [schema]
  · intro h; rw [h]

theorem rdata_cmp (m : Build) {a b : RData} (ha : a.Fits) (hb : b.Fits) (aa : a.Ascii) (ab : b.Ascii) :
    RData.cmp m a b = .ok (cmpK a.key b.key) := by
  unfold RData.cmp RData.key
  simp only [cmpK, lexBy, cmpF]
  cases hc : compare (RData.variant a.kind) (RData.variant b.kind)
  · simp
  · have hk := (variant_inj ha hb).mp (Nat.compare_eq_eq.mp hc)
    obtain ⟨ca, h1, h2⟩ := ha
    obtain ⟨cb, h3, h4⟩ := hb
    rw [hk, h3] at h1
    obtain rfl : cb = ca := by simpa using h1
    simp only [Ordering.then_eq, Ordering.eq_then]
    exact cmp_all m cb a.fields b.fields h2 h4 aa ab
  · simp

theorem rdata_eq {a b : RData} (ha : a.Fits) (hb : b.Fits) :
    RData.eq a b = .ok (decide (a.key = b.key)) ∧ (a.Same b ↔ a.key = b.key) := by
  have hv := variant_inj ha hb
  unfold RData.eq RData.key RData.Same
  simp only [List.cons.injEq, and_true, hv]
  by_cases hk : a.kind = b.kind
  · obtain ⟨ca, h1, h2⟩ := ha
    obtain ⟨cb, h3, h4⟩ := hb
    rw [hk, h3] at h1
    obtain rfl : cb = ca := by simpa using h1
    obtain ⟨h5, h6⟩ := eq_all cb a.fields b.fields h2 h4
    rw [if_pos hk]
    simp only [hk, true_and]
    exact ⟨h5, h6⟩
  · simp [hk]

/-! ## lists of record data -/

theorem elem_spec {a : RData} (ha : a.Fits) (l : List RData) (hl : ∀ b ∈ l, b.Fits) :
    RData.elem a l = .ok (decide (a.key ∈ l.map RData.key)) := by
  induction l with
  | nil => simp [RData.elem]
  | cons b l ih =>
    unfold RData.elem
    rw [(rdata_eq ha (hl b (by simp))).1, Res.bind_ok]
    by_cases hk : a.key = b.key
    · simp [hk]
    · simp only [hk, decide_false, Bool.false_eq_true, if_false, ih fun x hx => hl x (by simp [hx])]
      simp [hk]

theorem allIn_spec (s t : List RData) (hs : ∀ b ∈ s, b.Fits) (ht : ∀ b ∈ t, b.Fits) :
    RData.allIn s t = .ok (decide (s.map RData.key ⊆ t.map RData.key)) := by
  induction s with
  | nil => simp [RData.allIn]
  | cons a s ih =>
    unfold RData.allIn
    rw [elem_spec (hs a (by simp)) t ht, Res.bind_ok]
    by_cases hk : a.key ∈ t.map RData.key
    · simp only [hk, decide_true, if_true, ih fun x hx => hs x (by simp [hx])]
      simp only [List.map_cons, List.cons_subset, hk, true_and]
    · simp only [hk, decide_false, Bool.false_eq_true, if_false, List.map_cons, List.cons_subset, false_and]
      rfl

theorem eqList_spec (s t : List RData) (hs : ∀ b ∈ s, b.Fits) (ht : ∀ b ∈ t, b.Fits) :
    RData.eqList s t = .ok (decide (s.map RData.key = t.map RData.key)) := by
  induction s generalizing t with
  | nil => cases t <;> simp [RData.eqList]
  | cons a s ih =>
    cases t with
    | nil => simp [RData.eqList]
    | cons b t =>
      unfold RData.eqList
      rw [(rdata_eq (hs a (by simp)) (ht b (by simp))).1, Res.bind_ok]
      by_cases hk : a.key = b.key
      · simp only [hk, decide_true, if_true, ih t (fun x hx => hs x (by simp [hx])) (fun x hx => ht x (by simp [hx]))]
        simp [hk]
      · simp [hk]

theorem perm_map_lift {α β : Type} (f : α → β) (t : List α) (l1 : List β) (h : l1.Perm (t.map f)) : ∃ l : List α, l.Perm t ∧ l.map f = l1 := by
  induction l1 generalizing t with
  | nil =>
    have := h.length_eq
    simp only [List.length_nil, List.length_map] at this
    obtain rfl := List.length_eq_zero_iff.mp this.symm
    exact ⟨[], List.Perm.refl _, rfl⟩
  | cons a l1 ih =>
    obtain ⟨x, hx, rfl⟩ := List.mem_map.mp (h.subset (by simp : a ∈ a :: l1))
    obtain ⟨u, v, rfl⟩ := List.append_of_mem hx
    have h2 : l1.Perm ((u ++ v).map f) := by
      have : ((u ++ x :: v).map f).Perm (f x :: (u ++ v).map f) := by
        rw [← List.map_cons]; exact (List.perm_middle).map f
      exact (List.perm_cons _).mp (h.trans this)
    obtain ⟨l, h3, h4⟩ := ih _ h2
    exact ⟨x :: l, (h3.cons x).trans List.perm_middle.symm, by rw [List.map_cons, h4]⟩

theorem forall2_key (s t : List RData) (hs : ∀ b ∈ s, b.Fits) (ht : ∀ b ∈ t, b.Fits) :
    List.Forall₂ RData.Same s t ↔ s.map RData.key = t.map RData.key := by
  induction s generalizing t with
  | nil =>
    cases t with
    | nil => simp
    | cons => exact ⟨fun h => (nomatch h), fun h => by simp at h⟩
  | cons a s ih =>
    cases t with
    | nil => exact ⟨fun h => (nomatch h), fun h => by simp at h⟩
    | cons b t =>
      rw [List.forall₂_cons, (rdata_eq (hs a (by simp)) (ht b (by simp))).2,
        ih t (fun x hx => hs x (by simp [hx])) (fun x hx => ht x (by simp [hx])), List.map_cons, List.map_cons, List.cons.injEq]

theorem sameData_key (s t : List RData) (hs : ∀ b ∈ s, b.Fits) (ht : ∀ b ∈ t, b.Fits) :
    SameData s t ↔ (s.map RData.key).Perm (t.map RData.key) := by
  constructor
  · rintro ⟨l, h1, h2⟩
    rw [(forall2_key s l hs fun x hx => ht x (h1.subset hx)).mp h2]
    exact h1.map _
  · intro h
    obtain ⟨l, h1, h2⟩ := perm_map_lift RData.key t _ h
    exact ⟨l, h1, (forall2_key s l hs fun x hx => ht x (h1.subset hx)).mpr h2.symm⟩

/-- sorted permutations have the same keys in the same order -/
theorem sorted_spec {m : Build} {sort : List RData → Res (List RData)} (hsort : SortSpec m sort) (s : List RData)
    (hs : ∀ b ∈ s, b.Fits ∧ b.Ascii) : ∃ l, sort s = .ok l ∧ l.Perm s ∧ (l.map RData.key).Pairwise fun a b => cmpK a b ≠ .gt := by
  obtain ⟨l, h1, h2, h3⟩ := hsort s
    (fun a ha b hb => ⟨_, rdata_cmp m (hs a ha).1 (hs b hb).1 (hs a ha).2 (hs b hb).2, by
      rw [rdata_cmp m (hs b hb).1 (hs a ha).1 (hs b hb).2 (hs a ha).2, lawfulK.swap]⟩)
    (fun a ha b hb c hc h4 h5 => by
      rw [rdata_cmp m (hs a ha).1 (hs b hb).1 (hs a ha).2 (hs b hb).2] at h4
      rw [rdata_cmp m (hs b hb).1 (hs c hc).1 (hs b hb).2 (hs c hc).2] at h5
      rw [rdata_cmp m (hs a ha).1 (hs c hc).1 (hs a ha).2 (hs c hc).2]
      simp only [Res.ok.injEq] at *
      exact lawfulK.trans _ _ _ h4 h5)
  refine ⟨l, h1, h2, ?_⟩
  rw [List.pairwise_map]
  refine h3.imp_of_mem fun {a b} ha hb h => ?_
  have ha' := hs a (h2.subset ha)
  have hb' := hs b (h2.subset hb)
  rw [rdata_cmp m ha'.1 hb'.1 ha'.2 hb'.2] at h
  simpa using h

end R53
