import Verif.Proofs.LabelSeq
import Verif.Proofs.LabelOrd
import Verif.Spec.Tree
/-!
# One step of the search in the tree: the rest of the name against the labels of a node
-/
namespace R53

theorem lastL_append {a b : List Label} (h : b ≠ []) : lastL (a ++ b) = lastL b := by
  unfold lastL
  cases b with
  | nil => exact absurd rfl h
  | cons x b => simp [List.getLastD_eq_getLast?, List.getLast?_append, List.getLast?_cons]

theorem lastL_rev {a : List Label} : lastL a = a.reverse.headD [] := by
  unfold lastL
  rw [List.getLastD_eq_getLast?, List.getLast?_eq_head?_reverse]
  simp [List.headD_eq_head?_getD]

theorem lastL_lower {a b : List Label} (h : lowerName a = lowerName b) : lowerLabel (lastL a) = lowerLabel (lastL b) := by
  have h2 : ∀ ls : List Label, lowerLabel (lastL ls) = lastL (lowerName ls) := by
    intro ls
    unfold lastL lowerName
    simp [List.getLastD_eq_getLast?, List.getLast?_map]
    cases ls.getLast? <;> simp [lowerLabel]
  rw [h2, h2, h]

theorem commonMSF_split (a b : List Label) : ∃ p x p' y, a = p ++ x ∧ b = p' ++ y ∧ lowerName p = lowerName p' ∧ p.length = commonMSF a b ∧
    (x = [] ∨ y = [] ∨ lowerLabel (x.headD []) ≠ lowerLabel (y.headD [])) := by
  induction a generalizing b with
  | nil => exact ⟨[], [], [], b, rfl, rfl, rfl, by simp [commonMSF], .inl rfl⟩
  | cons u a ih =>
    cases b with
    | nil => exact ⟨[], u :: a, [], [], rfl, rfl, rfl, by simp [commonMSF], .inr (.inl rfl)⟩
    | cons v b =>
      by_cases h : lowerLabel u = lowerLabel v
      · obtain ⟨p, x, p', y, e1, e2, e3, e4, e5⟩ := ih b
        refine ⟨u :: p, x, v :: p', y, by rw [e1]; rfl, by rw [e2]; rfl, ?_, ?_, e5⟩
        · simp only [lowerName, List.map_cons, h] at *; rw [e3]
        · simp [commonMSF, h, e4]
      · exact ⟨[], u :: a, [], v :: b, rfl, rfl, rfl, by simp [commonMSF, h], .inr (.inr h)⟩

theorem lowerName_ne {a b : List Label} (h : lowerName a = lowerName b) : a.length = b.length := by
  have := congrArg List.length h
  simpa [lowerName] using this

/-- how the rest of a name `as` lies to the labels `bs` of a node -/
inductive Step (as bs : List Label) (c : NameComparisonResult) : Prop where
  | equal (h : c.relation = .Equal) (e : lowerName as = lowerName bs)
  | none (h : c.relation = .None) (e : c.order < 0 ∧ cmpSigned (lastL as) (lastL bs) = .lt ∨ ¬ c.order < 0 ∧ cmpSigned (lastL as) (lastL bs) = .gt)
  | sub (a1 a2 : List Label) (h : c.relation = .SubDomain) (hc : c.common_label_count = bs.length) (e : as = a1 ++ a2) (h1 : a1 ≠ [])
      (h2 : lowerName a2 = lowerName bs)
  | split (a1 a2 b1 b2 : List Label) (h : c.relation = .SuperDomain ∧ a1 = [] ∨ c.relation = .CommonAncestor ∧ a1 ≠ []) (e : as = a1 ++ a2)
      (e' : bs = b1 ++ b2) (h1 : b1 ≠ []) (h2 : b2 ≠ []) (hc : c.common_label_count = b2.length) (h3 : lowerName a2 = lowerName b2)
      (h4 : a1 ≠ [] → lowerLabel (lastL a1) ≠ lowerLabel (lastL b1))

/-- a set of labels that can be compared without overflow -/
structure Gentle (G : Label → Prop) : Prop where
  near : ∀ {a b : Label}, G a → G b → Near a b
  case : ∀ {a b : Label}, lowerLabel a = lowerLabel b → G a → G b
  root : G []

/-- which labels names are made of: `none` for any, or those of a set of labels that can be compared without overflow -/
abbrev Kind := Option (Subtype Gentle)

/-- labels of the kind `A` -/
def Kind.All (A : Kind) (ls : List Label) : Prop := ∀ G : Subtype Gentle, A = some G → ∀ l ∈ ls, G.1 l

theorem lowerByte_ascii (c : UInt8) : (lowerByte c).toNat < 128 ↔ c.toNat < 128 := by
  revert c; exact forall_u8' (by decide +kernel)

theorem gentle_ascii : Gentle LabelSlice.AsciiLabel := by
  refine ⟨near_ascii, fun {a b} e h c hc => ?_, fun c hc => by simp at hc⟩
  have : lowerByte c ∈ lowerLabel a := by rw [e]; exact List.mem_map_of_mem hc
  obtain ⟨c2, hc2, e2⟩ := List.mem_map.1 this
  rw [← lowerByte_ascii, ← e2, lowerByte_ascii]; exact h c2 hc2

/-- the labels can be compared without overflow, or overflow is checked -/
def Kind.OK (A : Kind) (m : Build) : Prop := A ≠ none ∨ m = .debug

/-- the kind of ASCII labels -/
def asciiKind : Kind := some ⟨LabelSlice.AsciiLabel, gentle_ascii⟩

theorem asciiKind_ok (m : Build) : Kind.OK asciiKind m := .inl (by simp [asciiKind])

theorem asciiKind_ne : asciiKind ≠ none := by simp [asciiKind]

theorem asciiKind_iff {ls : List Label} : Kind.All asciiKind ls ↔ Name.Ascii ls :=
  ⟨fun h => h _ rfl, fun h G e => by cases e; exact h⟩

/-- the comparison of the labels `as` with the labels `bs` does not panic -/
def Cool (m : Build) (as bs : List Label) : Prop := LabelSlice.relSpec m as.reverse bs.reverse 0 ≠ .panic

theorem rel_count (m : Build) (as bs : List Label) (n k : Nat) (h : LabelSlice.relSpec m as bs n ≠ .panic) : LabelSlice.relSpec m as bs k ≠ .panic := by
  induction as generalizing bs n k with
  | nil => unfold LabelSlice.relSpec; simp
  | cons x as ih =>
    cases bs with
    | nil => unfold LabelSlice.relSpec; simp
    | cons y bs =>
      unfold LabelSlice.relSpec at h ⊢
      cases e : LabelSlice.bytesDiff m x y with
      | panic => rw [e] at h; exact absurd rfl h
      | err => simp
      | ok o =>
        rw [e] at h
        simp only [Res.bind_ok] at h ⊢
        cases o with
        | some d => simp
        | none =>
          simp only at h ⊢
          split at h
          · rename_i h2; rw [if_pos h2]; simp
          · rename_i h2; rw [if_neg h2]; exact ih bs _ _ h

theorem rel_head (m : Build) (as bs cs : List Label) (n : Nat) (h : LabelSlice.relSpec m as (bs ++ cs) n ≠ .panic) : LabelSlice.relSpec m as bs n ≠ .panic := by
  induction as generalizing bs n with
  | nil => unfold LabelSlice.relSpec; simp
  | cons x as ih =>
    cases bs with
    | nil => unfold LabelSlice.relSpec; simp
    | cons y bs =>
      rw [List.cons_append] at h
      unfold LabelSlice.relSpec at h ⊢
      cases e : LabelSlice.bytesDiff m x y with
      | panic => rw [e] at h; exact absurd rfl h
      | err => simp
      | ok o =>
        rw [e] at h
        simp only [Res.bind_ok] at h ⊢
        cases o with
        | some d => simp
        | none =>
          simp only at h ⊢
          split at h
          · rename_i h2; rw [if_pos h2]; simp
          · rename_i h2; rw [if_neg h2]; exact ih bs _ h

theorem diff_same (m : Build) (a b : Label) (h : lowerLabel a = lowerLabel b) : LabelSlice.bytesDiff m a b = .ok none := by
  induction a generalizing b with
  | nil => cases b with
    | nil => rfl
    | cons => simp [lowerLabel] at h
  | cons x a ih =>
    cases b with
    | nil => simp [lowerLabel] at h
    | cons y b =>
      simp only [lowerLabel, List.map_cons, List.cons.injEq] at h
      have e : ∀ c : UInt8, subI8 m (asI8 c) (asI8 c) = .ok 0 := by
        intro c; unfold subI8; simp
      simp only [LabelSlice.bytesDiff, h.1, e, Res.bind_ok, ne_eq, not_true_eq_false, if_false]
      exact ih b h.2

theorem rel_tail (m : Build) (x x' y y' : List Label) (n : Nat) (e : lowerName x = lowerName x') (h : LabelSlice.relSpec m (x ++ y) (x' ++ y') n ≠ .panic) :
    LabelSlice.relSpec m y y' n ≠ .panic := by
  induction x generalizing x' n with
  | nil =>
    cases x' with
    | nil => exact h
    | cons => simp [lowerName] at e
  | cons a x ih =>
    cases x' with
    | nil => simp [lowerName] at e
    | cons b x' =>
      simp only [lowerName, List.map_cons, List.cons.injEq] at e
      rw [List.cons_append, List.cons_append] at h
      unfold LabelSlice.relSpec at h
      have hl : a.length = b.length := by have := congrArg List.length e.1; simpa [lowerLabel] using this
      rw [diff_same m a b e.1] at h
      simp only [Res.bind_ok, hl, Int.sub_self, ne_eq, not_true_eq_false, if_false] at h
      exact rel_count m y y' _ _ (ih x' _ e.2 h)

/-- the comparison with the upper part of a node that is split -/
theorem Cool.upper {m : Build} {as b1 b2 : List Label} (h : Cool m as (b1 ++ b2)) : Cool m as b2 := by
  unfold Cool at *
  rw [List.reverse_append] at h
  exact rel_head m _ _ _ _ h

/-- the comparison of what is left with the lower part of a node that is split -/
theorem Cool.lower {m : Build} {a1 a2 b1 b2 : List Label} (h : Cool m (a1 ++ a2) (b1 ++ b2)) (e : lowerName a2 = lowerName b2) : Cool m a1 b1 := by
  unfold Cool at *
  rw [List.reverse_append, List.reverse_append] at h
  refine rel_tail m _ _ _ _ _ ?_ h
  rw [lowerName_reverse, lowerName_reverse, e]

/-- the comparison of ASCII labels does not panic -/
theorem cool_or (m : Build) {A : Kind} (hA : Kind.OK A m) {as bs : List Label} (h1 : as ≠ []) (h2 : bs ≠ []) (hla : as.length ≤ 128) (hlb : bs.length ≤ 128)
    (h63a : ∀ l ∈ as, l.length ≤ 63) (h63b : ∀ l ∈ bs, l.length ≤ 63) (haa : Kind.All A as) (hab : Kind.All A bs) :
    Cool m as bs ∨ A = none ∧ m = .debug ∧ LabelSlice.relSpec m as.reverse bs.reverse 0 = .panic := by
  cases A with
  | some G =>
    left
    exact (relSpec_near m as.reverse bs.reverse 0 (by simpa) (by simpa) ⟨by simpa, by simpa⟩ (by simpa) (by simpa)
      fun a ha b hb => G.2.near (haa G rfl a (by simpa using ha)) (hab G rfl b (by simpa using hb))).1
  | none =>
    rcases Decidable.em (LabelSlice.relSpec m as.reverse bs.reverse 0 = .panic) with h | h
    · exact .inr ⟨rfl, hA.resolve_left (by simp), h⟩
    · exact .inl h

theorem step_cases (m : Build) {A : Kind} (hA : Kind.OK A m) {as bs : List Label} (h1 : as ≠ []) (h2 : bs ≠ []) (hla : as.length ≤ 128) (hlb : bs.length ≤ 128)
    (h63a : ∀ l ∈ as, l.length ≤ 63) (h63b : ∀ l ∈ bs, l.length ≤ 63) (haa : Kind.All A as) (hab : Kind.All A bs) (hcool : Cool m as bs) :
    ∃ c, LabelSlice.relSpec m as.reverse bs.reverse 0 = .ok c ∧ Step as bs c := by
  have h1' : as.reverse ≠ [] := by simpa using h1
  have h2' : bs.reverse ≠ [] := by simpa using h2
  obtain ⟨r2, hr2, hcom, hrel, -⟩ := LabelSlice.relSpec_release as.reverse bs.reverse 0 (by simpa) (by simpa) (.inl ⟨h1', h2'⟩) (by simpa) (by simpa)
  have hr : LabelSlice.relSpec m as.reverse bs.reverse 0 = .ok r2 := by
    cases m with
    | release => exact hr2
    | debug =>
      rcases LabelSlice.relSpec_debug as.reverse bs.reverse 0 with h | h
      · exact absurd h hcool
      · rw [h, hr2]
  refine ⟨r2, hr, ?_⟩
  obtain ⟨p, x, p', y, ea, eb, epp, hlen, hxy⟩ := commonMSF_split as.reverse bs.reverse
  rw [← hlen] at hcom hrel
  have hpp := lowerName_ne epp
  have ea' : as = x.reverse ++ p.reverse := by rw [← List.reverse_append, ← ea]; simp
  have eb' : bs = y.reverse ++ p'.reverse := by rw [← List.reverse_append, ← eb]; simp
  have la : as.length = x.length + p.length := by rw [ea']; simp
  have lb : bs.length = y.length + p'.length := by rw [eb']; simp
  have hcom2 : r2.common_label_count = p.length := by rw [hcom]; simp; omega
  have hlow : lowerName p.reverse = lowerName p'.reverse := by
    rw [lowerName_reverse, lowerName_reverse, epp]
  simp only [List.length_reverse, Nat.zero_add] at hrel
  by_cases hx : x = []
  · by_cases hy : y = []
    · subst hx hy
      refine .equal ?_ ?_
      · rw [hrel, if_pos (.inl (by simp [la])), LabelSlice.relationOf, if_pos ⟨by simp [la], by simp [lb, hpp]⟩]
      · rw [ea', eb']; simpa using hlow
    · subst hx
      refine .split [] p.reverse y.reverse p'.reverse (.inl ⟨?_, rfl⟩) (by simpa using ea') eb' (by simpa) ?_ ?_ hlow (fun e => absurd rfl e)
      · rw [hrel, if_pos (.inl (by simp [la])), LabelSlice.relationOf, if_neg, if_pos (by simp [la])]
        intro ⟨_, e⟩
        have : y.length = 0 := by omega
        exact hy (List.length_eq_zero_iff.1 this)
      · intro e
        have : p'.length = 0 := by simpa using e
        have : as.length = 0 := by rw [la, hpp, this]; rfl
        exact h1 (List.length_eq_zero_iff.1 this)
      · rw [hcom2]; simp [hpp]
  · by_cases hy : y = []
    · subst hy
      refine .sub x.reverse p.reverse ?_ ?_ ea' (by simpa) ?_
      · have hxl : x.length ≠ 0 := fun e => hx (List.length_eq_zero_iff.1 e)
        rw [hrel, if_pos (.inr (by simp [lb, hpp])), LabelSlice.relationOf, if_neg (by omega), if_neg (by omega), if_pos (by simp [lb, hpp])]
      · rw [hcom2]; simp [lb, hpp]
      · rw [eb']; simpa using hlow
    · have hxl : x.length ≠ 0 := fun e => hx (List.length_eq_zero_iff.1 e)
      have hyl : y.length ≠ 0 := fun e => hy (List.length_eq_zero_iff.1 e)
      have hd : lowerLabel (x.headD []) ≠ lowerLabel (y.headD []) := by
        rcases hxy with h | h | h
        · exact absurd h hx
        · exact absurd h hy
        · exact h
      rw [if_neg (by omega)] at hrel
      by_cases hp : p = []
      · subst hp
        have hp' : p' = [] := List.length_eq_zero_iff.1 (by simpa using hpp.symm)
        subst hp'
        refine .none (by rw [hrel]; simp) ?_
        obtain ⟨u, x, rfl⟩ := List.exists_cons_of_ne_nil hx
        obtain ⟨v, y, rfl⟩ := List.exists_cons_of_ne_nil hy
        have el : lastL as = u := by rw [lastL_rev, ea]; rfl
        have el' : lastL bs = v := by rw [lastL_rev, eb]; rfl
        rw [el, el']
        rw [ea, eb] at hr
        simp only [List.nil_append] at hr
        have hd' : lowerLabel u ≠ lowerLabel v := hd
        have m63a : ∀ l ∈ u :: x, l.length ≤ 63 := fun l hl => h63a l (by rw [← List.mem_reverse, ea]; simpa using hl)
        have m63b : ∀ l ∈ v :: y, l.length ≤ 63 := fun l hl => h63b l (by rw [← List.mem_reverse, eb]; simpa using hl)
        have hlx : (u :: x).length ≤ 128 := by have := congrArg List.length ea; simp at this hla ⊢; omega
        have hly : (v :: y).length ≤ 128 := by have := congrArg List.length eb; simp at this hlb ⊢; omega
        cases m with
        | debug => exact relSpec_signed u v x y 0 hlx hly m63a m63b hr hd'
        | release =>
          obtain ⟨G, hA⟩ := Option.ne_none_iff_exists'.1 (hA.resolve_right (by simp))
          have ma : ∀ l ∈ u :: x, G.1 l := fun l hl => haa G hA l (by rw [← List.mem_reverse, ea]; simpa using hl)
          have mb : ∀ l ∈ v :: y, G.1 l := fun l hl => hab G hA l (by rw [← List.mem_reverse, eb]; simpa using hl)
          have e3 := (relSpec_near .release (u :: x) (v :: y) 0 hlx hly ⟨by simp, by simp⟩ m63a m63b fun a ha b hb => G.2.near (ma a ha) (mb b hb)).2
          exact relSpec_signed u v x y 0 hlx hly m63a m63b (e3.trans hr) hd'
      · have hpl : p.length ≠ 0 := fun e => hp (List.length_eq_zero_iff.1 e)
        refine .split x.reverse p.reverse y.reverse p'.reverse (.inr ⟨?_, by simpa⟩) ea' eb' (by simpa) ?_ (by rw [hcom2]; simp [hpp]) hlow ?_
        · rw [hrel, if_neg hpl]
        · intro e
          have : p'.length = 0 := by simpa using e
          omega
        · intro _
          rw [lastL_rev, lastL_rev]
          simpa using hd

/-- a valid absolute name, with the root label; of labels of the kind `A` -/
def AbsName (A : Kind) (n : List Label) : Prop := ∃ ls, ValidName ls ∧ Kind.All A ls ∧ n = ls ++ [[]]

theorem AbsName.congr {A : Kind} {a b : List Label} (h : lowerName a = lowerName b) (ha : AbsName A a) : AbsName A b := by
  obtain ⟨ls, hv, hA, rfl⟩ := ha
  have hne : b ≠ [] := by
    intro e; subst e
    have := lowerName_ne h
    simp at this
  have eb : b = b.dropLast ++ [b.getLast hne] := (List.dropLast_concat_getLast hne).symm
  generalize b.dropLast = ls' at eb
  generalize b.getLast hne = x at eb
  subst eb
  rw [Name.lowerName_append, Name.lowerName_append] at h
  have h1 := List.append_inj' h (by simp [lowerName])
  have hx : x = [] := by
    have := h1.2
    simp only [lowerName, List.map_cons, List.map_nil, List.cons.injEq, and_true] at this
    have h2 := congrArg List.length this
    simp only [lowerLabel, List.length_map, List.length_nil] at h2
    exact List.length_eq_zero_iff.1 h2.symm
  subst hx
  have hmem : ∀ l ∈ ls', ∃ l2 ∈ ls, lowerLabel l2 = lowerLabel l := by
    intro l hl
    have : lowerLabel l ∈ lowerName ls := by rw [h1.1]; exact List.mem_map_of_mem hl
    obtain ⟨l2, h2, e⟩ := List.mem_map.1 this
    exact ⟨l2, h2, e⟩
  refine ⟨ls', ⟨?_, ?_⟩, ?_, rfl⟩
  · intro l hl
    obtain ⟨l2, h2, e⟩ := hmem l hl
    have := hv.1 l2 h2
    have e2 := congrArg List.length e
    simp only [lowerLabel, List.length_map] at e2
    unfold ValidLabel at *; omega
  · have := Name.SameName.wire_length (show SameName ls ls' from h1.1)
    have := hv.2
    simp only [nameWire, List.length_append, List.length_cons, List.length_nil] at *
    omega
  · intro G hA0 l hl
    obtain ⟨l2, h2, e⟩ := hmem l hl
    exact G.2.case e (hA G hA0 l2 h2)

/-- what the comparison needs to know about labels -/
structure LabsOK (A : Kind) (ls : List Label) : Prop where
  seq : SeqOK ls
  asc : Kind.All A ls
  len : ls.length ≤ 128

theorem LabsOK.left {A : Kind} {a b : List Label} (h : LabsOK A (a ++ b)) : LabsOK A a := by
  refine ⟨h.seq.sublist (List.sublist_append_left _ _), fun G hA l hl => h.asc G hA l (by simp [hl]), ?_⟩
  have := h.len; simp at this; omega

theorem AbsName.labs {A : Kind} {n ls : List Label} (h : AbsName A n) (hs : ls.Sublist n) : LabsOK A ls := by
  obtain ⟨x, hv, hA, rfl⟩ := h
  refine ⟨(SeqOK.root hv).sublist hs, ?_, ?_⟩
  · intro G hA0 l hl
    rcases List.mem_append.1 (hs.subset hl) with h | h
    · exact hA G hA0 l h
    · simp at h; subst h; exact G.2.root
  · have := hs.length_le
    have := hv.count
    simp only [List.length_append, List.length_cons, List.length_nil] at *; omega

theorem AbsName.suffix {A : Kind} {n n' : List Label} (h : AbsName A n) (hs : n' <:+ n) (hne : n' ≠ []) : AbsName A n' := by
  obtain ⟨x, hv, hA, rfl⟩ := h
  rcases List.suffix_concat_iff.1 hs with e | ⟨t, rfl, ht⟩
  · exact absurd e hne
  · exact ⟨t, hv.sublist ht.sublist, fun G hA0 l hl => hA G hA0 l (ht.subset hl), rfl⟩

theorem Step.same {as bs : List Label} {c : NameComparisonResult} (h : Step as bs c) (e : lowerName as = lowerName bs) : c.relation = .Equal := by
  have hl := lowerName_ne e
  cases h with
  | equal h _ => exact h
  | none h hc =>
    have h1 := (cmpSigned_eq_iff _ _).2 (lastL_lower e)
    rw [h1] at hc; simp at hc
  | sub a1 a2 h hc e1 h1 h2 =>
    have := lowerName_ne h2
    have h3 : 0 < a1.length := List.length_pos_iff.2 h1
    rw [e1] at hl; simp at hl; omega
  | split a1 a2 b1 b2 h e1 e2 h1 h2 hc h3 h4 =>
    have hl2 := lowerName_ne h3
    have hb : 0 < b1.length := List.length_pos_iff.2 h1
    rw [e1, e2] at hl
    have ha : a1 ≠ [] := by
      intro e; subst e
      simp at hl; omega
    refine absurd ?_ (h4 ha)
    rw [e1, e2, Name.lowerName_append, Name.lowerName_append, h3] at e
    exact lastL_lower (List.append_cancel_right e)

theorem Step.below {a1 a2 bs : List Label} {c : NameComparisonResult} (h : Step (a1 ++ a2) bs c) (h1 : a1 ≠ []) (hb : bs ≠ [])
    (e : lowerName a2 = lowerName bs) : c.relation = .SubDomain ∧ c.common_label_count = bs.length := by
  have hl := lowerName_ne e
  have hp : 0 < a1.length := List.length_pos_iff.2 h1
  have ha2 : a2 ≠ [] := by
    intro e2; subst e2
    exact hb (List.length_eq_zero_iff.1 (by simpa using hl.symm))
  cases h with
  | equal h e1 =>
    have := lowerName_ne e1
    simp at this; omega
  | none h hc =>
    rw [lastL_append ha2, (cmpSigned_eq_iff _ _).2 (lastL_lower e)] at hc; simp at hc
  | sub a1 a2 h hc e1 h1 h2 => exact ⟨h, hc⟩
  | split x1 x2 b1 b2 h e1 e2 h1 h2 hc h3 h4 =>
    exfalso
    have hl2 := lowerName_ne h3
    have hb : 0 < b1.length := List.length_pos_iff.2 h1
    have hx : x1 ≠ [] := by
      intro e; subst e
      have e3 := congrArg List.length e1
      rw [e2] at hl
      simp at e3 hl; omega
    -- the last labels of x1 and b1 are at the same place
    refine h4 hx ?_
    have e4 : lowerName x1 ++ lowerName x2 = lowerName a1 ++ (lowerName b1 ++ lowerName b2) := by
      rw [← Name.lowerName_append, ← e1, Name.lowerName_append, e, e2, Name.lowerName_append]
    rw [h3, ← List.append_assoc] at e4
    have e5 := List.append_cancel_right e4
    rw [← Name.lowerName_append] at e5
    have := lastL_lower e5
    rwa [lastL_append h1] at this

theorem Step.beside {as bs : List Label} {c : NameComparisonResult} (h : Step as bs c) (h1 : as ≠ []) (h2 : bs ≠ [])
    (e : lowerLabel (lastL as) ≠ lowerLabel (lastL bs)) :
    c.relation = .None ∧ (c.order < 0 ∧ cmpSigned (lastL as) (lastL bs) = .lt ∨ ¬ c.order < 0 ∧ cmpSigned (lastL as) (lastL bs) = .gt) := by
  cases h with
  | equal h e1 => exact absurd (lastL_lower e1) e
  | none h hc => exact ⟨h, hc⟩
  | sub a1 a2 h hc e1 h3 h4 =>
    refine absurd ?_ e
    have ha2 : a2 ≠ [] := by
      intro e2; subst e2
      have := lowerName_ne h4
      exact h2 (List.length_eq_zero_iff.1 (by simpa using this.symm))
    rw [e1, lastL_append ha2, lastL_lower h4]
  | split a1 a2 b1 b2 h e1 e2 h3 h4 hc h5 h6 =>
    refine absurd ?_ e
    have ha2 : a2 ≠ [] := by
      intro e2; subst e2
      have := lowerName_ne h5
      exact h4 (List.length_eq_zero_iff.1 (by simpa using this.symm))
    rw [e1, e2, lastL_append ha2, lastL_append h4, lastL_lower h5]

namespace LabelSlice

theorem view_of_seq {ls : List Label} (h : SeqOK ls) (hne : ls ≠ []) :
    ∃ sl, from_label_sequence (LabelSequence.ofLabels ls) = .ok sl ∧ View sl [] ls [] := by
  have hl : 1 ≤ ls.length := List.length_pos_iff.2 hne
  refine ⟨⟨wire ls, starts 0 ls, 0, ls.length - 1⟩, ?_, ?_⟩
  · unfold from_label_sequence
    rw [show (LabelSequence.ofLabels ls).offsets.length = ls.length by simp [LabelSequence.ofLabels], csub_ok hl]; rfl
  · refine ⟨by simp, by simp, rfl, by simp; omega, hne, by simpa using h.1⟩

theorem View.strip_right {s : LabelSlice} {pre post a1 a2 : List Label} (v : View s pre (a1 ++ a2) post) (h : a1 ≠ []) :
    ∃ s', strip_right s a2.length = .ok s' ∧ View s' pre a1 (a2 ++ post) := by
  have hl : 1 ≤ a1.length := List.length_pos_iff.2 h
  have hv := v.last
  refine ⟨{ s with last_label := s.last_label - a2.length }, ?_, ?_⟩
  · unfold LabelSlice.strip_right
    rw [v.count]
    simp only [Res.bind_ok, List.length_append]
    rw [show assertR (a2.length < a1.length + a2.length) = .ok () by simp [assertR]; omega, Res.bind_ok, csub_ok (by simp at hv; omega)]
    rfl
  · refine ⟨by simpa using v.data, by simpa using v.offsets, v.first, by simp at hv ⊢; omega, h, ?_⟩
    intro l hl'
    exact v.len63 l (by simpa using hl')

end LabelSlice
end R53
