import Verif.Proofs.TreeRun
import Verif.Spec.Nodes
/-!
# The nodes of a tree, exactly
-/
namespace R53

/-! ## names -/

theorem meet_left (a b : List Label) : meet a b <:+ a := by
  induction a with
  | nil => exact List.suffix_refl _
  | cons l a ih =>
    unfold meet
    split
    · exact List.suffix_refl _
    · exact ih.trans (List.suffix_cons _ _)

theorem meet_right (a b : List Label) : meet a b <:+ b := by
  induction a with
  | nil => exact List.nil_suffix
  | cons l a ih =>
    unfold meet
    split
    · assumption
    · exact ih

theorem meet_max {a b j : List Label} (h1 : j <:+ a) (h2 : j <:+ b) : j <:+ meet a b := by
  induction a with
  | nil => exact h1
  | cons l a ih =>
    unfold meet
    split
    · exact h1
    · rename_i hn
      rcases List.suffix_cons_iff.1 h1 with rfl | h1
      · exact absurd h2 hn
      · exact ih h1

theorem meet_eq {a b k : List Label} (h1 : k <:+ a) (h2 : k <:+ b) (h : ∀ j, j <:+ a → j <:+ b → j <:+ k) : meet a b = k :=
  (h _ (meet_left a b) (meet_right a b)).eq_of_length_le (meet_max h1 h2).length_le

theorem suf_root {a b : List Label} : a ++ [[]] <:+ b ++ [[]] ↔ a <:+ b := by
  constructor
  · rintro ⟨w, hw⟩
    rw [← List.append_assoc] at hw
    exact ⟨w, List.append_cancel_right hw⟩
  · rintro ⟨w, rfl⟩; exact ⟨w, by simp⟩

theorem lowerName_idem (a : List Label) : lowerName (lowerName a) = lowerName a := by
  unfold lowerName lowerLabel
  rw [List.map_map]
  refine List.map_congr_left fun x _ => ?_
  simp only [Function.comp, List.map_map]
  exact List.map_congr_left fun c _ => R53.lowerByte_idem c

theorem lowerName_suffix {a j : List Label} (h : j <:+ lowerName a) : lowerName j = j := by
  obtain ⟨w, hw⟩ := h
  have h1 := lowerName_idem a
  rw [← hw, Name.lowerName_append] at h1
  have h2 : (lowerName w).length = w.length := Name.lowerName_length w
  exact (List.append_inj h1 h2).2

theorem lowerName_root (a : List Label) : lowerName (a ++ [[]]) = lowerName a ++ [[]] := by
  rw [Name.lowerName_append]; rfl

/-! ## tables -/

namespace Nodes
variable {T : Type} {N : Nodes T}

/-- no name twice -/
def Distinct (N : Nodes T) : Prop := (N.map fun x => x.1).Nodup

theorem at?_iff (h : N.Distinct) {k : List Label} {d : Seen T} : N.at? k = some d ↔ (k, d) ∈ N := by
  induction N with
  | nil => simp [at?]
  | cons x N ih =>
    unfold Distinct at h
    rw [List.map_cons, List.nodup_cons] at h
    have ih := ih h.2
    unfold at? at ih ⊢
    rw [List.find?_cons]
    by_cases hx : x.1 = k
    · simp only [hx, decide_true, Option.map_some, Option.some.injEq, List.mem_cons]
      constructor
      · rintro rfl; exact .inl (by rw [← hx])
      · rintro (e | e)
        · rw [← e]
        · exact absurd (List.mem_map.2 ⟨(k, d), e, hx.symm⟩) h.1
    · simp only [hx, decide_false, Bool.false_eq_true, List.mem_cons]
      rw [ih]
      constructor
      · exact .inr
      · rintro (e | e)
        · exact absurd (by rw [← e]) hx
        · exact e

theorem at?_none {k : List Label} : N.at? k = none ↔ ∀ d, (k, d) ∉ N := by
  unfold at?
  rw [Option.map_eq_none_iff, List.find?_eq_none]
  constructor
  · intro h d hd
    have := h _ hd
    simp at this
  · rintro h ⟨k', d⟩ hx
    simp only [decide_eq_true_eq]
    rintro rfl
    exact h d hx

theorem isSome_iff (h : N.Distinct) {k : List Label} : (N.at? k).isSome = true ↔ ∃ d, (k, d) ∈ N := by
  rw [Option.isSome_iff_exists]
  exact exists_congr fun d => at?_iff h

theorem change_keys (k : List Label) (f : Seen T → Seen T) : (N.change k f).map (fun x => x.1) = N.map fun x => x.1 := by
  unfold change
  rw [List.map_map]
  refine List.map_congr_left fun x _ => ?_
  simp only [Function.comp]
  split <;> rfl

theorem Distinct.change (h : N.Distinct) (k : List Label) (f : Seen T → Seen T) : (N.change k f).Distinct := by
  unfold Distinct; rw [change_keys]; exact h

theorem mem_change {k j : List Label} {f : Seen T → Seen T} {d : Seen T} : (j, d) ∈ N.change k f ↔ (j = k ∧ ∃ c, (k, c) ∈ N ∧ d = f c) ∨ (j ≠ k ∧ (j, d) ∈ N) := by
  unfold Nodes.change
  rw [List.mem_map]
  constructor
  · rintro ⟨⟨j', c⟩, hm, e⟩
    by_cases hj : j' = k
    · subst hj
      simp only [if_true, Prod.mk.injEq] at e
      obtain ⟨rfl, rfl⟩ := e
      exact .inl ⟨rfl, c, hm, rfl⟩
    · simp only [hj, if_false, Prod.mk.injEq] at e
      obtain ⟨rfl, rfl⟩ := e
      exact .inr ⟨hj, hm⟩
  · rintro (⟨rfl, c, hm, rfl⟩ | ⟨hj, hm⟩)
    · exact ⟨(j, c), hm, by simp⟩
    · exact ⟨(j, d), hm, by simp [hj]⟩

end Nodes

namespace Dom
variable {T : Type}

/-- what is seen of a node -/
def seen (e : Entry T) : Seen T := ⟨e.value, e.cb, e.wc⟩

/-- the tree has the nodes of the table -/
structure Tabled (t : Tr T) (N : Nodes T) : Prop where
  distinct : N.Distinct
  mem : ∀ k d, (k, d) ∈ N ↔ ∃ e ∈ t.nodes [], lowerName e.name = k ++ [[]] ∧ seen e = d

section
variable {A : Kind} {m : Build} {s s' : Dom T} {t t' : Tr T} {δ δ' : Nat} {N : Nodes T}

theorem InvA.key (h : InvA A s t δ) {e : Entry T} (he : e ∈ t.nodes []) : ∃ ls, ValidName ls ∧ Kind.All A ls ∧ e.name = ls ++ [[]] ∧ lowerName e.name = lowerName ls ++ [[]] := by
  obtain ⟨ls, hv, ha, e⟩ := h.names e he
  exact ⟨ls, hv, ha, e, by rw [e, lowerName_root]⟩

theorem Tabled.at_some (hT : Tabled t N) {e : Entry T} (he : e ∈ t.nodes []) {k : List Label} (hk : lowerName e.name = k ++ [[]]) : N.at? k = some (seen e) :=
  (Nodes.at?_iff hT.distinct).2 ((hT.mem _ _).2 ⟨e, he, hk, rfl⟩)

theorem Tabled.at_none (hT : Tabled t N) {k : List Label} (hno : ∀ e ∈ t.nodes [], lowerName e.name ≠ k ++ [[]]) : N.at? k = none := by
  rw [Nodes.at?_none]
  intro d hd
  obtain ⟨e, he, hk, -⟩ := (hT.mem _ _).1 hd
  exact hno e he hk

/-- the number of nodes -/
theorem Tabled.length (h : InvA A s t δ) (hT : Tabled t N) : N.length = t.size := by
  have h1 : ((t.nodes []).map fun e => ((lowerName e.name).dropLast, seen e)).Perm N := by
    have hnd := nodup_names [] h.ok.2 h.ok.1.2.2
    rw [List.perm_ext_iff_of_nodup]
    · rintro ⟨k, d⟩
      rw [hT.mem, List.mem_map]
      constructor
      · rintro ⟨e, he, e1⟩
        simp only [Prod.mk.injEq] at e1
        obtain ⟨ls, -, -, -, e2⟩ := h.key he
        refine ⟨e, he, ?_, e1.2⟩
        rw [← e1.1, e2, List.dropLast_concat]
      · rintro ⟨e, he, e1, e2⟩
        exact ⟨e, he, by rw [e1, e2, List.dropLast_concat]⟩
    · have h2 : ((t.nodes []).map fun e => lowerName e.name).Nodup := by
        have : ((bag [] t).map fun e => lowerName e.name) = (((t.nodes []).map fun e => lowerName e.name : List _) : Multiset _) := rfl
        rw [this, Multiset.coe_nodup] at hnd; exact hnd
      refine List.Nodup.of_map (fun x : List Label × Seen T => x.1 ++ [[]]) ?_
      rw [List.map_map]
      refine (List.map_congr_left (fun e he => ?_)).symm ▸ h2
      obtain ⟨ls, -, -, -, e2⟩ := h.key he
      simp only [Function.comp]
      rw [e2, List.dropLast_concat]
    · exact List.Nodup.of_map _ hT.distinct
  rw [← h1.length_eq, List.length_map, size_bag []]; rfl

/-! ## one node changed -/

theorem Tabled.change (h : InvA A s t δ) (hT : Tabled t N) {e e' : Entry T} {R : Multiset (Entry T)} (hb : bag [] t = {e} + R) (hb' : bag [] t' = {e'} + R) (hn : e'.name = e.name)
    {k : List Label} (hk : lowerName e.name = k ++ [[]]) (f : Seen T → Seen T) (hf : seen e' = f (seen e)) : Tabled t' (N.change k f) := by
  refine ⟨hT.distinct.change _ _, fun j d => ?_⟩
  have hin : e ∈ t.nodes [] := (mem_of_bag hb).2 (.inl rfl)
  rw [Nodes.mem_change]
  constructor
  · rintro (⟨rfl, c, hm, rfl⟩ | ⟨hj, hm⟩)
    · refine ⟨e', (mem_of_bag hb').2 (.inl rfl), by rw [hn]; exact hk, ?_⟩
      rw [hf]
      have h1 := (Nodes.at?_iff hT.distinct).2 hm
      rw [hT.at_some hin hk] at h1
      cases h1; rfl
    · obtain ⟨x, hx, hxk, hxd⟩ := (hT.mem _ _).1 hm
      rcases (mem_of_bag hb).1 hx with rfl | hx
      · exact absurd (List.append_cancel_right (hxk.symm.trans hk)) hj
      · exact ⟨x, (mem_of_bag hb').2 (.inr hx), hxk, hxd⟩
  · rintro ⟨x, hx, hxk, rfl⟩
    rcases (mem_of_bag hb').1 hx with rfl | hx
    · rw [hn] at hxk
      exact .inl ⟨List.append_cancel_right (hxk.symm.trans hk), seen e, (hT.mem _ _).2 ⟨e, hin, hk, rfl⟩, hf⟩
    · refine .inr ⟨fun ej => h.other hb hx ?_, (hT.mem _ _).2 ⟨x, (mem_of_bag hb).2 (.inr hx), hxk, rfl⟩⟩
      show lowerName _ = lowerName _
      rw [hxk, hk, ej]

/-! ## insert -/

/-- where two names with nodes branch there is a node -/
theorem InvA.meet (h : InvA A s t δ) {a b : Entry T} (ha : a ∈ t.nodes []) (hb : b ∈ t.nodes []) {x y : List Label} (hx : lowerName a.name = x ++ [[]])
    (hy : lowerName b.name = y ++ [[]]) : ∃ c ∈ t.nodes [], lowerName c.name = R53.meet x y ++ [[]] := by
  obtain ⟨rest, lc, i, l, d, r, hw, rfl, rfl⟩ := h.place ha
  have hxx : lowerName (i.labels ++ sufU rest) = x ++ [[]] := hx
  rcases place_cases h.ok hb with rfl | h1 | h1 | ⟨s, h1, h2⟩
  · have : x = y := List.append_cancel_right (hx.symm.trans hy)
    subst this
    exact ⟨_, ha, by rw [hx, meet_eq (List.suffix_refl _) (List.suffix_refl _) fun j hj _ => hj]⟩
  · obtain ⟨w, hw⟩ := mem_bag h1
    have : x <:+ y := by
      rw [← suf_root, ← hxx, ← hy, hw, Name.lowerName_append w]; exact List.suffix_append _ _
    exact ⟨_, ha, by rw [hx, meet_eq (List.suffix_refl _) this fun j hj _ => hj]⟩
  · have : y <:+ x := by
      rw [← suf_root, ← hxx, ← hy]; exact sub_of_suffix ((path_sub h1).trans (List.suffix_append _ _))
    exact ⟨_, hb, by rw [hy, meet_eq this (List.suffix_refl _) fun j _ hj => hj]⟩
  · rcases h2 with rfl | ⟨c, hc, rfl⟩
    · obtain ⟨p, q, e1, e2, hp, hq, hl⟩ := h1
      simp only [List.append_nil] at e1 e2
      obtain ⟨ls, -, -, e3, -⟩ := h.key ha
      obtain ⟨ks, -, -, e4, -⟩ := h.key hb
      exfalso; apply hl
      rw [← e1, ← e2, e4]
      have e5 : i.labels ++ sufU rest = ls ++ [[]] := e3
      rw [e5, lastL_append (by simp), lastL_append (by simp)]
    · have hcm : c ∈ (plugU (plug (.node i l d r) lc) rest).nodes [] := bagU_whole rfl (path_mem hc)
      obtain ⟨ls, -, -, e3, e4⟩ := h.key hcm
      refine ⟨c, hcm, ?_⟩
      rw [e4]
      congr 1
      refine (meet_eq ?_ ?_ fun j hj1 hj2 => ?_).symm
      · rw [← suf_root, ← e4, ← hxx]; exact sub_of_suffix h1.right
      · rw [← suf_root, ← e4, ← hy]; exact sub_of_suffix h1.left
      · have hjl : lowerName (j ++ [[]]) = j ++ [[]] := by
          have : lowerName x = x := by
            have h5 := lowerName_idem (i.labels ++ sufU rest)
            rw [hxx, lowerName_root] at h5
            exact List.append_cancel_right h5
          rw [← this] at hj1
          rw [lowerName_root, lowerName_suffix hj1]
        have h6 : IsSubdomain c.name (j ++ [[]]) := by
          refine h1.common ?_ ?_
          · unfold IsSubdomain; rw [hjl, hy]; exact suf_root.2 hj2
          · unfold IsSubdomain; rw [hjl, hxx]; exact suf_root.2 hj1
        unfold IsSubdomain at h6
        rw [hjl, e4] at h6
        exact suf_root.1 h6

theorem Tabled.inserted (h : InvA A s t δ) (h' : InvA A s' t' δ') {ls : List Label} {v : Option T} {p : Ptr} {old : Option (Option T)} (hi : Inserted t t' ls v p old)
    (hT : Tabled t N) : old = N.insertAnswer (lowerName ls) ∧ Tabled t' (N.insert (lowerName ls) v) := by
  rcases hi with ⟨e, R, hb, rfl, hse, rfl, hb'⟩ | ⟨hno, ho, nm, X, hnm, hb', hX⟩
  · have hk : lowerName e.name = lowerName ls ++ [[]] := by
      rw [show lowerName e.name = lowerName _ from hse, lowerName_root]
    have hat := hT.at_some ((mem_of_bag hb).2 (.inl rfl)) hk
    refine ⟨by simp only [Nodes.insertAnswer, hat, seen], ?_⟩
    unfold Nodes.insert
    rw [if_pos (by rw [hat]; rfl)]
    exact hT.change h hb hb' rfl hk _ rfl
  · have hno' : ∀ e ∈ t.nodes [], lowerName e.name ≠ lowerName ls ++ [[]] := fun e he ek => hno e he (by show lowerName _ = lowerName _; rw [ek, lowerName_root])
    have hat := hT.at_none hno'
    have hnk : lowerName nm = lowerName ls ++ [[]] := by
      rw [show lowerName nm = lowerName _ from hnm, lowerName_root]
    have hbel : (∃ x ∈ N, lowerName ls <:+ x.1) ↔ ∃ e ∈ t.nodes [], IsSubdomain e.name (ls ++ [[]]) := by
      constructor
      · rintro ⟨⟨k, d⟩, hx, hs⟩
        obtain ⟨e, he, hk, -⟩ := (hT.mem _ _).1 hx
        exact ⟨e, he, by unfold IsSubdomain; rw [hk, lowerName_root]; exact suf_root.2 hs⟩
      · rintro ⟨e, he, hs⟩
        obtain ⟨ks, -, -, -, hk⟩ := h.key he
        refine ⟨(lowerName ks, seen e), (hT.mem _ _).2 ⟨e, he, hk, rfl⟩, ?_⟩
        unfold IsSubdomain at hs
        rw [hk, lowerName_root] at hs
        exact suf_root.1 hs
    constructor
    · simp only [Nodes.insertAnswer, hat]
      rcases ho with ⟨rfl, hno2⟩ | ⟨rfl, hex⟩
      · rw [if_neg]
        rw [hbel]; rintro ⟨e, he, hs⟩; exact hno2 e he hs
      · rw [if_pos (hbel.2 hex)]
    -- the new node without a value
    have hmem : ∀ x, x ∈ t'.nodes [] ↔ x ∈ t.nodes [] ∨ x = ⟨p, nm, v, false, false⟩ ∨ x ∈ X := by
      intro x
      rw [mem_nodes, hb', Multiset.mem_add, Multiset.mem_add, Multiset.mem_singleton, mem_nodes, or_assoc]
    have hXd : ∀ x ∈ X, seen x = ⟨none, false, false⟩ := by
      intro x hx
      rcases hX with rfl | ⟨q, nm2, rfl, -⟩
      · simp at hx
      · rw [Multiset.mem_singleton] at hx; subst hx; rfl
    have hnew : (⟨p, nm, v, false, false⟩ : Entry T) ∈ t'.nodes [] := (hmem _).2 (.inr (.inl rfl))
    have hbr : ∀ k, k ∈ N.branches (lowerName ls) ↔ ∃ x ∈ X, lowerName x.name = k ++ [[]] := by
      intro k
      unfold Nodes.branches
      rw [List.mem_filter, List.mem_dedup, List.mem_map, decide_eq_true_eq]
      constructor
      · rintro ⟨⟨⟨k1, d1⟩, hx, rfl⟩, hne, hnone⟩
        obtain ⟨e, he, hk, -⟩ := (hT.mem _ _).1 hx
        obtain ⟨c, hc, hck⟩ := h'.meet hnew ((hmem e).2 (.inl he)) hnk hk
        rcases (hmem c).1 hc with h1 | rfl | h1
        · rw [hT.at_some h1 hck] at hnone; cases hnone
        · exact absurd (List.append_cancel_right (hck.symm.trans hnk)) hne
        · exact ⟨c, h1, hck⟩
      · rintro ⟨x, hx, hxk⟩
        rcases hX with rfl | ⟨q, nm2, rfl, hsub, e0, he0, hsuf, hmax⟩
        · simp at hx
        rw [Multiset.mem_singleton] at hx; subst hx
        have hxk' : lowerName nm2 = k ++ [[]] := hxk
        obtain ⟨ks, -, -, -, hk0⟩ := h.key he0
        have hb2 : bag [] t' = {⟨q, nm2, none, false, false⟩} + (bag [] t + {⟨p, nm, v, false, false⟩}) := by rw [hb']; abel
        have hk1 : k <:+ lowerName ls := by
          unfold IsSubdomain at hsub
          rw [hxk', lowerName_root] at hsub; exact suf_root.1 hsub
        refine ⟨⟨(lowerName ks, seen e0), (hT.mem _ _).2 ⟨e0, he0, hk0, rfl⟩, meet_eq hk1 ?_ fun j hj1 hj2 => ?_⟩, ?_, ?_⟩
        · have := sub_of_suffix hsuf
          unfold IsSubdomain at this
          rw [hxk', hk0] at this; exact suf_root.1 this
        · have hjl : lowerName (j ++ [[]]) = j ++ [[]] := by rw [lowerName_root, lowerName_suffix hj1]
          have h6 := hmax (j ++ [[]]) (by unfold IsSubdomain; rw [hjl, lowerName_root]; exact suf_root.2 hj1) (by unfold IsSubdomain; rw [hjl, hk0]; exact suf_root.2 hj2)
          unfold IsSubdomain at h6
          rw [hjl, hxk'] at h6
          exact suf_root.1 h6
        · rintro rfl
          refine h'.other hb2 (x := ⟨p, nm, v, false, false⟩) (by simp) ?_
          show lowerName nm = lowerName nm2
          rw [hnk, hxk']
        · refine hT.at_none fun e he hek => ?_
          refine h'.other hb2 (Multiset.mem_add.2 (.inl he)) ?_
          show lowerName _ = lowerName nm2
          rw [hek, hxk']
    unfold Nodes.insert
    rw [if_neg (by rw [hat]; simp)]
    refine ⟨?_, fun k d => ?_⟩
    · unfold Nodes.Distinct
      simp only [List.cons_append, List.map_cons, List.map_append, List.map_map, List.nodup_cons, List.mem_append]
      have hid : ((fun x : List Label × Seen T => x.1) ∘ fun k => (k, (⟨none, false, false⟩ : Seen T))) = id := rfl
      rw [hid, List.map_id, List.nodup_append]
      refine ⟨?_, ?_, hT.distinct, ?_⟩
      · rintro (hx | hx)
        · unfold Nodes.branches at hx
          rw [List.mem_filter, decide_eq_true_eq] at hx
          exact hx.2.1 rfl
        · obtain ⟨⟨k, d⟩, hm, e⟩ := List.mem_map.1 hx
          simp only at e; subst e
          exact Nodes.at?_none.1 hat d hm
      · unfold Nodes.branches
        exact (List.nodup_dedup _).filter _
      · rintro a ha b hb2 rfl
        unfold Nodes.branches at ha
        rw [List.mem_filter, decide_eq_true_eq] at ha
        obtain ⟨⟨k, d⟩, hm, e⟩ := List.mem_map.1 hb2
        simp only at e; subst e
        exact Nodes.at?_none.1 ha.2.2 d hm
    · simp only [List.cons_append, List.mem_cons, List.mem_append, List.mem_map, Prod.mk.injEq]
      constructor
      · rintro (⟨rfl, rfl⟩ | ⟨k', hk', rfl, rfl⟩ | hm)
        · exact ⟨_, hnew, hnk, rfl⟩
        · obtain ⟨x, hx, hxk⟩ := (hbr _).1 hk'
          exact ⟨x, (hmem x).2 (.inr (.inr hx)), hxk, hXd x hx⟩
        · obtain ⟨x, hx, hxk, hxd⟩ := (hT.mem _ _).1 hm
          exact ⟨x, (hmem x).2 (.inl hx), hxk, hxd⟩
      · rintro ⟨x, hx, hxk, rfl⟩
        rcases (hmem x).1 hx with hx | rfl | hx
        · exact .inr (.inr ((hT.mem _ _).2 ⟨x, hx, hxk, rfl⟩))
        · exact .inl ⟨List.append_cancel_right (hxk.symm.trans hnk), rfl⟩
        · exact .inr (.inl ⟨k, (hbr k).2 ⟨x, hx, hxk⟩, rfl, (hXd x hx).symm⟩)

/-! ## remove -/

theorem Tabled.removed (h : InvA A s t δ) {e : Entry T} {k : List Label} (hk : lowerName e.name = k ++ [[]]) (hr : Removed t t' e) (hT : Tabled t N) :
    Tabled t' (N.removeNode k) := by
  obtain ⟨R, dead, hb, hb', hd, hab, hbe, hst⟩ := hr
  have hin : e ∈ t.nodes [] := (mem_of_bag hb).2 (.inl rfl)
  unfold Nodes.removeNode
  rw [if_pos (by rw [hT.at_some hin hk]; rfl)]
  -- the table once the value is gone
  generalize hN1 : (N.change k fun d => { d with value := none }) = N1
  have hd1 : N1.Distinct := by rw [← hN1]; exact hT.distinct.change _ _
  have hkeys : ∀ x ∈ ({{ e with value := none }} + R : Multiset (Entry T)), ∃ j, lowerName x.name = j ++ [[]] := by
    intro x hx
    rw [Multiset.mem_add, Multiset.mem_singleton] at hx
    rcases hx with rfl | hx
    · exact ⟨k, hk⟩
    · obtain ⟨ls, -, -, -, e1⟩ := h.key ((mem_of_bag hb).2 (.inr hx)); exact ⟨_, e1⟩
  have hm1 : ∀ j d, (j, d) ∈ N1 ↔ ∃ x ∈ ({{ e with value := none }} + R : Multiset (Entry T)), lowerName x.name = j ++ [[]] ∧ seen x = d := by
    intro j d
    rw [← hN1, Nodes.mem_change]
    constructor
    · rintro (⟨rfl, c, hm, rfl⟩ | ⟨hj, hm⟩)
      · refine ⟨{ e with value := none }, by simp, hk, ?_⟩
        have h1 := (Nodes.at?_iff hT.distinct).2 hm
        rw [hT.at_some hin hk] at h1
        cases h1; rfl
      · obtain ⟨x, hx, hxk, hxd⟩ := (hT.mem _ _).1 hm
        rcases (mem_of_bag hb).1 hx with rfl | hx
        · exact absurd (List.append_cancel_right (hxk.symm.trans hk)) hj
        · exact ⟨x, by simp [hx], hxk, hxd⟩
    · rintro ⟨x, hx, hxk, rfl⟩
      rw [Multiset.mem_add, Multiset.mem_singleton] at hx
      rcases hx with rfl | hx
      · exact .inl ⟨List.append_cancel_right (hxk.symm.trans hk), seen e, (hT.mem _ _).2 ⟨e, hin, hk, rfl⟩, rfl⟩
      · refine .inr ⟨fun ej => h.other hb hx ?_, (hT.mem _ _).2 ⟨x, (mem_of_bag hb).2 (.inr hx), hxk, rfl⟩⟩
        show lowerName _ = lowerName _
        rw [hxk, hk, ej]
  -- all entries are different
  have hnd : ({{ e with value := none }} + R : Multiset (Entry T)).Nodup := by
    have h1 := nodup_names [] h.ok.2 h.ok.1.2.2
    have h2 : (({{ e with value := none }} + R : Multiset (Entry T)).map fun x => lowerName x.name) = (bag [] t).map fun x => lowerName x.name := by
      rw [hb]; simp
    rw [← h2] at h1
    exact Multiset.Nodup.of_map _ h1
  have hsplit : ∀ x, x ∈ t'.nodes [] ↔ x ∈ ({{ e with value := none }} + R : Multiset (Entry T)) ∧ x ∉ dead := by
    intro x
    rw [hb'] at hnd ⊢
    rw [Multiset.nodup_add] at hnd
    rw [mem_nodes, Multiset.mem_add]
    constructor
    · intro hx; exact ⟨.inl hx, Multiset.disjoint_left.1 hnd.2.2 hx⟩
    · rintro ⟨hx | hx, hn⟩
      · exact hx
      · exact absurd hx hn
  have hsub : ∀ {x y : Entry T} {a b : List Label}, lowerName x.name = a ++ [[]] → lowerName y.name = b ++ [[]] → (IsSubdomain x.name y.name ↔ b <:+ a) := by
    intro x y a b h1 h2; unfold IsSubdomain; rw [h1, h2]; exact suf_root
  -- the nodes that go
  have hdies : ∀ x ∈ ({{ e with value := none }} + R : Multiset (Entry T)), ∀ j, lowerName x.name = j ++ [[]] → (x ∈ dead ↔ N1.Useless k j) := by
    intro x hx j hj
    constructor
    · intro hxd
      refine ⟨(hsub hk hj).1 (sub_of_suffix (hab x hxd)), ?_⟩
      rintro ⟨i, d⟩ hm hs
      obtain ⟨y, hy, hyk, rfl⟩ := (hm1 _ _).1 hm
      have hyd := hbe x hxd y hy ((hsub hyk hj).2 hs)
      exact ⟨(hsub hk hyk).1 (sub_of_suffix (hab y hyd)), hd y hyd⟩
    · intro hu
      refine Classical.byContradiction fun hxd => ?_
      have hx' : x ∈ t'.nodes [] := (hsplit x).2 ⟨hx, hxd⟩
      clear hxd hx
      have key : ∀ (g : Nat) (x : Entry T) (j : List Label), x ∈ t'.nodes [] → lowerName x.name = j ++ [[]] → N1.Useless k j → k.length < j.length + g → False := by
        intro g
        induction g with
        | zero =>
          intro x j hx hj hu hg
          have := hu.1.length_le
          omega
        | succ g ih =>
          intro x j hx hj hu hg
          have hm := ((hsplit x).1 hx).1
          rcases hst x hx ((hsub hk hj).2 hu.1) with h1 | ⟨y, hy, hys, hyl⟩
          · exact h1 (hu.2 (j, seen x) ((hm1 _ _).2 ⟨x, hm, hj, rfl⟩) (List.suffix_refl _)).2
          · obtain ⟨i, hi⟩ := hkeys y ((hsplit y).1 hy).1
            have hji := (hsub hi hj).1 hys
            refine ih y i hy hi ⟨(hu.2 (i, seen y) ((hm1 _ _).2 ⟨y, ((hsplit y).1 hy).1, hi, rfl⟩) hji).1, fun z hz hs => hu.2 z hz (hji.trans hs)⟩ ?_
            have e1 := congrArg List.length hi
            have e2 := congrArg List.length hj
            simp only [Name.lowerName_length, List.length_append, List.length_singleton] at e1 e2
            omega
      exact key (k.length + 1) x j hx' hj hu (by omega)
  refine ⟨?_, fun j d => ?_⟩
  · unfold Nodes.Distinct at hd1 ⊢
    exact hd1.sublist (List.filter_sublist.map _)
  · rw [List.mem_filter, hm1, decide_eq_true_eq]
    constructor
    · rintro ⟨⟨x, hx, hxk, hxd⟩, hn⟩
      exact ⟨x, (hsplit x).2 ⟨hx, fun hd => hn ((hdies x hx j hxk).1 hd)⟩, hxk, hxd⟩
    · rintro ⟨x, hx, hxk, hxd⟩
      obtain ⟨h1, h2⟩ := (hsplit x).1 hx
      exact ⟨⟨x, h1, hxk, hxd⟩, fun hu => h2 ((hdies x h1 j hxk).2 hu)⟩

/-! ## the closest node -/

theorem Tabled.closest_none (hT : Tabled t N) : ∀ {k : List Label}, (∀ j d, j <:+ k → (j, d) ∉ N) → N.closest k = none := by
  intro k
  induction k with
  | nil =>
    intro h
    unfold Nodes.closest
    rw [if_neg]
    rw [Nodes.isSome_iff hT.distinct]
    rintro ⟨d, hd⟩; exact h _ d (List.suffix_refl _) hd
  | cons l a ih =>
    intro h
    unfold Nodes.closest
    rw [if_neg]
    · exact ih fun j d hj => h j d (hj.trans (List.suffix_cons _ _))
    · rw [Nodes.isSome_iff hT.distinct]
      rintro ⟨d, hd⟩; exact h _ d (List.suffix_refl _) hd

theorem Tabled.closest_some (hT : Tabled t N) {j : List Label} {d : Seen T} (hj : (j, d) ∈ N) : ∀ {k : List Label}, j <:+ k → (∀ i c, i <:+ k → (i, c) ∈ N → i <:+ j) → N.closest k = some j := by
  intro k
  induction k with
  | nil =>
    intro h _
    have : j = [] := List.suffix_nil.1 h
    subst this
    unfold Nodes.closest
    rw [if_pos ((Nodes.isSome_iff hT.distinct).2 ⟨d, hj⟩)]
  | cons l a ih =>
    intro h hm
    unfold Nodes.closest
    by_cases hs : (N.at? (l :: a)).isSome = true
    · rw [if_pos hs]
      obtain ⟨c, hc⟩ := (Nodes.isSome_iff hT.distinct).1 hs
      have h1 := hm _ c (List.suffix_refl _) hc
      rw [h1.eq_of_length_le h.length_le]
    · rw [if_neg hs]
      rcases List.suffix_cons_iff.1 h with rfl | h
      · exact absurd ((Nodes.isSome_iff hT.distinct).2 ⟨d, hj⟩) hs
      · exact ih h fun i c hi => hm i c (hi.trans (List.suffix_cons _ _))

/-! ## histories -/

/-- the tree is as the table says -/
structure ShownA (A : Kind) (s : Dom T) (t : Tr T) (M : Table T) : Prop where
  inv : InvA A s t M.lost
  tab : Tabled t M.nodes

abbrev Shown (s : Dom T) (t : Tr T) (M : Table T) : Prop := ShownA asciiKind s t M

theorem ShownA.value (h : ShownA A s t M) {e : Entry T} (he : e ∈ t.nodes []) {k : List Label} (hk : lowerName e.name = k ++ [[]]) : M.valueOf k = e.value := by
  unfold Table.valueOf; rw [h.tab.at_some he hk]; rfl

theorem ShownA.no_value (h : ShownA A s t M) {ls : List Label} (hno : ∀ x ∈ t.nodes [], ¬ SameName (ls ++ [[]]) x.name) : M.nodes.at? (lowerName ls) = none := by
  refine h.tab.at_none fun x hx hk => hno x hx ?_
  show lowerName _ = lowerName _
  rw [hk, lowerName_root]

theorem change_absent {N : Nodes T} {k : List Label} (h : N.at? k = none) (f : Seen T → Seen T) : N.change k f = N := by
  unfold Nodes.change
  conv => rhs; rw [← List.map_id N]
  refine List.map_congr_left fun x hx => ?_
  rw [if_neg]; rfl
  rintro rfl
  exact Nodes.at?_none.1 h x.2 hx

theorem same_key {ls : List Label} {e : Entry T} (h : SameName (ls ++ [[]]) e.name) : lowerName e.name = lowerName ls ++ [[]] := by
  rw [← show lowerName _ = lowerName e.name from h, lowerName_root]

theorem not_same_of_not_sub {ls : List Label} (no : ∀ x ∈ t.nodes [], ¬ IsSubdomain (ls ++ [[]]) x.name) : ∀ x ∈ t.nodes [], ¬ SameName (ls ++ [[]]) x.name :=
  fun x hx hs => no x hx (by unfold IsSubdomain; rw [show lowerName _ = lowerName _ from hs]; exact List.suffix_refl _)

theorem exec_table_any {M : Table T} (hA : Kind.OK A m) (h : ShownA A s t M) {op : TOp T} (hop : ∀ ls ∈ op.names, ValidName ls ∧ op.Suits A m ls) :
    WPx A m (op.exec m) s fun out s' => out = (M.step op).1 ∧ ∃ t', ShownA A s' t' (M.step op).2 := by
  have hI := h.inv
  cases op with
  | insert ls v =>
    obtain ⟨hv, -, ha⟩ := hop ls (by simp [TOp.names])
    have ha := ha trivial
    refine WPx.bind ((insert_any hA hI hv ha v).mono fun r s' hr => WP.pure ?_)
    obtain ⟨t', h', hi⟩ := hr
    obtain ⟨h1, h2⟩ := h.tab.inserted hI h' hi
    refine ⟨?_, t', h', h2⟩
    rw [h1]
    simp only [Table.step, Table.valueOf, Nodes.insertAnswer]
    cases M.nodes.at? (lowerName ls) with
    | none => simp only [Option.bind_none]; split <;> rfl
    | some d => rfl
  | removeNode ls =>
    obtain ⟨hv, ha, -⟩ := hop ls (by simp [TOp.names])
    refine find_then hA hI hv ha fun r hr => ?_
    have hmiss : (∀ x ∈ t.nodes [], ¬ SameName (ls ++ [[]]) x.name) → none = (M.step (.removeNode ls)).1 ∧ ∃ t', ShownA A s t' (M.step (.removeNode ls)).2 := by
      intro no
      have h1 := h.no_value no
      refine ⟨by simp [Table.step, Table.valueOf, h1], t, ?_⟩
      have : M.nodes.removeNode (lowerName ls) = M.nodes := by unfold Nodes.removeNode; rw [if_neg (by simp [h1])]
      simp only [Table.step, this]
      exact h
    cases hr with
    | exact e mem same =>
      refine WP.pos rfl ((hI.remove_node mem).mono fun old s' hr => ?_)
      obtain ⟨rfl, t', h', hr⟩ := hr
      exact ⟨(h.value mem (same_key same)).symm, t', h', h.tab.removed hI (same_key same) hr⟩
    | closest e mem sub no deep => exact WP.neg (by simp) (WP.pure (hmiss no))
    | none no => exact WP.neg (by simp) (WP.pure (hmiss (not_same_of_not_sub no)))
  | remove ls =>
    obtain ⟨hv, ha, -⟩ := hop ls (by simp [TOp.names])
    refine find_then hA hI hv ha fun r hr => ?_
    have hhit : ∀ e ∈ t.nodes [], IsSubdomain (ls ++ [[]]) e.name → (∀ x ∈ t.nodes [], IsSubdomain (ls ++ [[]]) x.name → IsSubdomain e.name x.name) →
        WP (Dom.remove_node e.addr) s fun out s' => out = (M.step (.remove ls)).1 ∧ ∃ t', ShownA A s' t' (M.step (.remove ls)).2 := by
      intro e mem hsub deep
      obtain ⟨ks, -, -, -, hk⟩ := hI.key mem
      refine (hI.remove_node mem).mono fun old s' hr => ?_
      obtain ⟨rfl, t', h', hr⟩ := hr
      have hc : M.nodes.closest (lowerName ls) = some (lowerName ks) := by
        refine h.tab.closest_some ((h.tab.mem _ _).2 ⟨e, mem, hk, rfl⟩) ?_ fun i c hi hm => ?_
        · unfold IsSubdomain at hsub; rw [hk, lowerName_root] at hsub; exact suf_root.1 hsub
        · obtain ⟨x, hx, hxk, -⟩ := (h.tab.mem _ _).1 hm
          have h1 := deep x hx (by unfold IsSubdomain; rw [hxk, lowerName_root]; exact suf_root.2 hi)
          unfold IsSubdomain at h1
          rw [hxk, hk] at h1; exact suf_root.1 h1
      simp only [Table.step, hc]
      exact ⟨(h.value mem hk).symm, t', h', h.tab.removed hI hk hr⟩
    cases hr with
    | exact e mem same =>
      refine WP.pos (hI.addr_ne mem) (hhit e mem (Name.same_sub same) fun x hx hs => ?_)
      unfold IsSubdomain at hs ⊢
      rw [← show lowerName _ = lowerName e.name from same]; exact hs
    | closest e mem sub no deep => exact WP.pos (hI.addr_ne mem) (hhit e mem sub deep)
    | none no =>
      refine WP.neg (by simp) (WP.pure ?_)
      have hc : M.nodes.closest (lowerName ls) = none := by
        refine h.tab.closest_none fun j d hj hm => ?_
        obtain ⟨x, hx, hxk, -⟩ := (h.tab.mem _ _).1 hm
        exact no x hx (by unfold IsSubdomain; rw [hxk, lowerName_root]; exact suf_root.2 hj)
      have hst : M.step (.remove ls) = (none, M) := by simp only [Table.step, hc]
      rw [hst]
      exact ⟨rfl, t, h⟩
  | get ls =>
    obtain ⟨hv, ha, -⟩ := hop ls (by simp [TOp.names])
    refine find_then hA hI hv ha fun r hr => ?_
    have hmiss : (∀ x ∈ t.nodes [], ¬ SameName (ls ++ [[]]) x.name) → none = (M.step (.get ls)).1 ∧ ∃ t', ShownA A s t' (M.step (.get ls)).2 := by
      intro no
      exact ⟨by simp [Table.step, Table.valueOf, h.no_value no], t, h⟩
    cases hr with
    | exact e mem same =>
      obtain ⟨n, hn, hval, -⟩ := hI.get mem
      refine WP.pos rfl (WP.lift (a := n.value) (by unfold FindResult.get_value; simp [hn]) ⟨?_, t, h⟩)
      rw [hval]; exact (h.value mem (same_key same)).symm
    | closest e mem sub no deep => exact WP.neg (by simp) (WP.pure (hmiss no))
    | none no => exact WP.neg (by simp) (WP.pure (hmiss (not_same_of_not_sub no)))
  | callback ls b =>
    obtain ⟨hv, ha, -⟩ := hop ls (by simp [TOp.names])
    refine find_then hA hI hv ha fun r hr => ?_
    have hmiss : (∀ x ∈ t.nodes [], ¬ SameName (ls ++ [[]]) x.name) → none = (M.step (.callback ls b)).1 ∧ ∃ t', ShownA A s t' (M.step (.callback ls b)).2 := by
      intro no
      refine ⟨rfl, t, ?_⟩
      simp only [Table.step, change_absent (h.no_value no)]
      exact h
    cases hr with
    | exact e mem same =>
      refine WP.pos rfl (WP.bind ((hI.set_callback mem b).mono fun _ s' hs => WP.pure ?_))
      obtain ⟨t', R, h', hb, hb'⟩ := hs
      exact ⟨rfl, t', h', h.tab.change hI hb hb' rfl (same_key same) (fun d => { d with cb := b }) rfl⟩
    | closest e mem sub no deep => exact WP.neg (by simp) (WP.pure (hmiss no))
    | none no => exact WP.neg (by simp) (WP.pure (hmiss (not_same_of_not_sub no)))
  | wildcard ls b =>
    obtain ⟨hv, ha, -⟩ := hop ls (by simp [TOp.names])
    refine find_then hA hI hv ha fun r hr => ?_
    have hmiss : (∀ x ∈ t.nodes [], ¬ SameName (ls ++ [[]]) x.name) → none = (M.step (.wildcard ls b)).1 ∧ ∃ t', ShownA A s t' (M.step (.wildcard ls b)).2 := by
      intro no
      refine ⟨rfl, t, ?_⟩
      simp only [Table.step, change_absent (h.no_value no)]
      exact h
    cases hr with
    | exact e mem same =>
      refine WP.pos rfl (WP.bind ((hI.set_wildcard mem b).mono fun _ s' hs => WP.pure ?_))
      obtain ⟨t', R, h', hb, hb'⟩ := hs
      exact ⟨rfl, t', h', h.tab.change hI hb hb' rfl (same_key same) (fun d => { d with wc := b }) rfl⟩
    | closest e mem sub no deep => exact WP.neg (by simp) (WP.pure (hmiss no))
    | none no => exact WP.neg (by simp) (WP.pure (hmiss (not_same_of_not_sub no)))
  | clear =>
    refine .inl (WP.bind ((clear_spec hI).mono fun _ s' hs => WP.pure ?_))
    refine ⟨rfl, .nil, ?_, ⟨by simp [Nodes.Distinct, Table.step], fun k d => by simp [Tr.nodes, Table.step]⟩⟩
    have h1 := hs.1
    rw [hI.len, ← h.tab.length hI] at h1
    exact h1

theorem exec_table {M : Table T} (h : Shown s t M) {op : TOp T} (hop : op.OK m) :
    WP (op.exec m) s fun out s' => out = (M.step op).1 ∧ ∃ t', Shown s' t' (M.step op).2 :=
  (exec_table_any (asciiKind_ok _) h hop.suits).all

theorem run_table_kind (hA : A ≠ none) (ops : List (TOp T)) : ∀ {s : Dom T} {t : Tr T} {M : Table T}, ShownA A s t M →
    (∀ op ∈ ops, ∀ ls ∈ op.names, ValidName ls ∧ op.Suits A m ls) → WP (TOp.run m ops) s fun out s' => out = M.answers ops ∧ ∃ t', ShownA A s' t' (M.after ops) := by
  induction ops with
  | nil => intro s t M h _; exact WP.pure ⟨rfl, t, h⟩
  | cons op ops ih =>
    intro s t M h hok
    rw [TOp.run]
    refine WP.bind (((exec_table_any (.inl hA) h (hok op (by simp))).ok hA).mono fun a s1 h1 => ?_)
    obtain ⟨rfl, t1, h1⟩ := h1
    refine WP.bind ((ih h1 fun o ho => hok o (by simp [ho])).mono fun as s2 h2 => WP.pure ?_)
    obtain ⟨rfl, t2, h2⟩ := h2
    exact ⟨rfl, t2, h2⟩

theorem run_table (ops : List (TOp T)) {s : Dom T} {t : Tr T} {M : Table T} (h : Shown s t M) (hok : ∀ op ∈ ops, op.OK m) :
    WP (TOp.run m ops) s fun out s' => out = M.answers ops ∧ ∃ t', Shown s' t' (M.after ops) :=
  run_table_kind asciiKind_ne ops h fun op ho => (hok op ho).suits

theorem ShownA.new : ShownA A (Dom.new : Dom T) .nil Table.empty :=
  ⟨InvA.new, ⟨by simp [Nodes.Distinct, Table.empty], fun k d => by simp [Tr.nodes, Table.empty]⟩⟩

end
end Dom
end R53
