import Verif.Proofs.TreeOps
/-!
# The tree as a map, over histories
-/
namespace R53
namespace Dom
variable {T : Type}

/-- the tree stores the map `M` -/
def Agrees (t : Tr T) (M : List Label → Option T) : Prop :=
  (∀ e ∈ t.nodes [], ∀ ls, SameName e.name (ls ++ [[]]) → e.value = M (lowerName ls)) ∧
  (∀ ls v, M (lowerName ls) = some v → ∃ e ∈ t.nodes [], SameName e.name (ls ++ [[]]))

theorem same_root {a b : List Label} : SameName (a ++ [[]]) (b ++ [[]]) ↔ lowerName a = lowerName b := by
  unfold SameName
  rw [Name.lowerName_append, Name.lowerName_append]
  exact ⟨fun h => List.append_cancel_right h, fun h => by rw [h]⟩

section
variable {m : Build} {A : Kind} {s : Dom T} {t t' : Tr T} {δ : Nat}

theorem mem_of_bag {e : Entry T} {R : Multiset (Entry T)} (h : bag [] t = {e} + R) {x : Entry T} : x ∈ t.nodes [] ↔ x = e ∨ x ∈ R := by
  rw [mem_nodes, h, Multiset.mem_add, Multiset.mem_singleton]

/-- all other nodes have other names -/
theorem InvA.other (h : InvA A s t δ) {e : Entry T} {R : Multiset (Entry T)} (hb : bag [] t = {e} + R) {x : Entry T} (hx : x ∈ R) : ¬ SameName x.name e.name := by
  intro hs
  have hnd := nodup_names [] h.ok.2 h.ok.1.2.2
  rw [hb, Multiset.map_add, Multiset.nodup_add] at hnd
  exact Multiset.disjoint_left.1 hnd.2.2 (Multiset.mem_map_of_mem _ (Multiset.mem_singleton_self e)) (Multiset.mem_map.2 ⟨x, hx, hs⟩)

theorem agrees_inserted (h : InvA A s t δ) {s' : Dom T} (h' : InvA A s' t' δ) {ls : List Label} {v : Option T} {p : Ptr} {old : Option (Option T)} (hi : Inserted t t' ls v p old) {M : List Label → Option T}
    (hM : Agrees t M) : old.join = M (lowerName ls) ∧ Agrees t' (fun k => if k = lowerName ls then v else M k) := by
  rcases hi with ⟨e, R, hb, rfl, hse, rfl, hb'⟩ | ⟨hno, ho, nm, X, hnm, hb', hX⟩
  · have hin : e ∈ t.nodes [] := (mem_of_bag hb).2 (.inl rfl)
    refine ⟨by rw [← hM.1 e hin ls hse]; simp, fun x hx ks hs => ?_, fun ks w hw => ?_⟩
    · rcases (mem_of_bag hb').1 hx with rfl | hx
      · have : lowerName ks = lowerName ls := same_root.1 (hs.symm.trans hse)
        simp [this]
      · have h1 : lowerName ks ≠ lowerName ls := fun e1 => h.other hb hx (hs.trans ((same_root.2 e1).trans hse.symm))
        simp only [h1, if_false]
        exact hM.1 x ((mem_of_bag hb).2 (.inr hx)) ks hs
    · by_cases h1 : lowerName ks = lowerName ls
      · exact ⟨_, (mem_of_bag hb').2 (.inl rfl), hse.trans (same_root.2 h1.symm)⟩
      · simp only [h1, if_false] at hw
        obtain ⟨x, hx, hs⟩ := hM.2 ks w hw
        rcases (mem_of_bag hb).1 hx with rfl | hx
        · exact absurd (same_root.1 (hs.symm.trans hse)) h1
        · exact ⟨x, (mem_of_bag hb').2 (.inr hx), hs⟩
  · have hnone : M (lowerName ls) = none := by
      cases hm : M (lowerName ls) with
      | none => rfl
      | some w => obtain ⟨x, hx, hs⟩ := hM.2 ls w hm; exact absurd hs (hno x hx)
    have hmem : ∀ x, x ∈ t'.nodes [] ↔ x ∈ t.nodes [] ∨ x = ⟨p, nm, v, false, false⟩ ∨ x ∈ X := by
      intro x
      rw [mem_nodes, hb', Multiset.mem_add, Multiset.mem_add, Multiset.mem_singleton, mem_nodes, or_assoc]
    refine ⟨by rw [hnone]; rcases ho with ⟨rfl, -⟩ | ⟨rfl, -⟩ <;> rfl, fun x hx ks hs => ?_, fun ks w hw => ?_⟩
    · rcases (hmem x).1 hx with hx | rfl | hx
      · have h1 : lowerName ks ≠ lowerName ls := fun e1 => hno x hx (hs.trans (same_root.2 e1))
        simp only [h1, if_false]
        exact hM.1 x hx ks hs
      · have : lowerName ks = lowerName ls := same_root.1 (hs.symm.trans hnm)
        simp [this]
      · rcases hX with rfl | ⟨q, nm2, rfl, -⟩
        · simp at hx
        · rw [Multiset.mem_singleton] at hx; subst hx
          have hb2 : bag [] t' = {⟨q, nm2, none, false, false⟩} + (bag [] t + {⟨p, nm, v, false, false⟩}) := by rw [hb']; abel
          have hne : ¬ SameName nm2 (ls ++ [[]]) := fun e1 => h'.other hb2 (x := ⟨p, nm, v, false, false⟩) (by simp) (hnm.trans e1.symm)
          have hnew : ∀ x ∈ t.nodes [], ¬ SameName x.name nm2 := fun x hx => h'.other hb2 (Multiset.mem_add.2 (.inl hx))
          have h1 : lowerName ks ≠ lowerName ls := fun e1 => hne (hs.trans (same_root.2 e1))
          simp only [h1, if_false]
          cases hm : M (lowerName ks) with
          | none => rfl
          | some w =>
            obtain ⟨x, hx, hs'⟩ := hM.2 ks w hm
            exact absurd (hs'.trans hs.symm) (hnew x hx)
    · by_cases h1 : lowerName ks = lowerName ls
      · exact ⟨_, (hmem _).2 (.inr (.inl rfl)), hnm.trans (same_root.2 h1.symm)⟩
      · simp only [h1, if_false] at hw
        obtain ⟨x, hx, hs⟩ := hM.2 ks w hw
        exact ⟨x, (hmem x).2 (.inl hx), hs⟩

theorem agrees_removed (h : InvA A s t δ) {e : Entry T} {ls : List Label} (hse : SameName e.name (ls ++ [[]])) (hr : Removed t t' e) {M : List Label → Option T}
    (hM : Agrees t M) : e.value = M (lowerName ls) ∧ Agrees t' (fun k => if k = lowerName ls then none else M k) := by
  obtain ⟨R, dead, hb, hb', hd, -⟩ := hr
  have hin : e ∈ t.nodes [] := (mem_of_bag hb).2 (.inl rfl)
  have hmem : ∀ x ∈ t'.nodes [], x = { e with value := none } ∨ x ∈ R := by
    intro x hx
    have h1 : x ∈ bag [] t' + dead := Multiset.mem_add.2 (.inl hx)
    rw [← hb', Multiset.mem_add, Multiset.mem_singleton] at h1
    exact h1
  refine ⟨hM.1 e hin ls hse, fun x hx ks hs => ?_, fun ks w hw => ?_⟩
  · rcases hmem x hx with rfl | hx
    · have : lowerName ks = lowerName ls := same_root.1 (hs.symm.trans hse)
      simp [this]
    · have h1 : lowerName ks ≠ lowerName ls := fun e1 => h.other hb hx (hs.trans ((same_root.2 e1).trans hse.symm))
      simp only [h1, if_false]
      exact hM.1 x ((mem_of_bag hb).2 (.inr hx)) ks hs
  · by_cases h1 : lowerName ks = lowerName ls
    · simp [h1] at hw
    · simp only [h1, if_false] at hw
      obtain ⟨x, hx, hs⟩ := hM.2 ks w hw
      have hx' : x ∈ R := by
        rcases (mem_of_bag hb).1 hx with rfl | hx
        · exact absurd (same_root.1 (hs.symm.trans hse)) h1
        · exact hx
      have h2 : x ∈ bag [] t' + dead := by rw [← hb']; exact Multiset.mem_add.2 (.inr hx')
      rcases Multiset.mem_add.1 h2 with h2 | h2
      · exact ⟨x, h2, hs⟩
      · have := hd x h2
        rw [hM.1 x hx ks hs, hw] at this; cases this

/-- one node changed without its name and value -/
theorem agrees_swap {e e' : Entry T} {R : Multiset (Entry T)} (hb : bag [] t = {e} + R) (hb' : bag [] t' = {e'} + R) (hn : e'.name = e.name) (hv : e'.value = e.value)
    {M : List Label → Option T} (hM : Agrees t M) : Agrees t' M := by
  refine ⟨fun x hx ks hs => ?_, fun ks w hw => ?_⟩
  · rcases (mem_of_bag hb').1 hx with rfl | hx
    · rw [hv]; exact hM.1 e ((mem_of_bag hb).2 (.inl rfl)) ks (by rw [← hn]; exact hs)
    · exact hM.1 x ((mem_of_bag hb).2 (.inr hx)) ks hs
  · obtain ⟨x, hx, hs⟩ := hM.2 ks w hw
    rcases (mem_of_bag hb).1 hx with rfl | hx
    · exact ⟨e', (mem_of_bag hb').2 (.inl rfl), by rw [hn]; exact hs⟩
    · exact ⟨x, (mem_of_bag hb').2 (.inr hx), hs⟩

/-- what `find` answers -/
inductive Found (t : Tr T) (tgt : List Label) : FindResult → Prop where
  | exact (e : Entry T) (mem : e ∈ t.nodes []) (same : SameName tgt e.name) : Found t tgt ⟨e.addr, .ExactMatch⟩
  | closest (e : Entry T) (mem : e ∈ t.nodes []) (sub : IsSubdomain tgt e.name) (no : ∀ x ∈ t.nodes [], ¬ SameName tgt x.name)
      (deep : ∀ x ∈ t.nodes [], IsSubdomain tgt x.name → IsSubdomain e.name x.name) : Found t tgt ⟨e.addr, .PartialMatch⟩
  | none (no : ∀ x ∈ t.nodes [], ¬ IsSubdomain tgt x.name) : Found t tgt ⟨0, .NotFound⟩

theorem sub_of_longer {a b c : List Label} (h1 : IsSubdomain a b) (h2 : IsSubdomain a c) (hl : c.length ≤ b.length) : IsSubdomain b c := by
  unfold IsSubdomain at *
  exact List.suffix_of_suffix_length_le h2 h1 (by rw [Name.lowerName_length, Name.lowerName_length]; exact hl)

theorem find_found_any (hA : Kind.OK A m) (h : InvA A s t δ) {ls : List Label} (hv : ValidName ls) (ha : Kind.Fits A m ls) :
    (∃ r, s.find m (Name.ofLabels ls) = .ok r ∧ Found t (ls ++ [[]]) r) ∨ A = none ∧ m = .debug ∧ s.find m (Name.ofLabels ls) = .panic := by
  rcases find_answer_any (P := Unit) (m := m) (cb := none) hA h hv ha (c := .new) rfl () with ⟨r, c, p, hfe, hans, -⟩ | ⟨hfe, hx⟩
  case inr =>
    rcases hx with hx | ⟨h1, h2⟩
    · exact absurd rfl hx.1
    · refine .inr ⟨h1, h2, ?_⟩
      unfold find find_node
      simp only [hfe, Res.bind_panic]
  refine .inl ⟨r, ?_, ?_⟩
  · unfold find find_node
    simp only [hfe, Res.bind_ok, Res.pure_eq]
  · clear hfe
    generalize c.nodes = ch at hans
    cases hans with
    | stopped L1 e L2 all cbs => rw [callbacks_none] at cbs; cases cbs
    | exact L e all mem same cbs => exact .exact e mem same
    | closest L e all no cbs =>
      have h1 := (all.mem e).1 (by simp)
      refine .closest e h1.1 h1.2.1 no fun x hx hs => ?_
      have h2 : x ∈ L ++ [e] := (all.mem x).2 ⟨hx, hs, no x hx⟩
      refine sub_of_longer h1.2.1 hs ?_
      rcases List.mem_append.1 h2 with h2 | h2
      · have := List.pairwise_append.1 all.sorted
        exact Nat.le_of_lt (this.2.2 x h2 e (by simp))
      · simp only [List.mem_singleton] at h2; rw [h2]
    | notFound no => exact .none no

theorem find_found_kind (hA : A ≠ none) (h : InvA A s t δ) {ls : List Label} (hv : ValidName ls) (ha : Kind.Fits A m ls) :
    ∃ r, s.find m (Name.ofLabels ls) = .ok r ∧ Found t (ls ++ [[]]) r := by
  rcases find_found_any (m := m) (.inl hA) h hv ha with h1 | ⟨h1, -⟩
  · exact h1
  · exact absurd h1 hA

theorem find_found (h : Inv s t δ) {ls : List Label} (hv : ValidName ls) (ha : Name.Ascii ls) : ∃ r, s.find m (Name.ofLabels ls) = .ok r ∧ Found t (ls ++ [[]]) r := by
  rcases find_found_any (m := m) (asciiKind_ok _) h hv (.inl (asciiKind_iff.2 ha)) with h1 | ⟨h1, -⟩
  · exact h1
  · cases h1

end
end Dom
end R53
