import Verif.Proofs.TreeName
/-!
# One step of the search, without order
-/
namespace R53

/-- the order of labels cannot be computed wrongly with a panic: a release build, or ASCII labels -/
def Calm (m : Build) (ls : List Label) : Prop := m = .release ∨ Name.Ascii ls

theorem Calm.sub {m : Build} {a b : List Label} (h : Calm m b) (hs : ∀ l ∈ a, l ∈ b) : Calm m a := by
  rcases h with h | h
  · exact .inl h
  · exact .inr fun l hl => h l (hs l hl)

namespace Dom
namespace Free
/-- how the rest of a name `as` lies to the labels `bs` of a node -/
inductive Step (as bs : List Label) (c : NameComparisonResult) : Prop where
  | equal (h : c.relation = .Equal) (e : lowerName as = lowerName bs)
  | none (h : c.relation = .None) (e : lowerLabel (lastL as) ≠ lowerLabel (lastL bs))
  | sub (a1 a2 : List Label) (h : c.relation = .SubDomain) (hc : c.common_label_count = bs.length) (e : as = a1 ++ a2) (h1 : a1 ≠ [])
      (h2 : lowerName a2 = lowerName bs)
  | split (a1 a2 b1 b2 : List Label) (h : c.relation = .SuperDomain ∧ a1 = [] ∨ c.relation = .CommonAncestor ∧ a1 ≠ []) (e : as = a1 ++ a2)
      (e' : bs = b1 ++ b2) (h1 : b1 ≠ []) (h2 : b2 ≠ []) (hc : c.common_label_count = b2.length) (h3 : lowerName a2 = lowerName b2)
      (h4 : a1 ≠ [] → lowerLabel (lastL a1) ≠ lowerLabel (lastL b1))

theorem step_cases (m : Build) {as bs : List Label} (h1 : as ≠ []) (h2 : bs ≠ []) (hla : as.length ≤ 128) (hlb : bs.length ≤ 128)
    (h63a : ∀ l ∈ as, l.length ≤ 63) (h63b : ∀ l ∈ bs, l.length ≤ 63) (haa : Calm m as) (hab : Calm m bs) :
    ∃ c, LabelSlice.relSpec m as.reverse bs.reverse 0 = .ok c ∧ Step as bs c := by
  have h1' : as.reverse ≠ [] := by simpa using h1
  have h2' : bs.reverse ≠ [] := by simpa using h2
  obtain ⟨r2, hr2, hcom, hrel, -⟩ := LabelSlice.relSpec_release as.reverse bs.reverse 0 (by simpa) (by simpa) (.inl ⟨h1', h2'⟩) (by simpa) (by simpa)
  have hr : LabelSlice.relSpec m as.reverse bs.reverse 0 = .ok r2 := by
    by_cases hm : m = .release
    · rw [hm]; exact hr2
    · have haa := haa.resolve_left hm
      have hab := hab.resolve_left hm
      rw [(LabelSlice.relSpec_ascii m as.reverse bs.reverse 0 (by simpa) (by simpa) (.inl ⟨h1', h2'⟩) (by simpa) (by simpa)
        (by intro l hl; exact haa l (by simpa using hl)) (by intro l hl; exact hab l (by simpa using hl))).1]
      exact hr2
  refine ⟨r2, hr, ?_⟩
  obtain ⟨p, x, p', y, ea, eb, epp, hlen, hxy⟩ := commonMSF_split as.reverse bs.reverse
  rw [← hlen] at hcom hrel
  have hpp := lowerName_ne epp
  have ea' : as = x.reverse ++ p.reverse := by rw [← List.reverse_append, ← ea]; simp
  have eb' : bs = y.reverse ++ p'.reverse := by rw [← List.reverse_append, ← eb]; simp
  have la : as.length = x.length + p.length := by rw [ea']; simp
  have lb : bs.length = y.length + p'.length := by rw [eb']; simp
  have hcom2 : r2.common_label_count = p.length := by rw [hcom]; simp; omega
  have hlow : lowerName p.reverse = lowerName p'.reverse := by
    rw [lowerName_reverse, lowerName_reverse, epp]
  simp only [List.length_reverse, Nat.zero_add] at hrel
  by_cases hx : x = []
  · by_cases hy : y = []
    · subst hx hy
      refine .equal ?_ ?_
      · rw [hrel, if_pos (.inl (by simp [la])), LabelSlice.relationOf, if_pos ⟨by simp [la], by simp [lb, hpp]⟩]
      · rw [ea', eb']; simpa using hlow
    · subst hx
      refine .split [] p.reverse y.reverse p'.reverse (.inl ⟨?_, rfl⟩) (by simpa using ea') eb' (by simpa) ?_ ?_ hlow (fun e => absurd rfl e)
      · rw [hrel, if_pos (.inl (by simp [la])), LabelSlice.relationOf, if_neg, if_pos (by simp [la])]
        intro ⟨_, e⟩
        have : y.length = 0 := by omega
        exact hy (List.length_eq_zero_iff.1 this)
      · intro e
        have : p'.length = 0 := by simpa using e
        have : as.length = 0 := by rw [la, hpp, this]; rfl
        exact h1 (List.length_eq_zero_iff.1 this)
      · rw [hcom2]; simp [hpp]
  · by_cases hy : y = []
    · subst hy
      refine .sub x.reverse p.reverse ?_ ?_ ea' (by simpa) ?_
      · have hxl : x.length ≠ 0 := fun e => hx (List.length_eq_zero_iff.1 e)
        rw [hrel, if_pos (.inr (by simp [lb, hpp])), LabelSlice.relationOf, if_neg (by omega), if_neg (by omega), if_pos (by simp [lb, hpp])]
      · rw [hcom2]; simp [lb, hpp]
      · rw [eb']; simpa using hlow
    · have hxl : x.length ≠ 0 := fun e => hx (List.length_eq_zero_iff.1 e)
      have hyl : y.length ≠ 0 := fun e => hy (List.length_eq_zero_iff.1 e)
      have hd : lowerLabel (x.headD []) ≠ lowerLabel (y.headD []) := by
        rcases hxy with h | h | h
        · exact absurd h hx
        · exact absurd h hy
        · exact h
      rw [if_neg (by omega)] at hrel
      by_cases hp : p = []
      · subst hp
        have hp' : p' = [] := List.length_eq_zero_iff.1 (by simpa using hpp.symm)
        subst hp'
        refine .none (by rw [hrel]; simp) ?_
        have el : lastL as = x.headD [] := by rw [lastL_rev, ea]; rfl
        have el' : lastL bs = y.headD [] := by rw [lastL_rev, eb]; rfl
        rw [el, el']; exact hd
      · have hpl : p.length ≠ 0 := fun e => hp (List.length_eq_zero_iff.1 e)
        refine .split x.reverse p.reverse y.reverse p'.reverse (.inr ⟨?_, by simpa⟩) ea' eb' (by simpa) ?_ (by rw [hcom2]; simp [hpp]) hlow ?_
        · rw [hrel, if_neg hpl]
        · intro e
          have : p'.length = 0 := by simpa using e
          omega
        · intro _
          rw [lastL_rev, lastL_rev]
          simpa using hd

end Free
end Dom
end R53
