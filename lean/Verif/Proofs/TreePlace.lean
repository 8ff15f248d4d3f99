import Verif.Proofs.TreeSem
/-!
# How the nodes of a tree lie to each other
-/
namespace R53
namespace Dom
variable {T : Type}

/-- two names that end alike with `s` and differ before it -/
def Apart (a b s : List Label) : Prop :=
  ∃ p q, a = p ++ s ∧ b = q ++ s ∧ p ≠ [] ∧ q ≠ [] ∧ lowerLabel (lastL p) ≠ lowerLabel (lastL q)

theorem Apart.symm {a b s : List Label} (h : Apart a b s) : Apart b a s := by
  obtain ⟨p, q, e1, e2, hp, hq, hl⟩ := h
  exact ⟨q, p, e2, e1, hq, hp, fun e => hl e.symm⟩

theorem Apart.longer {a b s : List Label} (h : Apart a b s) (x : List Label) : Apart a (x ++ b) s := by
  obtain ⟨p, q, e1, e2, hp, hq, hl⟩ := h
  exact ⟨p, x ++ q, e1, by rw [e2]; simp, hp, by simp [hq], by rw [lastL_append hq]; exact hl⟩

theorem Apart.left {a b s : List Label} (h : Apart a b s) : s <:+ a := by
  obtain ⟨p, q, e1, -⟩ := h; exact ⟨p, e1.symm⟩
theorem Apart.right {a b s : List Label} (h : Apart a b s) : s <:+ b := by
  obtain ⟨p, q, -, e1, -⟩ := h; exact ⟨q, e1.symm⟩

/-- the names above both are those above `s` -/
theorem Apart.common {a b s : List Label} (h : Apart a b s) {j : List Label} (h1 : IsSubdomain a j) (h2 : IsSubdomain b j) : IsSubdomain s j := by
  obtain ⟨p, q, rfl, rfl, hp, hq, hl⟩ := h
  by_cases hj : j.length ≤ s.length
  · unfold IsSubdomain at *
    refine List.suffix_of_suffix_length_le h1 ?_ (by rw [Name.lowerName_length, Name.lowerName_length]; exact hj)
    rw [Name.lowerName_append]; exact List.suffix_append _ _
  · exfalso
    refine hl ?_
    have key : ∀ p : List Label, IsSubdomain (p ++ s) j → IsSubdomain p (j.take (j.length - s.length)) ∧ lowerName (j.drop (j.length - s.length)) = lowerName s := by
      intro p h1
      obtain ⟨w, hw⟩ := h1
      have e0 : lowerName j = lowerName (j.take (j.length - s.length)) ++ lowerName (j.drop (j.length - s.length)) := by
        rw [← Name.lowerName_append, List.take_append_drop]
      rw [e0, Name.lowerName_append, ← List.append_assoc] at hw
      obtain ⟨e1, e2⟩ := List.append_inj' hw (by rw [Name.lowerName_length, Name.lowerName_length, List.length_drop]; omega)
      exact ⟨⟨w, e1⟩, e2⟩
    have hne : j.take (j.length - s.length) ≠ [] := by
      intro e
      have := congrArg List.length e
      simp only [List.length_take, List.length_nil] at this; omega
    rw [sub_last (key p h1).1 hne, sub_last (key q h2).1 hne]

theorem Apart.not_sub {a b s : List Label} (h : Apart a b s) : ¬ IsSubdomain a b := by
  intro h1
  have h2 := h.common h1 (List.suffix_refl _ : IsSubdomain b b)
  obtain ⟨p, q, rfl, rfl, hp, hq, hl⟩ := h
  have := sub_length h2
  have := List.length_pos_iff.2 hq
  simp only [List.length_append] at *; omega

/-- the nodes beside a node in its level -/
theorem level_beside {i : Info T} {l d r : Tr T} {lc : List (LF T)} (h : OK (plug (.node i l d r) lc)) {e : Info T × Tr T}
    (he : e ∈ l.ents ++ r.ents ++ (entsL lc ++ entsR lc)) : e.1.labels ≠ [] ∧ lowerLabel (lastL e.1.labels) ≠ lowerLabel (lastL i.labels) := by
  have h2 := h.2
  rw [Tr.SGood_iff, plug_ents] at h2
  have h3 := h.1.2.2
  rw [plug_ents] at h3
  simp only [Tr.ents, List.map_append, List.map_cons, List.pairwise_append, List.pairwise_cons, List.mem_append, List.mem_cons] at h3
  obtain ⟨⟨h31, ⟨h32, ⟨h33, h34⟩, h35⟩, h36⟩, h37, h38⟩ := h3
  refine ⟨(h2 e ?_).1, ?_⟩
  · simp only [Tr.ents, List.mem_append, List.mem_cons] at he ⊢
    rcases he with (he | he) | (he | he) <;> simp [he]
  · simp only [List.mem_append] at he
    rcases he with (he | he) | (he | he)
    · exact cmp_ne (.inl (h35 _ (List.mem_map_of_mem he) _ (.inl rfl)))
    · exact (cmp_ne (.inl (h33 _ (List.mem_map_of_mem he)))).symm
    · exact cmp_ne (.inl (h36 _ (List.mem_map_of_mem he) _ (.inr (.inl rfl))))
    · exact (cmp_ne (.inl (h38 _ (.inr (.inr (.inl rfl))) _ (List.mem_map_of_mem he)))).symm

/-- a name is that of a node above, or there is nothing above -/
def Over (rest : List (UF T)) (s : List Label) : Prop := s = [] ∨ ∃ e ∈ path rest, e.name = s

theorem Over.suf (rest : List (UF T)) : Over rest (sufU rest) := by
  cases rest with
  | nil => exact .inl rfl
  | cons u rest => exact .inr ⟨u.i.entry (sufU rest), by simp [path], rfl⟩

theorem Over.deeper {u : UF T} {rest : List (UF T)} {s : List Label} (h : Over rest s) : Over (u :: rest) s := by
  rcases h with h | ⟨e, he, hs⟩
  · exact .inl h
  · exact .inr ⟨e, by simp [path, he], hs⟩

/-- nodes under neighbours -/
theorem beside_apart {i : Info T} {l d r : Tr T} {lc : List (LF T)} (h : OK (plug (.node i l d r) lc)) {suf : List Label} {e : Entry T}
    (he : e ∈ bagE suf (l.ents ++ r.ents ++ (entsL lc ++ entsR lc))) : Apart e.name (i.labels ++ suf) suf := by
  obtain ⟨e1, he1, x, ex⟩ := mem_bagE he
  obtain ⟨h1, h2⟩ := level_beside h he1
  exact ⟨x ++ e1.1.labels, i.labels, by rw [ex]; simp, rfl, by simp [h1], (OK_node h).1, by rw [lastL_append h1]; exact h2⟩

/-- the nodes outside a level: those above, and others -/
theorem bagU_cases {rest : List (UF T)} : ∀ {t : Tr T}, OK (plugU t rest) → ∀ {e : Entry T}, e ∈ bagU rest → e ∈ path rest ∨ ∃ s, Apart e.name (sufU rest) s ∧ Over rest s := by
  induction rest with
  | nil => intro t _ e he; simp [bagU] at he
  | cons u rest ih =>
    intro t h e he
    have hlev := (OK_plugU (rest := rest) h).1
    simp only [bagU, Multiset.mem_add, Multiset.mem_singleton] at he
    rcases he with (rfl | he) | he
    · exact .inl (by simp [path])
    · exact .inr ⟨sufU rest, beside_apart hlev he, (Over.suf rest).deeper⟩
    · rcases ih (t := plug (.node u.i u.l t u.r) u.lc) h he with h1 | ⟨s, h1, h2⟩
      · exact .inl (by simp [path, h1])
      · exact .inr ⟨s, h1.longer _, h2.deeper⟩

/-- how a node lies to the node at a place -/
theorem place_cases {i : Info T} {l d r : Tr T} {lc : List (LF T)} {rest : List (UF T)} (h : OK (plugU (plug (.node i l d r) lc) rest)) {e : Entry T}
    (he : e ∈ bag [] (plugU (plug (.node i l d r) lc) rest)) :
    e = i.entry (sufU rest) ∨ e ∈ bag (i.labels ++ sufU rest) d ∨ e ∈ path rest ∨ ∃ s, Apart e.name (i.labels ++ sufU rest) s ∧ Over rest s := by
  have hlev := (OK_plugU h).1
  rw [bag_whole, bag_node] at he
  have hbe : ∀ {x : Entry T}, x ∈ bag (sufU rest) l ∨ x ∈ bag (sufU rest) r ∨ x ∈ bagE (sufU rest) (entsL lc ++ entsR lc) →
      x ∈ bagE (sufU rest) (l.ents ++ r.ents ++ (entsL lc ++ entsR lc)) := by
    intro x hx
    rw [bagE_append, bagE_append, ← bag_ents, ← bag_ents]
    simp only [Multiset.mem_add]
    rcases hx with hx | hx | hx
    · exact .inl (.inl hx)
    · exact .inl (.inr hx)
    · exact .inr hx
  simp only [Multiset.mem_add, Multiset.mem_singleton] at he
  rcases he with ((((he | he) | he) | he) | he) | he
  · exact .inl he
  · exact .inr (.inl he)
  · exact .inr (.inr (.inr ⟨_, beside_apart hlev (hbe (.inl he)), Over.suf rest⟩))
  · exact .inr (.inr (.inr ⟨_, beside_apart hlev (hbe (.inr (.inl he))), Over.suf rest⟩))
  · exact .inr (.inr (.inr ⟨_, beside_apart hlev (hbe (.inr (.inr he))), Over.suf rest⟩))
  · rcases bagU_cases h he with h1 | ⟨s, h1, h2⟩
    · exact .inr (.inr (.inl h1))
    · exact .inr (.inr (.inr ⟨s, h1.longer _, h2⟩))

/-- names in a level below are longer -/
theorem below_longer {suf : List Label} {t : Tr T} (h : t.SGood) {e : Entry T} (he : e ∈ bag suf t) : suf.length < e.name.length := by
  rw [bag_ents] at he
  obtain ⟨e1, he1, x, ex⟩ := mem_bagE he
  have := List.length_pos_iff.2 ((Tr.SGood_iff t).1 h e1 he1).1
  rw [ex]; simp only [List.length_append]; omega

section
variable {i : Info T} {l d r : Tr T} {lc : List (LF T)} {rest : List (UF T)} {e : Entry T}

theorem path_shorter (h : OK (plugU (plug (.node i l d r) lc) rest)) (he : e ∈ path rest) : e.name.length < (i.labels ++ sufU rest).length := by
  have h1 := (path_sub he).length_le
  have h2 := List.length_pos_iff.2 (OK_node (OK_plugU h).1).1
  simp only [List.length_append]; omega

/-- the nodes at and below a node -/
theorem place_below (h : OK (plugU (plug (.node i l d r) lc) rest)) (he : e ∈ bag [] (plugU (plug (.node i l d r) lc) rest))
    (hs : IsSubdomain e.name (i.labels ++ sufU rest)) : e = i.entry (sufU rest) ∨ e ∈ bag (i.labels ++ sufU rest) d := by
  rcases place_cases h he with h1 | h1 | h1 | ⟨s, h1, -⟩
  · exact .inl h1
  · exact .inr h1
  · have := sub_length hs
    have := path_shorter h h1
    omega
  · exact absurd hs h1.not_sub

/-- the nodes at and above a node -/
theorem place_above (h : OK (plugU (plug (.node i l d r) lc) rest)) (he : e ∈ bag [] (plugU (plug (.node i l d r) lc) rest))
    (hs : IsSubdomain (i.labels ++ sufU rest) e.name) : e = i.entry (sufU rest) ∨ e ∈ path rest := by
  rcases place_cases h he with h1 | h1 | h1 | ⟨s, h1, -⟩
  · exact .inl h1
  · have := sub_length hs
    have := below_longer (OK_node (OK_plugU h).1).2.2 h1
    omega
  · exact .inr h1
  · exact absurd hs h1.symm.not_sub

end

/-- the nodes of a tree seen from an empty place: none lies below -/
theorem At.none_below {tgt as : List Label} {rest : List (UF T)} {lc : List (LF T)} (h : At tgt as rest lc .nil) {e : Entry T}
    (he : e ∈ bag [] (plugU (plug .nil lc) rest)) : ¬ IsSubdomain e.name tgt := by
  intro hs
  rw [sub_congr rfl h.name] at hs
  rw [bag_whole, bag_nil, zero_add, Multiset.mem_add] at he
  rcases he with he | he
  · obtain ⟨e1, he1, x, ex⟩ := mem_bagE he
    have h1 := h.level
    have h2 := h1.2
    rw [Tr.SGood_iff, plug_ents] at h2
    have h3 := h1.1.2.2
    rw [plug_ents] at h3
    have h4 := pos_sides h.pos h3
    have h6 : e1.1.labels ≠ [] ∧ lowerLabel (lastL e1.1.labels) ≠ lowerLabel (lastL as) := by
      rcases List.mem_append.1 he1 with h5 | h5
      · exact ⟨(h2 e1 (by simp [h5])).1, cmp_ne (.inl (h4.1 _ (List.mem_map_of_mem h5)))⟩
      · exact ⟨(h2 e1 (by simp [h5])).1, (cmp_ne (.inl (h4.2 _ (List.mem_map_of_mem h5)))).symm⟩
    have : Apart e.name (as ++ sufU rest) (sufU rest) := ⟨x ++ e1.1.labels, as, by rw [ex]; simp, rfl, by simp [h6.1], h.ne, by rw [lastL_append h6.1]; exact h6.2⟩
    exact this.not_sub hs
  · rcases bagU_cases h.ok he with h1 | ⟨s, h1, -⟩
    · have := (path_sub h1).length_le
      have := sub_length hs
      have := List.length_pos_iff.2 h.ne
      simp only [List.length_append] at *; omega
    · exact (h1.longer as).not_sub hs

end Dom
end R53
