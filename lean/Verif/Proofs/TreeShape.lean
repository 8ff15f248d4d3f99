import Verif.Proofs.TreeRun
/-!
# The tree in memory, and the height of levels
-/
namespace R53
namespace Dom
variable {T : Type}

section
variable {s : Dom T} {t : Tr T} {δ : Nat} {rt : Ptr} {g : Nat × Nat}

theorem Hold.layout {M : Multiset (Cell T)} : ∀ {t : Tr T} {par : Ptr} {sub : Bool}, (∀ c ∈ cells par sub t, c.1 ≠ 0 ∧ s.heap c.1 = some c.2) → Layout s par sub t := by
  intro t
  induction t with
  | nil => intro _ _ _; trivial
  | node i l d r ihl ihd ihr =>
    intro par sub h
    simp only [cells, Multiset.mem_add, Multiset.mem_singleton] at h
    have h0 := h _ (.inl (.inl (.inl rfl)))
    exact ⟨h0.1, h0.2, ihl fun c hc => h c (.inl (.inr hc)), ihd fun c hc => h c (.inl (.inl (.inr hc))), ihr fun c hc => h c (.inr hc)⟩

theorem cells_addrs (suf : List Label) (par : Ptr) (sub : Bool) (t : Tr T) : (cells par sub t).map Prod.fst = (bag suf t).map Entry.addr := by
  induction t generalizing suf par sub with
  | nil => rfl
  | node i l d r ihl ihd ihr =>
    rw [cells, bag_node]
    simp only [Multiset.map_add, Multiset.map_singleton, ihl suf, ihr suf, ihd (i.labels ++ suf)]
    rfl

theorem InvA.represents {A : Kind} (h : InvA A s t δ) : Represents s t := by
  have h0 : Hold s t.ptr (s.next, s.len) (cells 0 true t) :=
    Eq.mp (congrArg (Hold s t.ptr _) (by simp [slotOf, Slot.cells, cellsU, cellsL, lptr, Slot.up])) (Z.hold h.mem)
  refine ⟨h0.root, Hold.layout (M := 0) fun c hc => ⟨(h0.bound c hc).1, h0.cell c hc⟩, ?_⟩
  have := h0.nodup
  rw [cells_addrs []] at this
  exact Multiset.coe_nodup.1 this

end
end Dom

namespace Tr
variable {T : Type}

theorem RB.tall {t : Tr T} : ∀ {n : Nat}, t.RB n → t.height ≤ 2 * n + (if t.isRed then 1 else 0) ∧ 2 ^ n ≤ t.ents.length + 1 := by
  induction t with
  | nil => intro n h; simp only [RB] at h; subst h; simp [height, ents]
  | node i l d r ihl _ ihr =>
    intro n h
    simp only [RB] at h
    rcases h with ⟨hr, hl1, hr1, h1, h2⟩ | ⟨hb, k, rfl, h1, h2⟩
    · have a := ihl h1
      have b := ihr h2
      rw [hl1] at a; rw [hr1] at b
      simp only [height, ents, isRed, hr, List.length_append, List.length_cons] at a b ⊢
      constructor
      · simp at a b ⊢; omega
      · omega
    · have a := ihl h1
      have b := ihr h2
      have a1 : l.height ≤ 2 * k + 1 := by split at a <;> omega
      have b1 : r.height ≤ 2 * k + 1 := by split at b <;> omega
      simp only [height, ents, isRed, hb, List.length_append, List.length_cons]
      constructor
      · simp; omega
      · rw [Nat.pow_succ]; omega

/-- the height of a level is logarithmic -/
theorem SLevel.tall {t : Tr T} (h : t.SLevel) : t.height ≤ 2 * Nat.log2 (t.ents.length + 1) := by
  obtain ⟨⟨n, hn⟩, hr, -⟩ := h
  have h1 := hn.tall
  rw [hr] at h1
  have : n ≤ Nat.log2 (t.ents.length + 1) := (Nat.le_log2 (by omega)).2 h1.2
  have h2 := h1.1
  simp at h2
  omega

theorem SGood.lower {t : Tr T} (h : t.SGood) : ∀ x ∈ t.lower, x.SLevel := by
  induction t with
  | nil => intro x hx; simp [Tr.lower] at hx
  | node i l d r ihl ihd ihr =>
    obtain ⟨-, h1, h2, h3, h4⟩ := h
    intro x hx
    simp only [Tr.lower, List.mem_append, List.mem_cons] at hx
    rcases hx with (hx | rfl | hx) | hx
    · exact ihl h1 x hx
    · exact h3
    · exact ihd h4 x hx
    · exact ihr h2 x hx

end Tr

namespace Dom
variable {T : Type}

theorem ascii_ents {suf : List Label} {t : Tr T} (h : ∀ e ∈ bag suf t, ∀ l ∈ e.name, LabelSlice.AsciiLabel l) :
    (∀ y ∈ t.ents, ∀ l ∈ y.1.labels, LabelSlice.AsciiLabel l) ∧ ∀ x ∈ t.lower, ∀ y ∈ x.ents, ∀ l ∈ y.1.labels, LabelSlice.AsciiLabel l := by
  induction t generalizing suf with
  | nil => simp [Tr.ents, Tr.lower]
  | node i l d r ihl ihd ihr =>
    have hl := ihl (suf := suf) fun e he => h e (by rw [bag_node]; simp [he])
    have hd := ihd (suf := i.labels ++ suf) fun e he => h e (by rw [bag_node]; simp [he])
    have hr := ihr (suf := suf) fun e he => h e (by rw [bag_node]; simp [he])
    have hi := h (i.entry suf) (by rw [bag_node]; simp)
    refine ⟨fun y hy => ?_, fun x hx => ?_⟩
    · simp only [Tr.ents, List.mem_append, List.mem_cons] at hy
      rcases hy with hy | rfl | hy
      · exact hl.1 y hy
      · exact fun l hl => hi l (by simp [Info.entry, hl])
      · exact hr.1 y hy
    · simp only [Tr.lower, List.mem_append, List.mem_cons] at hx
      rcases hx with (hx | rfl | hx) | hx
      · exact hl.2 x hx
      · exact hd.1
      · exact hd.2 x hx
      · exact hr.2 x hx

theorem SLevel.level {t : Tr T} (h : t.SLevel) (ha : ∀ y ∈ t.ents, ∀ l ∈ y.1.labels, LabelSlice.AsciiLabel l) : t.Level := by
  refine ⟨h.1, h.2.1, h.2.2.imp_of_mem fun {a b} hma hmb hab => ?_⟩
  have h1 : ∀ a ∈ t.ents.map fun e => lastL e.1.labels, LabelSlice.AsciiLabel a := by
    intro a ha'
    obtain ⟨e, he, rfl⟩ := List.mem_map.1 ha'
    rcases Decidable.em (e.1.labels = []) with h0 | h0
    · rw [h0]; intro c hc; simp [lastL] at hc
    · exact ha e he _ (lastL_mem h0)
  rw [← cmpSigned_ascii a b (h1 a hma) (h1 b hmb)]; exact hab

theorem Inv.level {s : Dom T} {t : Tr T} {δ : Nat} (h : Inv s t δ) : ∀ x ∈ t.levels, x.Level := by
  have ha := ascii_ents (suf := []) (t := t) fun e he l hl => by
    obtain ⟨ls, -, h1, h2⟩ := h.names e he
    rw [h2] at hl
    rcases List.mem_append.1 hl with hl | hl
    · exact fun c hc => asciiKind_iff.1 h1 l hl c hc
    · simp only [List.mem_singleton] at hl; subst hl; intro c hc; simp at hc
  intro x hx
  rcases List.mem_cons.1 hx with rfl | hx
  · exact SLevel.level h.ok.1 ha.1
  · exact SLevel.level (h.ok.2.lower x hx) (ha.2 x hx)

end Dom
end R53
