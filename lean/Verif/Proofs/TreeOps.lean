import Verif.Proofs.TreeFind
/-!
# Flags, clearing, cloning; the tree as a map
-/
namespace R53
namespace Dom
variable {T P : Type}

section
variable {m : Build} {A : Kind} {s : Dom T} {g : Nat × Nat} {lc : List (LF T)} {t : Tr T} {i : Info T} {l d r : Tr T} {rest : List (UF T)} {δ : Nat}

theorem place_of_mem {e : Entry T} (t : Tr T) : ∀ (rest : List (UF T)) (lc : List (LF T)), e ∈ bag (sufU rest) t →
    ∃ rest' lc' i l d r, plugU (plug (.node i l d r) lc') rest' = plugU (plug t lc) rest ∧ i.entry (sufU rest') = e := by
  induction t with
  | nil => intro _ _ h; simp at h
  | node i l d r ihl ihd ihr =>
    intro rest lc h
    rw [bag_node] at h
    simp only [Multiset.mem_add, Multiset.mem_singleton] at h
    rcases h with ((rfl | h) | h) | h
    · exact ⟨rest, lc, i, l, d, r, rfl, rfl⟩
    · exact ihd (⟨i, l, r, lc⟩ :: rest) [] h
    · exact ihl rest (.L i d r :: lc) h
    · exact ihr rest (.R i l d :: lc) h

theorem InvA.place (h : InvA A s t δ) {e : Entry T} (he : e ∈ t.nodes []) :
    ∃ rest lc i l d r, W s (s.next, s.len) rest lc (.node i l d r) ∧ t = plugU (plug (.node i l d r) lc) rest ∧ i.entry (sufU rest) = e := by
  obtain ⟨rest, lc, i, l, d, r, e1, e2⟩ := place_of_mem t [] [] he
  refine ⟨rest, lc, i, l, d, r, W.top.2 ?_, e1.symm, e2⟩
  rw [e1]; exact h.mem

theorem InvA.no_dup (h : InvA A s t δ) {a b : Entry T} (ha : a ∈ t.nodes []) (hb : b ∈ t.nodes []) (hs : SameName a.name b.name) : a = b :=
  Multiset.inj_on_of_nodup_map (nodup_names [] h.ok.2 h.ok.1.2.2) a ha b hb hs

/-- a change of value and user flags of one node -/
theorem InvA.swap (h : InvA A s t δ) {s' : Dom T} (i' : Info T) (hw : W s (s.next, s.len) rest lc (.node i l d r)) (ht : t = plugU (plug (.node i l d r) lc) rest)
    (hw' : W s' (s.next, s.len) rest lc (.node i' l d r)) (hlab : i'.labels = i.labels) (hred : i'.red = i.red) :
    ∃ R, bag [] t = {i.entry (sufU rest)} + R ∧ bag [] (plugU (plug (.node i' l d r) lc) rest) = {i'.entry (sufU rest)} + R ∧
      InvA A s' (plugU (plug (.node i' l d r) lc) rest) δ := by
  subst ht
  have oklev := (OK_plugU h.ok).1
  have ok1 : OK (plugU (plug (.node i' l d r) lc) rest) := (OK_plugU h.ok).2 _ (OK_swap oklev hred (by rw [hlab]) (by rw [hlab]; exact (OK_node oklev).1) (OK_node oklev).2)
  have hb1 := bag_whole (.node i l d r) lc rest
  have hb2 := bag_whole (.node i' l d r) lc rest
  rw [bag_node] at hb1 hb2
  rw [hlab] at hb2
  generalize hR : bag (i.labels ++ sufU rest) d + bag (sufU rest) l + bag (sufU rest) r + bagE (sufU rest) (entsL lc ++ entsR lc) + bagU rest = R
  have hb1' : bag [] (plugU (plug (.node i l d r) lc) rest) = {i.entry (sufU rest)} + R := by rw [hb1, ← hR]; abel
  have hb2' : bag [] (plugU (plug (.node i' l d r) lc) rest) = {i'.entry (sufU rest)} + R := by rw [hb2, ← hR]; abel
  refine ⟨R, hb1', hb2', ?_, ok1, ?_, ?_⟩
  · have := W.nextlen hw'; rw [← this]; exact W.top.1 hw'
  · intro e he
    rw [hb2', Multiset.mem_add, Multiset.mem_singleton] at he
    rcases he with rfl | he
    · have := h.names (i.entry (sufU rest)) (by rw [hb1']; simp)
      simp only [Info.entry, hlab] at this ⊢; exact this
    · exact h.names e (by rw [hb1']; simp [he])
  · have := congrArg Prod.snd (W.nextlen hw')
    rw [show s'.len = s.len from this.symm, h.len, size_bag [], size_bag [], hb1', hb2']; simp

theorem W.set_callback (h : W s g rest lc (.node i l d r)) (b : Bool) :
    WP (Dom.set_callback i.addr b) s fun _ s' => W s' g rest lc (.node { i with cb := b } l d r) := by
  unfold Dom.set_callback
  refine (Z.focus h).upd 0 rfl _ fun s1 h1 => ?_
  refine Z.unfocus (i := { i with cb := b }) (H.conv h1 rfl ?_)
  simp only [List.set_cons_zero, Info.node, mkFlag_set_callback]

theorem W.set_wildcard (h : W s g rest lc (.node i l d r)) (b : Bool) :
    WP (Dom.set_wildcard i.addr b) s fun _ s' => W s' g rest lc (.node { i with wc := b } l d r) := by
  unfold Dom.set_wildcard
  refine (Z.focus h).upd 0 rfl _ fun s1 h1 => ?_
  refine Z.unfocus (i := { i with wc := b }) (H.conv h1 rfl ?_)
  simp only [List.set_cons_zero, Info.node, mkFlag_set_wildcard]

theorem InvA.set_callback (h : InvA A s t δ) {e : Entry T} (he : e ∈ t.nodes []) (b : Bool) :
    WP (Dom.set_callback e.addr b) s fun _ s' => ∃ t' R, InvA A s' t' δ ∧ bag [] t = {e} + R ∧ bag [] t' = {{ e with cb := b }} + R := by
  obtain ⟨rest, lc, i, l, d, r, hw, ht, rfl⟩ := h.place he
  refine (hw.set_callback b).mono fun _ s' w' => ?_
  obtain ⟨R, h1, h2, h3⟩ := h.swap _ hw ht w' rfl rfl
  exact ⟨_, R, h3, h1, h2⟩

theorem InvA.set_wildcard (h : InvA A s t δ) {e : Entry T} (he : e ∈ t.nodes []) (b : Bool) :
    WP (Dom.set_wildcard e.addr b) s fun _ s' => ∃ t' R, InvA A s' t' δ ∧ bag [] t = {e} + R ∧ bag [] t' = {{ e with wc := b }} + R := by
  obtain ⟨rest, lc, i, l, d, r, hw, ht, rfl⟩ := h.place he
  refine (hw.set_wildcard b).mono fun _ s' w' => ?_
  obtain ⟨R, h1, h2, h3⟩ := h.swap _ hw ht w' rfl rfl
  exact ⟨_, R, h3, h1, h2⟩

theorem InvA.set_value (h : InvA A s t δ) {e : Entry T} (he : e ∈ t.nodes []) (v : Option T) :
    WP (Dom.set_value e.addr v) s fun old s' => old = e.value ∧ ∃ t' R, InvA A s' t' δ ∧ bag [] t = {e} + R ∧ bag [] t' = {{ e with value := v }} + R := by
  obtain ⟨rest, lc, i, l, d, r, hw, ht, rfl⟩ := h.place he
  refine (W.set_value hw v).mono fun old s' w' => ?_
  obtain ⟨e1, w'⟩ := w'
  obtain ⟨R, h1, h2, h3⟩ := h.swap _ hw ht w' rfl rfl
  exact ⟨e1, _, R, h3, h1, h2⟩

theorem InvA.remove_node (h : InvA A s t δ) {e : Entry T} (he : e ∈ t.nodes []) :
    WP (Dom.remove_node e.addr) s fun old s' => old = e.value ∧ ∃ t', InvA A s' t' δ ∧ Removed t t' e := by
  obtain ⟨rest, lc, i, l, d, r, hw, ht, rfl⟩ := h.place he
  exact remove_node_spec h hw ht

theorem InvA.get (h : InvA A s t δ) {e : Entry T} (he : e ∈ t.nodes []) : ∃ n, s.look e.addr = .ok n ∧ n.value = e.value ∧
    n.flag.is_callback_enabled = e.cb ∧ n.flag.is_wildcard = e.wc := by
  obtain ⟨rest, lc, i, l, d, r, hw, ht, rfl⟩ := h.place he
  exact ⟨_, hw.lookup, rfl, by simp [Info.node, Info.entry], by simp [Info.node, Info.entry]⟩

theorem InvA.addr_ne (h : InvA A s t δ) {e : Entry T} (he : e ∈ t.nodes []) : e.addr ≠ 0 := by
  obtain ⟨rest, lc, i, l, d, r, hw, ht, rfl⟩ := h.place he
  exact Z.nz hw

theorem InvA.new {A : Kind} : InvA A (Dom.new : Dom T) .nil 0 := by
  refine ⟨?_, ⟨⟨⟨0, rfl⟩, rfl, by simp [Tr.ents]⟩, trivial⟩, fun e he => by simp at he, rfl⟩
  show Hold _ _ _ _
  refine ⟨rfl, rfl, rfl, ?_, ?_, ?_, ?_⟩ <;> simp [cells, slotOf, Slot.cells, cellsU, cellsL, Dom.new]

theorem Inv.new : Inv (Dom.new : Dom T) .nil 0 := InvA.new

/-! ## clear -/

theorem Hold.free {rt : Ptr} {p : Ptr} {n : Node T} {M : Multiset (Cell T)} (h : Hold s rt g ({(p, n)} + M)) {Q : Unit → Dom T → Prop}
    (hq : Hold { s with heap := fun q => if q = p then none else s.heap q } rt g M → Q () { s with heap := fun q => if q = p then none else s.heap q }) :
    WP (Dom.free p) s Q := by
  have hn := h.nodup
  rw [Multiset.map_add, Multiset.map_singleton, Multiset.singleton_add, Multiset.nodup_cons] at hn
  refine ⟨(), _, by simp [Dom.free, h.read], hq ?_⟩
  refine ⟨h.root, h.next, h.len, hn.2, fun c hc => ?_, fun c hc => h.bound c (by simp [hc]), h.pos⟩
  have hne : c.1 ≠ p := fun e => hn.1 (Multiset.mem_map.2 ⟨c, hc, e⟩)
  simp only [hne, if_false]
  exact h.cell c (by simp [hc])

/-- the addresses of a tree -/
def addrsT : Tr T → List Ptr
  | .nil => []
  | .node i l d r => i.addr :: (addrsT l ++ addrsT d ++ addrsT r)

theorem addrsT_nodes (suf : List Label) (t : Tr T) (p : Ptr) : p ∈ addrsT t ↔ ∃ e ∈ t.nodes suf, e.addr = p := by
  induction t generalizing suf with
  | nil => simp [addrsT, Tr.nodes]
  | node i l d r ihl ihd ihr =>
    simp only [addrsT, Tr.nodes, List.mem_cons, List.mem_append, ihl suf, ihd (i.labels ++ suf), ihr suf]
    constructor
    · rintro (rfl | (⟨e, h, rfl⟩ | ⟨e, h, rfl⟩) | ⟨e, h, rfl⟩)
      · exact ⟨i.entry suf, .inl (.inr (.inl rfl)), rfl⟩
      · exact ⟨e, .inl (.inl h), rfl⟩
      · exact ⟨e, .inl (.inr (.inr h)), rfl⟩
      · exact ⟨e, .inr h, rfl⟩
    · rintro ⟨e, (h | rfl | h) | h, rfl⟩
      · exact .inr (.inl (.inl ⟨e, h, rfl⟩))
      · exact .inl rfl
      · exact .inr (.inl (.inr ⟨e, h, rfl⟩))
      · exact .inr (.inr ⟨e, h, rfl⟩)

theorem clear_recurse_spec (fuel : Nat) : ∀ {s : Dom T} {rt par : Ptr} {sub : Bool} {t : Tr T} {M : Multiset (Cell T)}, Hold s rt g (cells par sub t + M) → t.size < fuel →
    WP (clear_recurse fuel t.ptr) s fun _ s' => Hold s' rt g M ∧ ∀ p, s'.heap p = if p ∈ addrsT t then none else s.heap p := by
  induction fuel with
  | zero => intro _ _ _ _ _ _ _ h; omega
  | succ fuel ih =>
    intro s rt par sub t M h hf
    unfold clear_recurse
    cases t with
    | nil =>
      refine WP.pos (c := (Tr.nil : Tr T).ptr = 0) rfl (WP.pure ⟨?_, fun p => by simp [addrsT]⟩)
      simpa [cells] using h
    | node i l d r =>
      have h0 : Hold s rt g ({(i.addr, Info.node i sub l.ptr r.ptr par d.ptr)} + (cells i.addr true d + cells i.addr false l + cells i.addr false r + M)) :=
        Eq.mp (congrArg (Hold s rt g) (by simp only [cells]; abel)) h
      simp only [Tr.size] at hf
      have hnz : i.addr ≠ 0 := (h0.bound (i.addr, Info.node i sub l.ptr r.ptr par d.ptr) (by simp)).1
      refine WP.neg (c := (Tr.node i l d r).ptr = 0) hnz ?_
      have rd : ∀ {s1 : Dom T} {M1 : Multiset (Cell T)}, Hold s1 rt g ({(i.addr, Info.node i sub l.ptr r.ptr par d.ptr)} + M1) →
          ∀ {Q : Node T → Dom T → Prop}, Q (Info.node i sub l.ptr r.ptr par d.ptr) s1 → WP (Dom.deref i.addr) s1 Q :=
        fun h1 _ hq => ⟨_, _, by simp [Dom.deref, h1.read], hq⟩
      refine WP.bind (WP.bind (rd h0 (WP.pure ?_)))
      have h1 : Hold s rt g (cells i.addr false l + ({(i.addr, Info.node i sub l.ptr r.ptr par d.ptr)} + (cells i.addr true d + cells i.addr false r + M))) :=
        Eq.mp (congrArg (Hold s rt g) (by abel)) h0
      refine WP.bind ((ih h1 (by omega)).mono fun _ s1 h2 => ?_)
      obtain ⟨h2, f2⟩ := h2
      refine WP.bind (WP.bind (rd h2 (WP.pure ?_)))
      have h3 : Hold s1 rt g (cells i.addr false r + ({(i.addr, Info.node i sub l.ptr r.ptr par d.ptr)} + (cells i.addr true d + M))) :=
        Eq.mp (congrArg (Hold s1 rt g) (by abel)) h2
      refine WP.bind ((ih h3 (by omega)).mono fun _ s2 h4 => ?_)
      obtain ⟨h4, f4⟩ := h4
      refine WP.bind (WP.bind (rd h4 (WP.pure ?_)))
      have h5 : Hold s2 rt g (cells i.addr true d + ({(i.addr, Info.node i sub l.ptr r.ptr par d.ptr)} + M)) :=
        Eq.mp (congrArg (Hold s2 rt g) (by abel)) h4
      refine WP.bind ((ih h5 (by omega)).mono fun _ s3 h6 => ?_)
      obtain ⟨h6, f6⟩ := h6
      refine h6.free fun h7 => ⟨h7, fun p => ?_⟩
      simp only [addrsT, List.mem_cons, List.mem_append]
      by_cases hp : p = i.addr
      · simp [hp]
      · simp only [hp, if_false, false_or, f6, f4, f2]
        by_cases c1 : p ∈ addrsT l <;> by_cases c2 : p ∈ addrsT d <;> by_cases c3 : p ∈ addrsT r <;> simp [c1, c2, c3]

theorem clear_spec (h : InvA A s t δ) : WP Dom.clear s fun _ s' => InvA A s' .nil s.len ∧ s'.len = s.len ∧
    ∀ p, s'.heap p = if ∃ e ∈ t.nodes [], e.addr = p then none else s.heap p := by
  unfold Dom.clear
  refine WP.bind (WP.get ?_)
  refine WP.bind ⟨(), { s with root := 0 }, rfl, ?_⟩
  have h0 : Hold s t.ptr (s.next, s.len) (cells 0 true t + 0) :=
    Eq.mp (congrArg (Hold s t.ptr _) (by simp [slotOf, Slot.cells, cellsU, cellsL, lptr, Slot.up])) (Z.hold h.mem)
  have h1 : Hold { s with root := 0 } 0 (s.next, s.len) (cells 0 true t + 0) := ⟨rfl, h0.next, h0.len, h0.nodup, h0.cell, h0.bound, h0.pos⟩
  have hroot : s.root = t.ptr := h0.root
  have hsz : t.size < s.next := W.size_lt h.mem
  simp only [hroot]
  refine (clear_recurse_spec (s.next + 1) h1 (Nat.lt_succ_of_lt hsz)).mono fun _ s' h2 => ?_
  obtain ⟨h2, f2⟩ := h2
  have hl : s'.len = s.len := h2.len
  have hn : s'.next = s.next := h2.next
  refine ⟨⟨?_, (InvA.new (A := A)).ok, (InvA.new (A := A)).names, by rw [hl]; simp [Tr.size]⟩, hl, fun p => ?_⟩
  · rw [hl, hn]
    show Hold _ _ _ _
    refine Eq.mp (congrArg (Hold s' 0 _) ?_) h2
    simp [cells, slotOf, Slot.cells, cellsU, cellsL]
  · rw [f2 p]
    simp only [addrsT_nodes []]

end
end Dom
end R53
