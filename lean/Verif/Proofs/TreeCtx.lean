import Verif.Proofs.TreeUnlink
import Verif.Proofs.LabelSeq
/-!
# A place in the whole tree; allocation and splitting a node
-/
namespace R53
namespace Dom
variable {T : Type}

/-- a step from a level to the one below: the node `i`, its neighbours, and its place `lc` in its level -/
structure UF (T : Type) where
  i : Info T
  l : Tr T
  r : Tr T
  lc : List (LF T)

def slotUp : List (UF T) → Ptr
  | [] => 0
  | u :: _ => u.i.addr

/-- the root pointer of the tree when the pointer to the current level is `q` -/
def rootPtr (q : Ptr) : List (UF T) → Ptr
  | [] => q
  | u :: rest => rootPtr (rptr u.i.addr u.lc) rest

def slotOf : List (UF T) → Slot T
  | [] => .root
  | u :: rest => .down (rootPtr (rptr u.i.addr u.lc) rest) u.i.addr (Info.node u.i u.lc.isEmpty u.l.ptr u.r.ptr (lptr (slotUp rest) u.lc) 0)

/-- everything above the current level but the slot -/
def cellsU : List (UF T) → Multiset (Cell T)
  | [] => 0
  | u :: rest => cells u.i.addr false u.l + cells u.i.addr false u.r + cellsL (slotUp rest) u.i.addr u.lc
      + (slotOf rest).cells (rptr u.i.addr u.lc) + cellsU rest

/-- the whole tree -/
def plugU (t : Tr T) : List (UF T) → Tr T
  | [] => t
  | u :: rest => plugU (plug (.node u.i u.l t u.r) u.lc) rest

/-- the memory holds the whole tree, seen from the place `rest`, `lc` with the subtree `t` -/
def W (s : Dom T) (g : Nat × Nat) (rest : List (UF T)) (lc : List (LF T)) (t : Tr T) : Prop := Z s g (slotOf rest) lc t (cellsU rest)

/-- the memory holds the tree `t` -/
def Mem (s : Dom T) (g : Nat × Nat) (t : Tr T) : Prop := W s g [] [] t

theorem slotOf_up (rest : List (UF T)) : (slotOf rest).up = slotUp rest := by cases rest <;> rfl
theorem slotOf_rt (q : Ptr) (rest : List (UF T)) : (slotOf rest).rt q = rootPtr q rest := by cases rest <;> rfl
theorem slotOf_loc (rest : List (UF T)) (h : slotUp rest ≠ 0 ∨ rest = []) :
    (slotOf rest).loc = if slotUp rest ≠ 0 then .down (slotUp rest) else .root := by
  cases rest with
  | nil => rfl
  | cons u rest => rw [if_pos (by simpa using h)]; rfl

section
variable {s : Dom T} {g : Nat × Nat} {S : Slot T} {lc c : List (LF T)} {t : Tr T} {m : Multiset (Cell T)} {i j : Info T} {l d r : Tr T}
variable {fs : List (Cell T)} {ts : List (Ptr × Bool × Tr T)} {rest : List (UF T)}

theorem W.down_iff : W s g rest lc (.node i l d r) ↔ W s g (⟨i, l, r, lc⟩ :: rest) [] d := by
  unfold W Z
  have e : (slotOf rest).cells (rptr (Tr.node i l d r).ptr lc) + listOf [] + treesOf [(lptr (slotOf rest).up lc, lc.isEmpty, Tr.node i l d r)]
        + (cellsL (slotOf rest).up (Tr.node i l d r).ptr lc + cellsU rest)
      = (slotOf (⟨i, l, r, lc⟩ :: rest)).cells (rptr d.ptr ([] : List (LF T))) + listOf [] + treesOf [(lptr (slotOf (⟨i, l, r, lc⟩ :: rest)).up ([] : List (LF T)), true, d)]
        + (cellsL (slotOf (⟨i, l, r, lc⟩ :: rest)).up d.ptr [] + cellsU (⟨i, l, r, lc⟩ :: rest)) := by
    simp only [slotOf_up]
    simp only [slotOf, slotUp, Slot.cells, listOf_nil, treesOf_cons, treesOf_nil, cells, cellsL, cellsU, Tr.ptr, rptr, lptr, Info.node]
    abel
  have e2 : (slotOf rest).rt (rptr (Tr.node i l d r).ptr lc) = (slotOf (⟨i, l, r, lc⟩ :: rest)).rt (rptr d.ptr ([] : List (LF T))) := by
    rw [slotOf_rt]; rfl
  constructor
  · exact fun h => h.conv e2 e
  · exact fun h => h.conv e2.symm e.symm

theorem W.top : W s g rest lc t ↔ Mem s g (plugU (plug t lc) rest) := by
  have h1 : W s g rest lc t ↔ W s g rest [] (plug t lc) := Z.top
  rw [h1]
  generalize plug t lc = t
  clear h1
  induction rest generalizing t with
  | nil => exact Iff.rfl
  | cons u rest ih =>
    rw [← W.down_iff]
    have h2 : W s g rest u.lc (.node u.i u.l t u.r) ↔ W s g rest [] (plug (.node u.i u.l t u.r) u.lc) := Z.top
    rw [h2]; exact ih _

theorem W.up_nz {u : UF T} (h : W s g (u :: rest) lc t) : u.i.addr ≠ 0 := Slot.up_nz (show H _ _ _ _ _ _ _ from h)

theorem W.loc (h : W s g rest lc t) : (slotOf rest).loc = if slotUp rest ≠ 0 then .down (slotUp rest) else .root := by
  refine slotOf_loc rest ?_
  cases rest with
  | nil => exact .inr rfl
  | cons u rest => exact .inl h.up_nz

theorem ptr_mem {par : Ptr} {sub : Bool} (h : t ≠ .nil) : t.ptr ∈ (cells par sub t).map Prod.fst := by
  cases t with
  | nil => exact absurd rfl h
  | node i l d r => simp [cells, Tr.ptr]

theorem W.apart (h : W s g rest lc (.node i l d r)) : (slotOf rest).apart i.addr := by
  cases rest with
  | nil => trivial
  | cons u rest =>
    have hz := Z.nz h
    have h1 := Z.hold h
    have hl : ∀ t : Tr T, (∃ m2, cellsU (u :: rest) = cells u.i.addr false t + m2) → t.ptr ≠ i.addr := by
      intro t ht e
      obtain ⟨m2, e2⟩ := ht
      have hne : t ≠ .nil := fun e3 => by subst e3; exact hz e.symm
      rw [e2] at h1
      have h2 : Hold s _ g ((cells (lptr (slotOf (u :: rest)).up lc) lc.isEmpty (.node i l d r)) + (cells u.i.addr false t +
          ((slotOf (u :: rest)).cells (rptr (Tr.node i l d r).ptr lc) + cellsL (slotOf (u :: rest)).up (Tr.node i l d r).ptr lc + m2))) :=
        Eq.mp (congrArg (Hold s _ g) (by abel)) h1
      refine h2.ne_mem (a := i.addr) (b := t.ptr) (ptr_mem (t := .node i l d r) (by simp)) ?_ e.symm
      rw [Multiset.map_add, Multiset.mem_add]; exact .inl (ptr_mem hne)
    refine ⟨hl u.l ⟨_, by rw [cellsU, add_assoc, add_assoc, add_assoc]⟩, hl u.r
      ⟨cells u.i.addr false u.l + cellsL (slotUp rest) u.i.addr u.lc + (slotOf rest).cells (rptr u.i.addr u.lc) + cellsU rest, ?_⟩⟩
    rw [cellsU]; abel

/-! ## allocation -/

theorem H.alloc {q : Ptr} (h : H s g S q fs ts m) (name : LabelSequence) (v : Option T) {Q : Ptr → Dom T → Prop}
    (hq : ∀ s', H s' (g.1 + 1, g.2) S q ((g.1, ⟨.default, 0, 0, 0, 0, name, v⟩) :: fs) ts m → Q g.1 s') : WP (Dom.alloc name v) s Q := by
  have hn : s.next = g.1 := Hold.next h
  refine ⟨g.1, { s.set g.1 ⟨.default, 0, 0, 0, 0, name, v⟩ with next := g.1 + 1 }, by simp [Dom.alloc, hn], hq _ ?_⟩
  unfold H at *
  refine Eq.mp (congrArg (Hold _ _ _) (?_ : {(g.1, (⟨.default, 0, 0, 0, 0, name, v⟩ : Node T))} + (S.cells q + listOf fs + treesOf ts + m) = _)) ?_
  · rw [listOf_cons]; abel
  have hnm : g.1 ∉ (S.cells q + listOf fs + treesOf ts + m).map Prod.fst := by
    intro hm
    obtain ⟨c, hc, e⟩ := Multiset.mem_map.1 hm
    exact absurd (h.bound c hc).2 (by rw [e]; exact Nat.lt_irrefl _)
  refine ⟨h.root, rfl, h.len, ?_, ?_, ?_, by have := h.pos; simp⟩
  · rw [Multiset.map_add, Multiset.map_singleton, Multiset.singleton_add, Multiset.nodup_cons]
    exact ⟨hnm, h.nodup⟩
  · intro c hc
    rcases Multiset.mem_add.1 hc with hc | hc
    · rw [Multiset.mem_singleton.1 hc]; simp [Dom.set]
    · have hne : c.1 ≠ g.1 := fun e => hnm (e ▸ Multiset.mem_map_of_mem Prod.fst hc)
      simp only [Dom.set, hne, if_false]
      exact h.cell c hc
  · intro c hc
    rcases Multiset.mem_add.1 hc with hc | hc
    · rw [Multiset.mem_singleton.1 hc]; exact ⟨Nat.pos_iff_ne_zero.1 h.pos, Nat.lt_succ_self _⟩
    · have := h.bound c hc; exact ⟨this.1, Nat.lt_succ_of_lt this.2⟩

theorem H.addLen {q : Ptr} (h : H s g S q fs ts m) {Q : Unit → Dom T → Prop} (hq : ∀ s', H s' (g.1, g.2 + 1) S q fs ts m → Q () s') :
    WP (fun s => (.ok (), { s with len := s.len + 1 }) : St (Dom T) Unit) s Q := by
  refine ⟨(), _, rfl, hq _ ?_⟩
  unfold H at *
  exact ⟨h.root, h.next, by simp [show s.len = g.2 from h.len], h.nodup, h.cell, h.bound, h.pos⟩

/-! ## splitting a node -/

theorem node_fission_spec {a b : List Label} (h : W s g rest lc (.node i l d r)) (hl : i.labels = a ++ b) (ha : a ≠ []) (hb : b ≠ [])
    (hs : SeqOK i.labels) :
    WP (node_fission i.addr b.length) s fun _ s' =>
      W s' (g.1 + 1, g.2 + 1) rest lc
        (.node ⟨g.1, i.red, false, false, b, none⟩ l (.node { i with red := false, labels := a } .nil d .nil) r) := by
  unfold node_fission split_to_parent
  have h0 := Z.focus h
  refine WP.bind (WP.bind (h0.deref 0 rfl ?_))
  have hct : (Info.node i lc.isEmpty l.ptr r.ptr (lptr (slotOf rest).up lc) d.ptr).name.label_count = i.labels.length := by
    simp [Info.node, LabelSequence.label_count, LabelSequence.ofLabels]
  rw [hct]
  refine WP.bind (WP.lift (csub_ok (by rw [hl]; simp)) ?_)
  have hlen : i.labels.length - b.length = a.length := by rw [hl]; simp
  have hsp : (Info.node i lc.isEmpty l.ptr r.ptr (lptr (slotOf rest).up lc) d.ptr).name.split (i.labels.length - b.length) b.length
      = .ok (.ofLabels b, .ofLabels a) := by
    show LabelSequence.split (LabelSequence.ofLabels i.labels) _ _ = _
    rw [LabelSequence.split_ofLabels hs, hlen, if_pos ⟨by rw [hl]; simp; exact List.length_pos_iff.2 hb, List.length_pos_iff.2 hb⟩, hl]
    have e1 : List.drop (a.length + b.length) (a ++ b) = [] := List.drop_eq_nil_of_le (by simp)
    rw [e1]; simp
  rw [hsp]
  refine WP.bind (h0.upd 0 rfl _ fun s1 h1 => ?_)
  refine h1.alloc _ _ fun s2 h2 => ?_
  clear h0 h1 hsp hct
  simp only [List.set_cons_zero, Info.node] at h2
  refine WP.bind (h2.parent 1 rfl ?_)
  refine WP.bind (h2.upd 0 rfl _ fun s3 h3 => ?_)
  refine WP.bind (connect_child_spec (k := 1) (k' := 1) h3 rfl rfl rfl h.apart fun s4 h4 => ?_)
  refine WP.bind (h4.upd 0 rfl _ fun s5 h5 => ?_)
  refine WP.bind (h5.upd 1 rfl _ fun s6 h6 => ?_)
  refine WP.bind (h6.left 1 rfl ?_)
  refine WP.bind (h6.upd 0 rfl _ fun s7 h7 => ?_)
  refine WP.bind (h7.left 1 rfl ?_)
  refine WP.bind (h7.adopt 1 rfl _ fun s8 h8 => ?_)
  refine WP.bind (h8.right 1 rfl ?_)
  refine WP.bind (h8.upd 0 rfl _ fun s9 h9 => ?_)
  refine WP.bind (h9.right 1 rfl ?_)
  refine WP.bind (h9.adopt 2 rfl _ fun s10 h10 => ?_)
  refine WP.bind (h10.upd 1 rfl _ fun s11 h11 => ?_)
  refine WP.bind (h11.upd 1 rfl _ fun s12 h12 => ?_)
  refine WP.bind (h12.color 1 rfl ?_)
  refine WP.bind (h12.upd 0 rfl _ fun s13 h13 => ?_)
  refine WP.bind (h13.upd 1 rfl _ fun s14 h14 => ?_)
  refine WP.bind (h14.subroot 1 rfl ?_)
  refine WP.bind (h14.upd 0 rfl _ fun s15 h15 => ?_)
  refine WP.bind (h15.upd 1 rfl _ fun s16 h16 => ?_)
  refine h16.addLen fun s17 h17 => ?_
  refine H.conv h17 rfl ?_
  have ec : (if i.red = true then Color.Red else Color.Black) = Color.Red ↔ i.red = true := by cases i.red <;> simp
  simp only [treesOf_cons, treesOf_nil, listOf_nil, listOf_cons, cells, Tr.ptr, Info.node,
      List.set_cons_succ, List.set_cons_zero, mkFlag_set_subtree_root, mkFlag_default, mkFlag_set_color, mkFlag_get_color, mkFlag_is_subtree_root,
      reduceCtorEq, decide_false, ec, Bool.decide_eq_true]
  abel

end
end Dom
end R53
