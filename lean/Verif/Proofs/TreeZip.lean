import Verif.Proofs.TreeHeap
/-!
# A place in a level, and the rotations
-/
namespace R53
namespace Dom
variable {T : Type}

/-- a step from the root of a level down: the node, its lower level and its other neighbour -/
inductive LF (T : Type) where
  | L (i : Info T) (d r : Tr T)
  | R (i : Info T) (l d : Tr T)

namespace LF
def info : LF T → Info T
  | L i _ _ => i
  | R i _ _ => i
def addr (f : LF T) : Ptr := f.info.addr
def red (f : LF T) : Bool := f.info.red
def sib : LF T → Tr T
  | L _ _ r => r
  | R _ l _ => l
def dn : LF T → Tr T
  | L _ d _ => d
  | R _ _ d => d
/-- the node with the hole filled -/
def fill (t : Tr T) : LF T → Tr T
  | L i d r => .node i t d r
  | R i l d => .node i l d t
def cell (f : LF T) (sub : Bool) (par hp : Ptr) : Cell T :=
  match f with
  | L i d r => (i.addr, Info.node i sub hp r.ptr par d.ptr)
  | R i l d => (i.addr, Info.node i sub l.ptr hp par d.ptr)
end LF

/-- the parent pointer at a place -/
def lptr (up : Ptr) : List (LF T) → Ptr
  | [] => up
  | f :: _ => f.addr

/-- the root of the level when the subtree at the place is at `hp` -/
def rptr (hp : Ptr) : List (LF T) → Ptr
  | [] => hp
  | f :: c => rptr f.addr c

/-- the whole level -/
def plug (t : Tr T) : List (LF T) → Tr T
  | [] => t
  | f :: c => plug (f.fill t) c

def cellsL (up hp : Ptr) : List (LF T) → Multiset (Cell T)
  | [] => 0
  | f :: c => {f.cell c.isEmpty (lptr up c) hp} + cells f.addr true f.dn + cells f.addr false f.sib + cellsL up f.addr c

/-- the memory holds the level in slot `S`, seen from the place `lc` with the subtree `t`, and `m` -/
def Z (s : Dom T) (g : Nat × Nat) (S : Slot T) (lc : List (LF T)) (t : Tr T) (m : Multiset (Cell T)) : Prop :=
  H s g S (rptr t.ptr lc) [] [(lptr S.up lc, lc.isEmpty, t)] (cellsL S.up t.ptr lc + m)

section
variable {s : Dom T} {g : Nat × Nat} {S : Slot T} {lc : List (LF T)} {t : Tr T} {m : Multiset (Cell T)} {i : Info T} {l d r : Tr T}

theorem LF.fill_ptr (f : LF T) (t : Tr T) : (f.fill t).ptr = f.addr := by cases f <;> rfl

/-- moving in the level -/
theorem Z.up (f : LF T) : Z s g S (f :: lc) t m ↔ Z s g S lc (f.fill t) m := by
  unfold Z
  have e : S.cells (rptr t.ptr (f :: lc)) + listOf [] + treesOf [(lptr S.up (f :: lc), (f :: lc).isEmpty, t)] + (cellsL S.up t.ptr (f :: lc) + m)
      = S.cells (rptr (f.fill t).ptr lc) + listOf [] + treesOf [(lptr S.up lc, lc.isEmpty, f.fill t)] + (cellsL S.up (f.fill t).ptr lc + m) := by
    rw [LF.fill_ptr]
    cases f <;> simp only [rptr, treesOf_cons, treesOf_nil, listOf_nil, cellsL, LF.fill, cells, LF.cell, LF.dn, LF.sib, lptr, LF.addr, LF.info,
      List.isEmpty_cons] <;> abel
  constructor
  · exact fun h => h.conv (by rw [LF.fill_ptr]; rfl) e
  · exact fun h => h.conv (by rw [LF.fill_ptr]; rfl) e.symm

theorem Z.top : Z s g S lc t m ↔ Z s g S [] (plug t lc) m := by
  induction lc generalizing t with
  | nil => exact Iff.rfl
  | cons f c ih => rw [Z.up]; exact ih

theorem Z.left_down : Z s g S lc (.node i l d r) m ↔ Z s g S (.L i d r :: lc) l m := (Z.up (.L i d r)).symm
theorem Z.right_down : Z s g S lc (.node i l d r) m ↔ Z s g S (.R i l d :: lc) r m := (Z.up (.R i l d)).symm

/-- the subtree root in focus -/
theorem Z.focus (h : Z s g S lc (.node i l d r) m) :
    H s g S (rptr i.addr lc) [(i.addr, Info.node i lc.isEmpty l.ptr r.ptr (lptr S.up lc) d.ptr)]
      [(i.addr, true, d), (i.addr, false, l), (i.addr, false, r)] (cellsL S.up i.addr lc + m) := by
  refine H.conv (show H _ _ _ _ _ _ _ from h) rfl ?_
  simp only [treesOf_cons, treesOf_nil, listOf_nil, listOf_cons, cells, Tr.ptr]
  abel

theorem Z.unfocus (h : H s g S (rptr i.addr lc) [(i.addr, Info.node i lc.isEmpty l.ptr r.ptr (lptr S.up lc) d.ptr)]
      [(i.addr, true, d), (i.addr, false, l), (i.addr, false, r)] (cellsL S.up i.addr lc + m)) : Z s g S lc (.node i l d r) m := by
  refine H.conv h rfl ?_
  simp only [treesOf_cons, treesOf_nil, listOf_nil, listOf_cons, cells, Tr.ptr]
  abel

theorem Z.set_color (h : Z s g S lc (.node i l d r) m) (c : Color) {Q : Unit → Dom T → Prop}
    (hq : ∀ s', Z s' g S lc (.node { i with red := decide (c = .Red) } l d r) m → Q () s') : WP (Dom.set_color i.addr c) s Q := by
  refine h.focus.upd 0 rfl _ fun s' h' => hq _ ?_
  refine Z.unfocus (h'.conv rfl ?_)
  simp only [List.set_cons_zero, Info.node, mkFlag_set_color]

theorem Z.color (h : Z s g S lc t m) {Q : Color → Dom T → Prop} (hq : Q (if t.isRed then .Red else .Black) s) :
    WP (Dom.get_color t.ptr) s Q := H.tree_color (show H _ _ _ _ _ _ _ from h) 0 (t := (lptr S.up lc, lc.isEmpty, t)) rfl hq

theorem Z.is_red (h : Z s g S lc t m) {Q : Bool → Dom T → Prop} (hq : Q t.isRed s) : WP (Dom.is_red t.ptr) s Q := by
  refine WP.bind (h.color (WP.pure ?_))
  cases e : t.isRed <;> simpa [e] using hq

theorem Z.is_black (h : Z s g S lc t m) {Q : Bool → Dom T → Prop} (hq : Q (!t.isRed) s) : WP (Dom.is_black t.ptr) s Q :=
  WP.bind (h.is_red (WP.pure hq))

theorem Z.left (h : Z s g S lc (.node i l d r) m) {Q : Ptr → Dom T → Prop} (hq : Q l.ptr s) : WP (Dom.left i.addr) s Q := h.focus.left 0 rfl hq
theorem Z.right (h : Z s g S lc (.node i l d r) m) {Q : Ptr → Dom T → Prop} (hq : Q r.ptr s) : WP (Dom.right i.addr) s Q := h.focus.right 0 rfl hq
theorem Z.down (h : Z s g S lc (.node i l d r) m) {Q : Ptr → Dom T → Prop} (hq : Q d.ptr s) : WP (Dom.down i.addr) s Q := h.focus.down 0 rfl hq
theorem Z.parent (h : Z s g S lc (.node i l d r) m) {Q : Ptr → Dom T → Prop} (hq : Q (lptr S.up lc) s) : WP (Dom.parent i.addr) s Q :=
  h.focus.parent 0 rfl hq
theorem Z.load (h : Z s g S lc t m) {Q : Ptr → Dom T → Prop} (hq : Q (rptr t.ptr lc) s) : WP (Dom.load S.loc) s Q :=
  H.load (show H _ _ _ _ _ _ _ from h) hq
theorem Z.nz (h : Z s g S lc (.node i l d r) m) : i.addr ≠ 0 := h.focus.nz 0 rfl

/-- the three subtrees of a node have different roots, and none is the node -/
theorem Z.ne_left (h : Z s g S lc (.node i l d r) m) : i.addr ≠ l.ptr := h.focus.ne_tree 0 1 rfl (t := (i.addr, false, l)) rfl
theorem Z.ne_right (h : Z s g S lc (.node i l d r) m) : i.addr ≠ r.ptr := h.focus.ne_tree 0 2 rfl (t := (i.addr, false, r)) rfl
theorem Z.ne_down (h : Z s g S lc (.node i l d r) m) : i.addr ≠ d.ptr := h.focus.ne_tree 0 0 rfl (t := (i.addr, true, d)) rfl
theorem Z.l_ne_r (h : Z s g S lc (.node i l d r) m) (hz : l.ptr ≠ 0) : l.ptr ≠ r.ptr :=
  h.focus.tree_ne 1 2 (t := (i.addr, false, l)) (t' := (i.addr, false, r)) rfl rfl (by decide) hz
theorem Z.r_ne_l (h : Z s g S lc (.node i l d r) m) (hz : r.ptr ≠ 0) : r.ptr ≠ l.ptr :=
  h.focus.tree_ne 2 1 (t := (i.addr, false, r)) (t' := (i.addr, false, l)) rfl rfl (by decide) hz
theorem Z.l_ne_d (h : Z s g S lc (.node i l d r) m) (hz : l.ptr ≠ 0) : l.ptr ≠ d.ptr :=
  h.focus.tree_ne 1 0 (t := (i.addr, false, l)) (t' := (i.addr, true, d)) rfl rfl (by decide) hz
theorem Z.r_ne_d (h : Z s g S lc (.node i l d r) m) (hz : r.ptr ≠ 0) : r.ptr ≠ d.ptr :=
  h.focus.tree_ne 2 0 (t := (i.addr, false, r)) (t' := (i.addr, true, d)) rfl rfl (by decide) hz
theorem Z.d_ne_l (h : Z s g S lc (.node i l d r) m) (hz : d.ptr ≠ 0) : d.ptr ≠ l.ptr :=
  h.focus.tree_ne 0 1 (t := (i.addr, true, d)) (t' := (i.addr, false, l)) rfl rfl (by decide) hz
theorem Z.d_ne_r (h : Z s g S lc (.node i l d r) m) (hz : d.ptr ≠ 0) : d.ptr ≠ r.ptr :=
  h.focus.tree_ne 0 2 (t := (i.addr, true, d)) (t' := (i.addr, false, r)) rfl rfl (by decide) hz

/-! ## rotations -/

variable {j : Info T} {a b dj : Tr T}

theorem left_rotate_spec (h : Z s g S lc (.node i l d (.node j a dj b)) m) :
    WP (left_rotate S.loc i.addr) s fun _ s' => Z s' g S lc (.node j (.node i l d a) dj b) m := by
  unfold left_rotate
  match lc, h with
  | [], h =>
    have h0 : H s g S i.addr [(i.addr, Info.node i true l.ptr j.addr S.up d.ptr), (j.addr, Info.node j false a.ptr b.ptr i.addr dj.ptr)]
        [(j.addr, false, a)] (cells i.addr true d + cells i.addr false l + cells j.addr true dj + cells j.addr false b + m) := by
      refine H.conv (show H _ _ _ _ _ _ _ from h) rfl ?_
      simp only [treesOf_cons, treesOf_nil, listOf_nil, listOf_cons, cells, Tr.ptr, cellsL, lptr, rptr, List.isEmpty_nil]
      abel
    refine WP.bind (h0.right 0 rfl ?_)
    refine WP.bind (h0.left 1 rfl ?_)
    refine WP.bind (h0.upd 0 rfl _ fun s1 h1 => ?_)
    refine WP.bind (h1.adopt 0 rfl _ fun s2 h2 => ?_)
    refine WP.bind (h2.parent 0 rfl ?_)
    refine WP.bind (h2.upd 1 rfl _ fun s3 h3 => ?_)
    refine WP.bind (h3.subroot 0 rfl ?_)
    simp only [Info.node, mkFlag_is_subtree_root, Bool.not_true, Bool.false_eq_true, if_false]
    refine WP.bind (h3.upd 1 rfl _ fun s4 h4 => ?_)
    refine WP.bind (h4.store _ fun s5 h5 => ?_)
    refine WP.bind (h5.upd 1 rfl _ fun s6 h6 => ?_)
    refine WP.bind (h6.upd 0 rfl _ fun s7 h7 => ?_)
    refine h7.upd 0 rfl _ fun s8 h8 => ?_
    refine H.conv h8 rfl ?_
    simp only [treesOf_cons, treesOf_nil, listOf_nil, listOf_cons, cells, Tr.ptr, cellsL, lptr, rptr, List.isEmpty_nil, Info.node,
      List.set_cons_succ, List.set_cons_zero, mkFlag_set_subtree_root]
    abel
  | .L k kd kr :: c, h =>
    have h0 : H s g S (rptr k.addr c) [(i.addr, Info.node i false l.ptr j.addr k.addr d.ptr), (j.addr, Info.node j false a.ptr b.ptr i.addr dj.ptr),
          (k.addr, Info.node k c.isEmpty i.addr kr.ptr (lptr S.up c) kd.ptr)]
        [(j.addr, false, a)] (cells i.addr true d + cells i.addr false l + cells j.addr true dj + cells j.addr false b
          + cells k.addr true kd + cells k.addr false kr + cellsL S.up k.addr c + m) := by
      refine H.conv (show H _ _ _ _ _ _ _ from h) rfl ?_
      simp only [treesOf_cons, treesOf_nil, listOf_nil, listOf_cons, cells, Tr.ptr, cellsL, lptr, rptr, List.isEmpty_cons, LF.cell, LF.dn, LF.sib, LF.addr, LF.info]
      abel
    refine WP.bind (h0.right 0 rfl ?_)
    refine WP.bind (h0.left 1 rfl ?_)
    refine WP.bind (h0.upd 0 rfl _ fun s1 h1 => ?_)
    refine WP.bind (h1.adopt 0 rfl _ fun s2 h2 => ?_)
    refine WP.bind (h2.parent 0 rfl ?_)
    refine WP.bind (h2.upd 1 rfl _ fun s3 h3 => ?_)
    refine WP.bind (h3.subroot 0 rfl ?_)
    simp only [Info.node, mkFlag_is_subtree_root, Bool.not_false, if_true]
    refine WP.bind (h3.upd 1 rfl _ fun s4 h4 => ?_)
    refine WP.bind (h4.left 2 rfl ?_)
    refine WP.pos rfl ?_
    refine WP.bind (h4.upd 2 rfl _ fun s5 h5 => ?_)
    refine WP.bind (h5.upd 1 rfl _ fun s6 h6 => ?_)
    refine WP.bind (h6.upd 0 rfl _ fun s7 h7 => ?_)
    refine h7.upd 0 rfl _ fun s8 h8 => ?_
    refine H.conv h8 rfl ?_
    simp only [treesOf_cons, treesOf_nil, listOf_nil, listOf_cons, cells, Tr.ptr, cellsL, lptr, rptr, List.isEmpty_cons, LF.cell, LF.dn, LF.sib, LF.addr, LF.info, Info.node,
      List.set_cons_succ, List.set_cons_zero, mkFlag_set_subtree_root]
    abel
  | .R k kl kd :: c, h =>
    have h0 : H s g S (rptr k.addr c) [(i.addr, Info.node i false l.ptr j.addr k.addr d.ptr), (j.addr, Info.node j false a.ptr b.ptr i.addr dj.ptr),
          (k.addr, Info.node k c.isEmpty kl.ptr i.addr (lptr S.up c) kd.ptr)]
        [(j.addr, false, a), (k.addr, false, kl)] (cells i.addr true d + cells i.addr false l + cells j.addr true dj + cells j.addr false b
          + cells k.addr true kd + cellsL S.up k.addr c + m) := by
      refine H.conv (show H _ _ _ _ _ _ _ from h) rfl ?_
      simp only [treesOf_cons, treesOf_nil, listOf_nil, listOf_cons, cells, Tr.ptr, cellsL, lptr, rptr, List.isEmpty_cons, LF.cell, LF.dn, LF.sib, LF.addr, LF.info]
      abel
    have hne := h0.ne_tree 0 1 rfl (t := (k.addr, false, kl)) rfl
    refine WP.bind (h0.right 0 rfl ?_)
    refine WP.bind (h0.left 1 rfl ?_)
    refine WP.bind (h0.upd 0 rfl _ fun s1 h1 => ?_)
    refine WP.bind (h1.adopt 0 rfl _ fun s2 h2 => ?_)
    refine WP.bind (h2.parent 0 rfl ?_)
    refine WP.bind (h2.upd 1 rfl _ fun s3 h3 => ?_)
    refine WP.bind (h3.subroot 0 rfl ?_)
    simp only [Info.node, mkFlag_is_subtree_root, Bool.not_false, if_true]
    refine WP.bind (h3.upd 1 rfl _ fun s4 h4 => ?_)
    refine WP.bind (h4.left 2 rfl ?_)
    refine WP.neg hne ?_
    refine WP.bind (h4.upd 2 rfl _ fun s5 h5 => ?_)
    refine WP.bind (h5.upd 1 rfl _ fun s6 h6 => ?_)
    refine WP.bind (h6.upd 0 rfl _ fun s7 h7 => ?_)
    refine h7.upd 0 rfl _ fun s8 h8 => ?_
    refine H.conv h8 rfl ?_
    simp only [treesOf_cons, treesOf_nil, listOf_nil, listOf_cons, cells, Tr.ptr, cellsL, lptr, rptr, List.isEmpty_cons, LF.cell, LF.dn, LF.sib, LF.addr, LF.info, Info.node,
      List.set_cons_succ, List.set_cons_zero, mkFlag_set_subtree_root]
    abel

theorem right_rotate_spec (h : Z s g S lc (.node i (.node j a dj b) d r) m) :
    WP (right_rotate S.loc i.addr) s fun _ s' => Z s' g S lc (.node j a dj (.node i b d r)) m := by
  unfold right_rotate
  match lc, h with
  | [], h =>
    have h0 : H s g S i.addr [(i.addr, Info.node i true j.addr r.ptr S.up d.ptr), (j.addr, Info.node j false a.ptr b.ptr i.addr dj.ptr)]
        [(j.addr, false, b)] (cells i.addr true d + cells i.addr false r + cells j.addr true dj + cells j.addr false a + m) := by
      refine H.conv (show H _ _ _ _ _ _ _ from h) rfl ?_
      simp only [treesOf_cons, treesOf_nil, listOf_nil, listOf_cons, cells, Tr.ptr, cellsL, lptr, rptr, List.isEmpty_nil]
      abel
    refine WP.bind (h0.left 0 rfl ?_)
    refine WP.bind (h0.right 1 rfl ?_)
    refine WP.bind (h0.upd 0 rfl _ fun s1 h1 => ?_)
    refine WP.bind (h1.adopt 0 rfl _ fun s2 h2 => ?_)
    refine WP.bind (h2.parent 0 rfl ?_)
    refine WP.bind (h2.upd 1 rfl _ fun s3 h3 => ?_)
    refine WP.bind (h3.subroot 0 rfl ?_)
    simp only [Info.node, mkFlag_is_subtree_root, Bool.not_true, Bool.false_eq_true, if_false]
    refine WP.bind (h3.upd 1 rfl _ fun s4 h4 => ?_)
    refine WP.bind (h4.store _ fun s5 h5 => ?_)
    refine WP.bind (h5.upd 1 rfl _ fun s6 h6 => ?_)
    refine WP.bind (h6.upd 0 rfl _ fun s7 h7 => ?_)
    refine h7.upd 0 rfl _ fun s8 h8 => ?_
    refine H.conv h8 rfl ?_
    simp only [treesOf_cons, treesOf_nil, listOf_nil, listOf_cons, cells, Tr.ptr, cellsL, lptr, rptr, List.isEmpty_nil, Info.node,
      List.set_cons_succ, List.set_cons_zero, mkFlag_set_subtree_root]
    abel
  | .L k kd kr :: c, h =>
    have h0 : H s g S (rptr k.addr c) [(i.addr, Info.node i false j.addr r.ptr k.addr d.ptr), (j.addr, Info.node j false a.ptr b.ptr i.addr dj.ptr),
          (k.addr, Info.node k c.isEmpty i.addr kr.ptr (lptr S.up c) kd.ptr)]
        [(j.addr, false, b), (k.addr, false, kr)] (cells i.addr true d + cells i.addr false r + cells j.addr true dj + cells j.addr false a
          + cells k.addr true kd + cellsL S.up k.addr c + m) := by
      refine H.conv (show H _ _ _ _ _ _ _ from h) rfl ?_
      simp only [treesOf_cons, treesOf_nil, listOf_nil, listOf_cons, cells, Tr.ptr, cellsL, lptr, rptr, List.isEmpty_cons, LF.cell, LF.dn, LF.sib, LF.addr, LF.info]
      abel
    have hne := h0.ne_tree 0 1 rfl (t := (k.addr, false, kr)) rfl
    refine WP.bind (h0.left 0 rfl ?_)
    refine WP.bind (h0.right 1 rfl ?_)
    refine WP.bind (h0.upd 0 rfl _ fun s1 h1 => ?_)
    refine WP.bind (h1.adopt 0 rfl _ fun s2 h2 => ?_)
    refine WP.bind (h2.parent 0 rfl ?_)
    refine WP.bind (h2.upd 1 rfl _ fun s3 h3 => ?_)
    refine WP.bind (h3.subroot 0 rfl ?_)
    simp only [Info.node, mkFlag_is_subtree_root, Bool.not_false, if_true]
    refine WP.bind (h3.upd 1 rfl _ fun s4 h4 => ?_)
    refine WP.bind (h4.right 2 rfl ?_)
    refine WP.neg hne ?_
    refine WP.bind (h4.upd 2 rfl _ fun s5 h5 => ?_)
    refine WP.bind (h5.upd 1 rfl _ fun s6 h6 => ?_)
    refine WP.bind (h6.upd 0 rfl _ fun s7 h7 => ?_)
    refine h7.upd 0 rfl _ fun s8 h8 => ?_
    refine H.conv h8 rfl ?_
    simp only [treesOf_cons, treesOf_nil, listOf_nil, listOf_cons, cells, Tr.ptr, cellsL, lptr, rptr, List.isEmpty_cons, LF.cell, LF.dn, LF.sib, LF.addr, LF.info, Info.node,
      List.set_cons_succ, List.set_cons_zero, mkFlag_set_subtree_root]
    abel
  | .R k kl kd :: c, h =>
    have h0 : H s g S (rptr k.addr c) [(i.addr, Info.node i false j.addr r.ptr k.addr d.ptr), (j.addr, Info.node j false a.ptr b.ptr i.addr dj.ptr),
          (k.addr, Info.node k c.isEmpty kl.ptr i.addr (lptr S.up c) kd.ptr)]
        [(j.addr, false, b)] (cells i.addr true d + cells i.addr false r + cells j.addr true dj + cells j.addr false a
          + cells k.addr true kd + cells k.addr false kl + cellsL S.up k.addr c + m) := by
      refine H.conv (show H _ _ _ _ _ _ _ from h) rfl ?_
      simp only [treesOf_cons, treesOf_nil, listOf_nil, listOf_cons, cells, Tr.ptr, cellsL, lptr, rptr, List.isEmpty_cons, LF.cell, LF.dn, LF.sib, LF.addr, LF.info]
      abel
    refine WP.bind (h0.left 0 rfl ?_)
    refine WP.bind (h0.right 1 rfl ?_)
    refine WP.bind (h0.upd 0 rfl _ fun s1 h1 => ?_)
    refine WP.bind (h1.adopt 0 rfl _ fun s2 h2 => ?_)
    refine WP.bind (h2.parent 0 rfl ?_)
    refine WP.bind (h2.upd 1 rfl _ fun s3 h3 => ?_)
    refine WP.bind (h3.subroot 0 rfl ?_)
    simp only [Info.node, mkFlag_is_subtree_root, Bool.not_false, if_true]
    refine WP.bind (h3.upd 1 rfl _ fun s4 h4 => ?_)
    refine WP.bind (h4.right 2 rfl ?_)
    refine WP.pos rfl ?_
    refine WP.bind (h4.upd 2 rfl _ fun s5 h5 => ?_)
    refine WP.bind (h5.upd 1 rfl _ fun s6 h6 => ?_)
    refine WP.bind (h6.upd 0 rfl _ fun s7 h7 => ?_)
    refine h7.upd 0 rfl _ fun s8 h8 => ?_
    refine H.conv h8 rfl ?_
    simp only [treesOf_cons, treesOf_nil, listOf_nil, listOf_cons, cells, Tr.ptr, cellsL, lptr, rptr, List.isEmpty_cons, LF.cell, LF.dn, LF.sib, LF.addr, LF.info, Info.node,
      List.set_cons_succ, List.set_cons_zero, mkFlag_set_subtree_root]
    abel

end
end Dom
end R53
