import Verif.Spec.Tree
import Mathlib.Data.Multiset.UnionInter
import Mathlib.Algebra.Order.Group.Multiset
import Mathlib.Tactic.Abel
/-!
# Memory: cells, assertions and the rules of the primitive operations

`H s g S q fs ts m`: the memory `s` contains exactly-once the slot `S` (the place the pointer `q` to the root of a level is
stored), the cells `fs` (by number), the trees `ts` (by number) and the cells `m`.
-/
namespace R53
namespace Dom
variable {T : Type}

/-! ## flags -/

@[simp] theorem mkFlag_get_color (a b c d : Bool) : (mkFlag a b c d).get_color = if a then .Red else .Black := by
  cases a <;> cases b <;> cases c <;> cases d <;> decide
@[simp] theorem mkFlag_set_color (a b c d : Bool) (k : Color) : (mkFlag a b c d).set_color k = mkFlag (decide (k = .Red)) b c d := by
  cases a <;> cases b <;> cases c <;> cases d <;> cases k <;> decide
@[simp] theorem mkFlag_is_subtree_root (a b c d : Bool) : (mkFlag a b c d).is_subtree_root = b := by
  cases a <;> cases b <;> cases c <;> cases d <;> decide
@[simp] theorem mkFlag_set_subtree_root (a b c d x : Bool) : (mkFlag a b c d).set_subtree_root x = mkFlag a x c d := by
  cases a <;> cases b <;> cases c <;> cases d <;> cases x <;> decide
@[simp] theorem mkFlag_is_callback_enabled (a b c d : Bool) : (mkFlag a b c d).is_callback_enabled = c := by
  cases a <;> cases b <;> cases c <;> cases d <;> decide
@[simp] theorem mkFlag_set_callback (a b c d x : Bool) : (mkFlag a b c d).set_callback x = mkFlag a b x d := by
  cases a <;> cases b <;> cases c <;> cases d <;> cases x <;> decide
@[simp] theorem mkFlag_is_wildcard (a b c d : Bool) : (mkFlag a b c d).is_wildcard = d := by
  cases a <;> cases b <;> cases c <;> cases d <;> decide
@[simp] theorem mkFlag_set_wildcard (a b c d x : Bool) : (mkFlag a b c d).set_wildcard x = mkFlag a b c x := by
  cases a <;> cases b <;> cases c <;> cases d <;> cases x <;> decide
theorem mkFlag_default : NodeFlag.default = mkFlag true false false false := by decide

/-! ## running a program -/

/-- the program succeeds and ends with `Q` -/
def WP {σ α : Type} (m : St σ α) (s : σ) (Q : α → σ → Prop) : Prop := ∃ a s', m s = (.ok a, s') ∧ Q a s'

theorem WP.bind {σ α β : Type} {m : St σ α} {f : α → St σ β} {s : σ} {Q : β → σ → Prop}
    (h : WP m s fun a s' => WP (f a) s' Q) : WP (m >>= f) s Q := by
  obtain ⟨a, s', e, b, s'', e', q⟩ := h
  exact ⟨b, s'', by rw [St.bind_ok e, e'], q⟩

theorem WP.pure {σ α : Type} {a : α} {s : σ} {Q : α → σ → Prop} (h : Q a s) : WP (pure a : St σ α) s Q := ⟨a, s, rfl, h⟩

theorem WP.mono {σ α : Type} {m : St σ α} {s : σ} {P Q : α → σ → Prop} (h : WP m s P) (hi : ∀ a s', P a s' → Q a s') : WP m s Q := by
  obtain ⟨a, s', e, p⟩ := h
  exact ⟨a, s', e, hi _ _ p⟩

theorem WP.get {σ : Type} {s : σ} {Q : σ → σ → Prop} (h : Q s s) : WP (St.get : St σ σ) s Q := ⟨s, s, rfl, h⟩

theorem WP.lift {σ α : Type} {r : Res α} {a : α} {s : σ} {Q : α → σ → Prop} (e : r = .ok a) (h : Q a s) : WP (St.lift r : St σ α) s Q :=
  ⟨a, s, by simp [e], h⟩

theorem WP.pos {σ α : Type} {c : Prop} [Decidable c] {a b : St σ α} {s : σ} {Q : α → σ → Prop} (hc : c) (h : WP a s Q) :
    WP (if c then a else b) s Q := by rw [if_pos hc]; exact h
theorem WP.neg {σ α : Type} {c : Prop} [Decidable c] {a b : St σ α} {s : σ} {Q : α → σ → Prop} (hc : ¬ c) (h : WP b s Q) :
    WP (if c then a else b) s Q := by rw [if_neg hc]; exact h

/-! ## cells -/

abbrev Cell (T : Type) := Ptr × Node T

/-- a node in memory -/
def Info.node (i : Info T) (sub : Bool) (l r par d : Ptr) : Node T := ⟨mkFlag i.red sub i.cb i.wc, l, r, par, d, .ofLabels i.labels, i.value⟩

/-- the cells of a tree whose root has the parent `par`; `sub` if it is the root of its level -/
def cells (par : Ptr) (sub : Bool) : Tr T → Multiset (Cell T)
  | .nil => 0
  | .node i l d r =>
    {(i.addr, Info.node i sub l.ptr r.ptr par d.ptr)} + cells i.addr true d + cells i.addr false l + cells i.addr false r

/-- where the pointer to the root of a level is stored: the tree itself, or the `down` field of the node `n` at `p` -/
inductive Slot (T : Type) where
  | root
  | down (rt p : Ptr) (n : Node T)

namespace Slot
def loc : Slot T → Loc
  | root => .root
  | down _ p _ => .down p
def up : Slot T → Ptr
  | root => 0
  | down _ p _ => p
def rt (q : Ptr) : Slot T → Ptr
  | root => q
  | down r _ _ => r
def cells (q : Ptr) : Slot T → Multiset (Cell T)
  | root => 0
  | down _ p n => {(p, { n with down := q })}
end Slot

/-- the cells `m` are in memory, at different addresses; `g` is the next free address and the length -/
structure Hold (s : Dom T) (rt : Ptr) (g : Nat × Nat) (m : Multiset (Cell T)) : Prop where
  root : s.root = rt
  next : s.next = g.1
  len : s.len = g.2
  nodup : (m.map Prod.fst).Nodup
  cell : ∀ c ∈ m, s.heap c.1 = some c.2
  bound : ∀ c ∈ m, c.1 ≠ 0 ∧ c.1 < g.1
  pos : 0 < g.1

def treesOf (ts : List (Ptr × Bool × Tr T)) : Multiset (Cell T) := (ts.map fun t => cells t.1 t.2.1 t.2.2).sum

@[simp] theorem treesOf_nil : treesOf ([] : List (Ptr × Bool × Tr T)) = 0 := rfl
@[simp] theorem treesOf_cons (t : Ptr × Bool × Tr T) (ts : List (Ptr × Bool × Tr T)) : treesOf (t :: ts) = cells t.1 t.2.1 t.2.2 + treesOf ts := by
  simp [treesOf]

/-- cells as a sum -/
def listOf (fs : List (Cell T)) : Multiset (Cell T) := (fs.map fun c => ({c} : Multiset (Cell T))).sum
@[simp] theorem listOf_nil : listOf ([] : List (Cell T)) = 0 := rfl
@[simp] theorem listOf_cons (c : Cell T) (fs : List (Cell T)) : listOf (c :: fs) = {c} + listOf fs := by simp [listOf]

def H (s : Dom T) (g : Nat × Nat) (S : Slot T) (q : Ptr) (fs : List (Cell T)) (ts : List (Ptr × Bool × Tr T)) (m : Multiset (Cell T)) : Prop :=
  Hold s (S.rt q) g (S.cells q + listOf fs + treesOf ts + m)

theorem H.conv {s : Dom T} {g : Nat × Nat} {S S' : Slot T} {q q' : Ptr} {fs fs' : List (Cell T)} {ts ts' : List (Ptr × Bool × Tr T)}
    {m m' : Multiset (Cell T)} (h : H s g S q fs ts m) (hr : S.rt q = S'.rt q')
    (e : S.cells q + listOf fs + treesOf ts + m = S'.cells q' + listOf fs' + treesOf ts' + m') : H s g S' q' fs' ts' m' := by
  unfold H at *
  rw [← hr, ← e]; exact h

/-! ### lists with a place picked out -/

theorem listOf_pick {fs : List (Cell T)} {k : Nat} {c : Cell T} (h : fs[k]? = some c) :
    ∃ m, listOf fs = {c} + m ∧ ∀ c', listOf (fs.set k c') = {c'} + m := by
  induction fs generalizing k with
  | nil => simp at h
  | cons a fs ih =>
    cases k with
    | zero => simp only [List.getElem?_cons_zero, Option.some.injEq] at h; subst h; exact ⟨listOf fs, by simp, by simp⟩
    | succ k =>
      obtain ⟨m, e, e'⟩ := ih (by simpa using h)
      refine ⟨{a} + m, ?_, fun c' => ?_⟩
      · rw [listOf_cons, e]; abel
      · rw [List.set_cons_succ, listOf_cons, e']; abel

theorem treesOf_pick {ts : List (Ptr × Bool × Tr T)} {k : Nat} {t : Ptr × Bool × Tr T} (h : ts[k]? = some t) :
    ∃ m, treesOf ts = cells t.1 t.2.1 t.2.2 + m ∧ ∀ t', treesOf (ts.set k t') = cells t'.1 t'.2.1 t'.2.2 + m := by
  induction ts generalizing k with
  | nil => simp at h
  | cons a fs ih =>
    cases k with
    | zero => simp only [List.getElem?_cons_zero, Option.some.injEq] at h; subst h; exact ⟨treesOf fs, by simp, by simp⟩
    | succ k =>
      obtain ⟨m, e, e'⟩ := ih (by simpa using h)
      refine ⟨cells a.1 a.2.1 a.2.2 + m, ?_, fun c' => ?_⟩
      · rw [treesOf_cons, e]; abel
      · rw [List.set_cons_succ, treesOf_cons, e']; abel

/-! ### one cell -/

theorem Hold.read {s : Dom T} {rt : Ptr} {g : Nat × Nat} {p : Ptr} {n : Node T} {m : Multiset (Cell T)} (h : Hold s rt g ({(p, n)} + m)) :
    s.heap p = some n := h.cell (p, n) (by simp)

theorem Hold.ne {s : Dom T} {rt : Ptr} {g : Nat × Nat} {p p' : Ptr} {n n' : Node T} {m : Multiset (Cell T)}
    (h : Hold s rt g ({(p, n)} + ({(p', n')} + m))) : p ≠ p' := by
  have hn := h.nodup
  rw [Multiset.map_add, Multiset.map_add, Multiset.map_singleton, Multiset.map_singleton, Multiset.singleton_add, Multiset.singleton_add,
    Multiset.nodup_cons, Multiset.mem_cons, not_or] at hn
  exact hn.1.1

theorem Hold.write {s : Dom T} {rt : Ptr} {g : Nat × Nat} {p : Ptr} {n : Node T} {m : Multiset (Cell T)} (h : Hold s rt g ({(p, n)} + m)) (n' : Node T) :
    Hold (s.set p n') rt g ({(p, n')} + m) := by
  have hn := h.nodup
  rw [Multiset.map_add, Multiset.map_singleton, Multiset.singleton_add, Multiset.nodup_cons] at hn
  refine ⟨h.root, h.next, h.len, ?_, ?_, ?_, h.pos⟩
  · rw [Multiset.map_add, Multiset.map_singleton, Multiset.singleton_add, Multiset.nodup_cons]; exact hn
  · intro c hc
    rcases Multiset.mem_add.1 hc with hc | hc
    · rw [Multiset.mem_singleton.1 hc]; simp [Dom.set]
    · have hne : c.1 ≠ p := fun e => hn.1 (by
        have h2 := Multiset.mem_map_of_mem Prod.fst hc
        rw [e] at h2; exact h2)
      simp only [Dom.set, hne, if_false]
      exact h.cell c (Multiset.mem_add.2 (.inr hc))
  · intro c hc
    rcases Multiset.mem_add.1 hc with hc | hc
    · rw [Multiset.mem_singleton.1 hc]; exact h.bound (p, n) (by simp)
    · exact h.bound c (Multiset.mem_add.2 (.inr hc))

section rules
variable {s : Dom T} {g : Nat × Nat} {S : Slot T} {q : Ptr} {fs : List (Cell T)} {ts : List (Ptr × Bool × Tr T)} {m : Multiset (Cell T)}

theorem H.pick (h : H s g S q fs ts m) {k : Nat} {p : Ptr} {n : Node T} (hk : fs[k]? = some (p, n)) :
    ∃ m', Hold s (S.rt q) g ({(p, n)} + m') ∧ ∀ s' n', Hold s' (S.rt q) g ({(p, n')} + m') → H s' g S q (fs.set k (p, n')) ts m := by
  obtain ⟨m', e, e'⟩ := listOf_pick hk
  refine ⟨S.cells q + m' + treesOf ts + m, ?_, fun s' n' h' => ?_⟩
  · unfold H at h; rw [e] at h
    exact (by abel : S.cells q + ({(p, n)} + m') + treesOf ts + m = {(p, n)} + (S.cells q + m' + treesOf ts + m)) ▸ h
  · unfold H; rw [e']
    exact (by abel : S.cells q + ({(p, n')} + m') + treesOf ts + m = {(p, n')} + (S.cells q + m' + treesOf ts + m)) ▸ h'

theorem H.heap (h : H s g S q fs ts m) (k : Nat) {p : Ptr} {n : Node T} (hk : fs[k]? = some (p, n)) : s.heap p = some n := by
  obtain ⟨m', h', _⟩ := h.pick hk
  exact h'.read

theorem H.nz (h : H s g S q fs ts m) (k : Nat) {p : Ptr} {n : Node T} (hk : fs[k]? = some (p, n)) : p ≠ 0 := by
  obtain ⟨m', h', _⟩ := h.pick hk
  exact (h'.bound (p, n) (by simp)).1

theorem H.upd (h : H s g S q fs ts m) (k : Nat) {p : Ptr} {n : Node T} (hk : fs[k]? = some (p, n)) (f : Node T → Node T)
    {Q : Unit → Dom T → Prop} (hq : ∀ s', H s' g S q (fs.set k (p, f n)) ts m → Q () s') : WP (Dom.upd p f) s Q := by
  obtain ⟨m', h', hb⟩ := h.pick hk
  exact ⟨(), s.set p (f n), by simp [Dom.upd, h'.read], hq _ (hb _ _ (h'.write _))⟩

theorem H.deref (h : H s g S q fs ts m) (k : Nat) {p : Ptr} {n : Node T} (hk : fs[k]? = some (p, n))
    {Q : Node T → Dom T → Prop} (hq : Q n s) : WP (Dom.deref p) s Q := ⟨n, s, by simp [Dom.deref, h.heap k hk], hq⟩

theorem H.ne (h : H s g S q fs ts m) (k k' : Nat) {p p' : Ptr} {n n' : Node T} (hk : fs[k]? = some (p, n)) (hk' : fs[k']? = some (p', n'))
    (hne : k ≠ k') : p ≠ p' := by
  obtain ⟨m1, e, e'⟩ := listOf_pick hk
  unfold H at h
  -- replace the cell by a marker to see the second one next to it
  have h2 : ∃ m2, m1 = {(p', n')} + m2 := by
    clear h
    induction fs generalizing k k' m1 with
    | nil => simp at hk
    | cons a fs ih =>
      cases k with
      | zero =>
        cases k' with
        | zero => exact absurd rfl hne
        | succ k' =>
          simp only [List.getElem?_cons_zero, Option.some.injEq] at hk
          obtain ⟨m2, e2, _⟩ := listOf_pick (show fs[k']? = some (p', n') by simpa using hk')
          refine ⟨m2, ?_⟩
          rw [listOf_cons, hk, e2] at e
          exact (Multiset.add_right_inj.1 e).symm
      | succ k =>
        cases k' with
        | zero =>
          simp only [List.getElem?_cons_zero, Option.some.injEq] at hk'
          obtain ⟨m2, e2, _⟩ := listOf_pick (show fs[k]? = some (p, n) by simpa using hk)
          refine ⟨m2, ?_⟩
          rw [listOf_cons, hk', e2] at e
          have : ({(p, n)} : Multiset (Cell T)) + ({(p', n')} + m2) = {(p, n)} + m1 := by rw [← e]; abel
          exact (Multiset.add_right_inj.1 this).symm
        | succ k' =>
          obtain ⟨m3, e3, e3'⟩ := listOf_pick (show fs[k]? = some (p, n) by simpa using hk)
          obtain ⟨m2, e2⟩ := ih k k' (by simpa using hk) (by simpa using hk') (by omega) m3 e3 e3'
          refine ⟨{a} + m2, ?_⟩
          rw [listOf_cons, e3, e2] at e
          have : ({(p, n)} : Multiset (Cell T)) + ({(p', n')} + ({a} + m2)) = {(p, n)} + m1 := by rw [← e]; abel
          exact (Multiset.add_right_inj.1 this).symm
  obtain ⟨m2, e2⟩ := h2
  rw [e, e2] at h
  have h3 : Hold s (S.rt q) g ({(p, n)} + ({(p', n')} + (S.cells q + m2 + treesOf ts + m))) :=
    (by abel : S.cells q + ({(p, n)} + ({(p', n')} + m2)) + treesOf ts + m = {(p, n)} + ({(p', n')} + (S.cells q + m2 + treesOf ts + m))) ▸ h
  exact h3.ne

/-- a cell and a tree -/
theorem H.ne_tree (h : H s g S q fs ts m) (k k' : Nat) {p : Ptr} {n : Node T} {t : Ptr × Bool × Tr T} (hk : fs[k]? = some (p, n))
    (hk' : ts[k']? = some t) : p ≠ t.2.2.ptr := by
  have hz := h.nz k hk
  obtain ⟨par, sub, t⟩ := t
  cases t with
  | nil => simpa [Tr.ptr] using hz
  | node i l d r =>
    obtain ⟨m1, e1, _⟩ := listOf_pick hk
    obtain ⟨m2, e2, _⟩ := treesOf_pick hk'
    unfold H at h
    rw [e1, e2, cells] at h
    have h3 : Hold s (S.rt q) g ({(p, n)} + ({(i.addr, Info.node i sub l.ptr r.ptr par d.ptr)} + (S.cells q + m1 +
        (cells i.addr true d + cells i.addr false l + cells i.addr false r) + m2 + m))) := by
      refine Eq.mp (congrArg (Hold s (S.rt q) g) ?_) h
      simp only []
      abel
    exact h3.ne

/-- two trees that do not both end at once -/
theorem H.tree_ne (h : H s g S q fs ts m) (k k' : Nat) {t t' : Ptr × Bool × Tr T} (hk : ts[k]? = some t)
    (hk' : ts[k']? = some t') (hne : k ≠ k') (hz : t.2.2.ptr ≠ 0) : t.2.2.ptr ≠ t'.2.2.ptr := by
  obtain ⟨par, sub, t⟩ := t
  cases t with
  | nil => exact absurd rfl hz
  | node i l d r =>
    obtain ⟨m2, e2, e2'⟩ := treesOf_pick hk
    have h3 : H s g S q ((i.addr, Info.node i sub l.ptr r.ptr par d.ptr) :: fs) (ts.set k (0, false, .nil))
        (cells i.addr true d + cells i.addr false l + cells i.addr false r + m) := by
      refine h.conv rfl ?_
      rw [e2, e2']
      simp only [cells, listOf_cons]
      abel
    exact h3.ne_tree 0 k' (t := t') rfl (by rw [List.getElem?_set_ne hne]; exact hk')

theorem H.adopt (h : H s g S q fs ts m) (k : Nat) {par : Ptr} {sub : Bool} {t : Tr T} (hk : ts[k]? = some (par, sub, t)) (p : Ptr)
    {Q : Unit → Dom T → Prop} (hq : ∀ s', H s' g S q fs (ts.set k (p, sub, t)) m → Q () s') : WP (Dom.adopt t.ptr p) s Q := by
  cases t with
  | nil =>
    refine ⟨(), s, by simp [Dom.adopt, Tr.ptr], hq s ?_⟩
    obtain ⟨m1, e1, e1'⟩ := treesOf_pick hk
    refine h.conv rfl ?_
    rw [e1, e1']; rfl
  | node i l d r =>
    obtain ⟨m1, e1, e1'⟩ := treesOf_pick hk
    have h3 : H s g S q ((i.addr, Info.node i sub l.ptr r.ptr par d.ptr) :: fs) [] (m1 +
        (cells i.addr true d + cells i.addr false l + cells i.addr false r) + m) := by
      refine h.conv rfl ?_
      rw [e1]
      simp only [cells, listOf_cons, treesOf_nil]
      abel
    have hz := h3.nz 0 rfl
    show WP (Dom.adopt i.addr p) s Q
    unfold Dom.adopt
    rw [if_pos hz]
    refine h3.upd 0 rfl _ fun s' h' => hq _ ?_
    refine h'.conv rfl ?_
    rw [e1']
    simp only [cells, listOf_cons, treesOf_nil, List.set_cons_zero, Info.node]
    abel

theorem H.load (h : H s g S q fs ts m) {Q : Ptr → Dom T → Prop} (hq : Q q s) : WP (Dom.load S.loc) s Q := by
  cases S with
  | root => exact ⟨q, s, by simp only [Dom.load, Slot.loc]; rw [St.get_bind]; simp [show s.root = q from Hold.root h], hq⟩
  | down r p n =>
    have h3 : Hold s r g ({(p, { n with down := q })} + (listOf fs + treesOf ts + m)) := by
      refine Eq.mp (congrArg (Hold s r g) ?_) (show Hold _ _ _ _ from h)
      simp only [Slot.cells]; abel
    refine ⟨q, s, ?_, hq⟩
    simp only [Dom.load, Slot.loc, Dom.down]
    rw [St.bind_ok (a := { n with down := q }) (s' := s) (by simp [Dom.deref, h3.read])]
    rfl

theorem H.store (h : H s g S q fs ts m) (q' : Ptr) {Q : Unit → Dom T → Prop} (hq : ∀ s', H s' g S q' fs ts m → Q () s') :
    WP (Dom.store S.loc q') s Q := by
  cases S with
  | root =>
    refine ⟨(), { s with root := q' }, rfl, hq _ ?_⟩
    have h' : Hold s q g (0 + listOf fs + treesOf ts + m) := h
    exact ⟨rfl, h'.next, h'.len, h'.nodup, h'.cell, h'.bound, h'.pos⟩
  | down r p n =>
    have h3 : Hold s r g ({(p, { n with down := q })} + (listOf fs + treesOf ts + m)) := by
      refine Eq.mp (congrArg (Hold s r g) ?_) (show Hold _ _ _ _ from h)
      simp only [Slot.cells]; abel
    refine ⟨(), s.set p { n with down := q' }, by simp [Dom.store, Slot.loc, Dom.set_down, Dom.upd, h3.read], hq _ ?_⟩
    unfold H
    have h4 := h3.write { n with down := q' }
    refine Eq.mp (congrArg (Hold _ r g) ?_) h4
    simp only [Slot.cells]; abel

/-- the slot and a cell -/
theorem H.up_ne (h : H s g S q fs ts m) (k : Nat) {p : Ptr} {n : Node T} (hk : fs[k]? = some (p, n)) : S.up ≠ p := by
  cases S with
  | root => exact (h.nz k hk).symm
  | down r p' n' =>
    have h3 : H s g .root r ((p', { n' with down := q }) :: fs) ts m := h.conv rfl (by simp only [Slot.cells, listOf_cons]; abel)
    exact h3.ne 0 (k + 1) rfl (by simpa using hk) (by omega)

end rules

/-! ### reading and writing fields -/

section fields
variable {s : Dom T} {g : Nat × Nat} {S : Slot T} {q : Ptr} {fs : List (Cell T)} {ts : List (Ptr × Bool × Tr T)} {m : Multiset (Cell T)}

theorem H.left (h : H s g S q fs ts m) (k : Nat) {p : Ptr} {n : Node T} (hk : fs[k]? = some (p, n))
    {Q : Ptr → Dom T → Prop} (hq : Q n.left s) : WP (Dom.left p) s Q := WP.bind (h.deref k hk (WP.pure hq))
theorem H.right (h : H s g S q fs ts m) (k : Nat) {p : Ptr} {n : Node T} (hk : fs[k]? = some (p, n))
    {Q : Ptr → Dom T → Prop} (hq : Q n.right s) : WP (Dom.right p) s Q := WP.bind (h.deref k hk (WP.pure hq))
theorem H.parent (h : H s g S q fs ts m) (k : Nat) {p : Ptr} {n : Node T} (hk : fs[k]? = some (p, n))
    {Q : Ptr → Dom T → Prop} (hq : Q n.parent s) : WP (Dom.parent p) s Q := WP.bind (h.deref k hk (WP.pure hq))
theorem H.down (h : H s g S q fs ts m) (k : Nat) {p : Ptr} {n : Node T} (hk : fs[k]? = some (p, n))
    {Q : Ptr → Dom T → Prop} (hq : Q n.down s) : WP (Dom.down p) s Q := WP.bind (h.deref k hk (WP.pure hq))
theorem H.value (h : H s g S q fs ts m) (k : Nat) {p : Ptr} {n : Node T} (hk : fs[k]? = some (p, n))
    {Q : Option T → Dom T → Prop} (hq : Q n.value s) : WP (Dom.get_value p) s Q := WP.bind (h.deref k hk (WP.pure hq))
theorem H.subroot (h : H s g S q fs ts m) (k : Nat) {p : Ptr} {n : Node T} (hk : fs[k]? = some (p, n))
    {Q : Bool → Dom T → Prop} (hq : Q n.flag.is_subtree_root s) : WP (Dom.is_subtree_root p) s Q := WP.bind (h.deref k hk (WP.pure hq))
theorem H.color (h : H s g S q fs ts m) (k : Nat) {p : Ptr} {n : Node T} (hk : fs[k]? = some (p, n))
    {Q : Color → Dom T → Prop} (hq : Q n.flag.get_color s) : WP (Dom.get_color p) s Q := by
  unfold Dom.get_color
  rw [if_neg (h.nz k hk)]
  exact WP.bind (h.deref k hk (WP.pure hq))

/-- the colour of a tree in the assertion -/
theorem H.tree_color (h : H s g S q fs ts m) (k : Nat) {t : Ptr × Bool × Tr T} (hk : ts[k]? = some t)
    {Q : Color → Dom T → Prop} (hq : Q (if t.2.2.isRed then .Red else .Black) s) : WP (Dom.get_color t.2.2.ptr) s Q := by
  obtain ⟨par, sub, t⟩ := t
  cases t with
  | nil => simp only [Tr.isRed, Bool.false_eq_true, if_false, Tr.ptr] at *; exact ⟨_, _, by simp [Dom.get_color], hq⟩
  | node i l d r =>
    obtain ⟨m1, e1, e1'⟩ := treesOf_pick hk
    have h3 : H s g S q ((i.addr, Info.node i sub l.ptr r.ptr par d.ptr) :: fs) [] (m1 +
        (cells i.addr true d + cells i.addr false l + cells i.addr false r) + m) := by
      refine h.conv rfl ?_
      rw [e1]
      simp only [cells, listOf_cons, treesOf_nil]
      abel
    refine h3.color 0 rfl ?_
    have e : (Info.node i sub l.ptr r.ptr par d.ptr).flag.get_color = if i.red then .Red else .Black := mkFlag_get_color ..
    rw [e]; exact hq

end fields

end Dom
end R53
