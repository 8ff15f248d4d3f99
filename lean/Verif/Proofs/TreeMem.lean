import Verif.Proofs.TreeNodes
import Verif.Proofs.TreeValues
import Verif.Spec.Mem
/-!
# What the tree allocates and frees
-/
namespace R53
namespace Dom
variable {T : Type}

/-! ## programs that neither allocate nor free -/

/-- the same addresses are allocated -/
structure Quiet (s s' : Dom T) : Prop where
  next : s'.next = s.next
  dom : ∀ p, (s'.heap p).isSome = (s.heap p).isSome

theorem Quiet.refl (s : Dom T) : Quiet s s := ⟨rfl, fun _ => rfl⟩
theorem Quiet.trans {a b c : Dom T} (h : Quiet a b) (h' : Quiet b c) : Quiet a c := ⟨h'.next.trans h.next, fun p => (h'.dom p).trans (h.dom p)⟩

/-- the program neither allocates nor frees, and leaves the length alone -/
structure Keeps {α : Type} (f : St (Dom T) α) : Prop where
  all : ∀ s, Quiet s (f s).2 ∧ (f s).2.len = s.len

section
variable {α β : Type}

theorem Keeps.pure (a : α) : Keeps (Pure.pure a : St (Dom T) α) := ⟨fun s => ⟨Quiet.refl s, rfl⟩⟩
theorem Keeps.get : Keeps (St.get : St (Dom T) (Dom T)) := ⟨fun s => ⟨Quiet.refl s, rfl⟩⟩
theorem Keeps.lift (r : Res α) : Keeps (St.lift r : St (Dom T) α) := ⟨fun s => ⟨Quiet.refl s, rfl⟩⟩
theorem Keeps.boom : Keeps (St.boom : St (Dom T) α) := ⟨fun s => ⟨Quiet.refl s, rfl⟩⟩
theorem Keeps.bind {f : St (Dom T) α} {g : α → St (Dom T) β} (hf : Keeps f) (hg : ∀ a, Keeps (g a)) : Keeps (f >>= g) := by
  refine ⟨fun s => ?_⟩
  obtain ⟨h1, h2⟩ := hf.all s
  rw [St.bind_apply]
  cases e : f s with
  | mk r s1 =>
    rw [e] at h1 h2
    cases r with
    | ok a => obtain ⟨h3, h4⟩ := (hg a).all s1; exact ⟨h1.trans h3, h4.trans h2⟩
    | err => exact ⟨h1, h2⟩
    | panic => exact ⟨h1, h2⟩
theorem Keeps.ite {c : Prop} [Decidable c] {f g : St (Dom T) α} (hf : Keeps f) (hg : Keeps g) : Keeps (if c then f else g) := by split <;> assumption

end

theorem Keeps.deref (p : Ptr) : Keeps (deref p : St (Dom T) _) := by
  refine ⟨fun s => ?_⟩; unfold Dom.deref; split <;> exact ⟨Quiet.refl s, rfl⟩
theorem Keeps.upd (p : Ptr) (f : Node T → Node T) : Keeps (upd p f) := by
  refine ⟨fun s => ?_⟩; unfold Dom.upd
  cases e : s.heap p with
  | none => exact ⟨Quiet.refl s, rfl⟩
  | some n =>
    refine ⟨⟨rfl, fun q => ?_⟩, rfl⟩
    show (if q = p then some (f n) else s.heap q).isSome = _
    split
    · rename_i h; rw [h, e]; rfl
    · rfl

/-- splits a program into its steps -/
macro "keeps" : tactic => `(tactic| repeat' first
  | intro _ | assumption | with_reducible exact Keeps.pure _ | with_reducible exact Keeps.get | with_reducible exact Keeps.lift _ | with_reducible exact Keeps.boom | with_reducible exact Keeps.deref _ | with_reducible exact Keeps.upd _ _
  | with_reducible refine Keeps.bind ?_ ?_ | with_reducible refine Keeps.ite ?_ ?_ | split)

theorem Keeps.set_color (p : Ptr) (c : Color) : Keeps (set_color p c : St (Dom T) _) := by unfold Dom.set_color; keeps
theorem Keeps.get_color (p : Ptr) : Keeps (get_color p : St (Dom T) _) := by unfold Dom.get_color; keeps
theorem Keeps.is_red (p : Ptr) : Keeps (is_red p : St (Dom T) _) := by unfold Dom.is_red Dom.get_color; keeps
theorem Keeps.is_black (p : Ptr) : Keeps (is_black p : St (Dom T) _) := by unfold Dom.is_black Dom.is_red Dom.get_color; keeps
theorem Keeps.set_subtree_root (p : Ptr) (b : Bool) : Keeps (set_subtree_root p b : St (Dom T) _) := by unfold Dom.set_subtree_root; keeps
theorem Keeps.is_subtree_root (p : Ptr) : Keeps (is_subtree_root p : St (Dom T) _) := by unfold Dom.is_subtree_root; keeps
theorem Keeps.set_callback (p : Ptr) (b : Bool) : Keeps (set_callback p b : St (Dom T) _) := by unfold Dom.set_callback; keeps
theorem Keeps.set_wildcard (p : Ptr) (b : Bool) : Keeps (set_wildcard p b : St (Dom T) _) := by unfold Dom.set_wildcard; keeps
theorem Keeps.get_value (p : Ptr) : Keeps (get_value p : St (Dom T) _) := by unfold Dom.get_value; keeps
theorem Keeps.set_value (p : Ptr) (v : Option T) : Keeps (set_value p v : St (Dom T) _) := by unfold Dom.set_value; keeps
theorem Keeps.set_parent (p q : Ptr) : Keeps (set_parent p q : St (Dom T) _) := by unfold Dom.set_parent; keeps
theorem Keeps.set_left (p q : Ptr) : Keeps (set_left p q : St (Dom T) _) := by unfold Dom.set_left; keeps
theorem Keeps.set_right (p q : Ptr) : Keeps (set_right p q : St (Dom T) _) := by unfold Dom.set_right; keeps
theorem Keeps.set_down (p q : Ptr) : Keeps (set_down p q : St (Dom T) _) := by unfold Dom.set_down; keeps
theorem Keeps.parent (p : Ptr) : Keeps (parent p : St (Dom T) _) := by unfold Dom.parent; keeps
theorem Keeps.down (p : Ptr) : Keeps (down p : St (Dom T) _) := by unfold Dom.down; keeps
theorem Keeps.left (p : Ptr) : Keeps (left p : St (Dom T) _) := by unfold Dom.left; keeps
theorem Keeps.right (p : Ptr) : Keeps (right p : St (Dom T) _) := by unfold Dom.right; keeps
theorem Keeps.load (l : Loc) : Keeps (load l : St (Dom T) _) := by unfold Dom.load Dom.down; keeps
theorem Keeps.store (l : Loc) (q : Ptr) : Keeps (store l q : St (Dom T) _) := by
  unfold Dom.store
  cases l with
  | root => exact ⟨fun s => ⟨⟨rfl, fun _ => rfl⟩, rfl⟩⟩
  | down p => exact Keeps.set_down p q

/-- with the functions of one node -/
macro "keep" : tactic => `(tactic| repeat' first
  | intro _ | assumption | with_reducible exact Keeps.pure _ | with_reducible exact Keeps.get | with_reducible exact Keeps.lift _ | with_reducible exact Keeps.boom | with_reducible exact Keeps.deref _ | with_reducible exact Keeps.upd _ _
  | with_reducible exact Keeps.set_color _ _ | with_reducible exact Keeps.get_color _ | with_reducible exact Keeps.is_red _ | with_reducible exact Keeps.is_black _ | with_reducible exact Keeps.set_subtree_root _ _
  | with_reducible exact Keeps.is_subtree_root _ | with_reducible exact Keeps.get_value _ | with_reducible exact Keeps.set_value _ _ | with_reducible exact Keeps.set_parent _ _ | with_reducible exact Keeps.set_left _ _
  | with_reducible exact Keeps.set_right _ _ | with_reducible exact Keeps.set_down _ _ | with_reducible exact Keeps.parent _ | with_reducible exact Keeps.down _ | with_reducible exact Keeps.left _ | with_reducible exact Keeps.right _
  | with_reducible exact Keeps.load _ | with_reducible exact Keeps.store _ _ | with_reducible exact Keeps.set_callback _ _ | with_reducible exact Keeps.set_wildcard _ _
  | with_reducible refine Keeps.bind ?_ ?_ | with_reducible refine Keeps.ite ?_ ?_ | split)

theorem Keeps.grand_parent (p : Ptr) : Keeps (grand_parent p : St (Dom T) _) := by unfold Dom.grand_parent; keep
theorem Keeps.uncle (p : Ptr) : Keeps (uncle p : St (Dom T) _) := by unfold Dom.uncle Dom.grand_parent; keep
theorem Keeps.subtreeRootLoop (f : Nat) : ∀ p : Ptr, Keeps (subtreeRootLoop f p : St (Dom T) _) := by
  induction f with
  | zero => intro p; exact Keeps.boom
  | succ f ih => intro p; rw [Dom.subtreeRootLoop]; keep; exact ih _
theorem Keeps.get_upper_node (p : Ptr) : Keeps (get_upper_node p : St (Dom T) _) := by
  unfold Dom.get_upper_node Dom.subtree_root; keep; exact Keeps.subtreeRootLoop _ _
theorem Keeps.get_sibling (p q : Ptr) : Keeps (get_sibling p q : St (Dom T) _) := by unfold Dom.get_sibling; keep
theorem Keeps.connect_child (l : Loc) (a b c : Ptr) : Keeps (connect_child l a b c : St (Dom T) _) := by unfold Dom.connect_child; keep
theorem Keeps.adopt (a b : Ptr) : Keeps (adopt a b : St (Dom T) _) := by unfold Dom.adopt; keep
theorem Keeps.left_rotate (l : Loc) (p : Ptr) : Keeps (left_rotate l p : St (Dom T) _) := by unfold Dom.left_rotate; keep <;> exact Keeps.adopt _ _
theorem Keeps.right_rotate (l : Loc) (p : Ptr) : Keeps (right_rotate l p : St (Dom T) _) := by unfold Dom.right_rotate; keep <;> exact Keeps.adopt _ _

/-- with everything before the loops -/
macro "kept" : tactic => `(tactic| repeat' first
  | intro _ | assumption | with_reducible exact Keeps.pure _ | with_reducible exact Keeps.get | with_reducible exact Keeps.lift _ | with_reducible exact Keeps.boom | with_reducible exact Keeps.deref _ | with_reducible exact Keeps.upd _ _
  | with_reducible exact Keeps.set_color _ _ | with_reducible exact Keeps.get_color _ | with_reducible exact Keeps.is_red _ | with_reducible exact Keeps.is_black _ | with_reducible exact Keeps.set_subtree_root _ _
  | with_reducible exact Keeps.is_subtree_root _ | with_reducible exact Keeps.get_value _ | with_reducible exact Keeps.set_value _ _ | with_reducible exact Keeps.set_parent _ _ | with_reducible exact Keeps.set_left _ _
  | with_reducible exact Keeps.set_right _ _ | with_reducible exact Keeps.set_down _ _ | with_reducible exact Keeps.parent _ | with_reducible exact Keeps.down _ | with_reducible exact Keeps.left _ | with_reducible exact Keeps.right _
  | with_reducible exact Keeps.load _ | with_reducible exact Keeps.store _ _ | with_reducible exact Keeps.grand_parent _ | with_reducible exact Keeps.uncle _ | with_reducible exact Keeps.get_upper_node _
  | with_reducible exact Keeps.get_sibling _ _ | with_reducible exact Keeps.connect_child _ _ _ _ | with_reducible exact Keeps.adopt _ _ | with_reducible exact Keeps.left_rotate _ _ | with_reducible exact Keeps.right_rotate _ _
  | with_reducible refine Keeps.bind ?_ ?_ | with_reducible refine Keeps.ite ?_ ?_ | split)

theorem Keeps.exchange (a b : Ptr) (l : Loc) : Keeps (exchange a b l : St (Dom T) _) := by
  unfold Dom.exchange Dom.swapLeft Dom.swapRight Dom.swapParent Dom.swapFlags Dom.relinkSelf; kept
theorem Keeps.insertRotate (l : Loc) (a b c : Ptr) : Keeps (insertRotate l a b c : St (Dom T) _) := by unfold Dom.insertRotate; kept
theorem Keeps.insertFixLoop (l : Loc) (f : Nat) : ∀ p : Ptr, Keeps (insertFixLoop l f p : St (Dom T) _) := by
  induction f with
  | zero => intro p; exact Keeps.boom
  | succ f ih =>
    intro p; rw [Dom.insertFixLoop]; kept
    · exact ih _
    · exact Keeps.insertRotate _ _ _ _
theorem Keeps.insert_fixup (l : Loc) (p : Ptr) : Keeps (insert_fixup l p : St (Dom T) _) := by
  unfold Dom.insert_fixup; kept; exact Keeps.insertFixLoop _ _ _
theorem Keeps.removeRotate (l : Loc) (a b c : Ptr) : Keeps (removeRotate l a b c : St (Dom T) _) := by unfold Dom.removeRotate; kept
theorem Keeps.removeRedSibling (l : Loc) (a b : Ptr) : Keeps (removeRedSibling l a b : St (Dom T) _) := by unfold Dom.removeRedSibling; kept
theorem Keeps.removeFixLoop (l : Loc) (f : Nat) : ∀ a b : Ptr, Keeps (removeFixLoop l f a b : St (Dom T) _) := by
  induction f with
  | zero => intro a b; exact Keeps.boom
  | succ f ih =>
    intro a b; rw [Dom.removeFixLoop]; kept
    · exact Keeps.removeRedSibling _ _ _
    · exact ih _ _
    · exact Keeps.removeRotate _ _ _ _
theorem Keeps.rightMostLoop (f : Nat) : ∀ p : Ptr, Keeps (rightMostLoop f p : St (Dom T) _) := by
  induction f with
  | zero => intro p; exact Keeps.boom
  | succ f ih => intro p; rw [Dom.rightMostLoop]; kept; exact ih _
theorem Keeps.unlink (a b : Ptr) : Keeps (unlink a b : St (Dom T) _) := by
  unfold Dom.unlink Dom.remove_fixup; kept
  all_goals first | exact Keeps.rightMostLoop _ _ | exact Keeps.exchange _ _ _ | exact Keeps.removeFixLoop _ _ _ _

/-! ## removal -/

/-- the program neither allocates nor frees -/
structure Calms {α : Type} (f : St (Dom T) α) : Prop where
  all : ∀ s, Quiet s (f s).2

theorem Keeps.calms {α : Type} {f : St (Dom T) α} (h : Keeps f) : Calms f := ⟨fun s => (h.all s).1⟩
theorem Calms.bind {α β : Type} {f : St (Dom T) α} {g : α → St (Dom T) β} (hf : Calms f) (hg : ∀ a, Calms (g a)) : Calms (f >>= g) := by
  refine ⟨fun s => ?_⟩
  have h1 := hf.all s
  rw [St.bind_apply]
  cases e : f s with
  | mk r s1 =>
    rw [e] at h1
    cases r with
    | ok a => exact h1.trans ((hg a).all s1)
    | err => exact h1
    | panic => exact h1
theorem Calms.ite {α : Type} {c : Prop} [Decidable c] {f g : St (Dom T) α} (hf : Calms f) (hg : Calms g) : Calms (if c then f else g) := by split <;> assumption

theorem Calms.removeLoop (f : Nat) : ∀ p : Ptr, Calms (removeLoop f p : St (Dom T) _) := by
  induction f with
  | zero => intro p; exact Keeps.boom.calms
  | succ f ih =>
    intro p
    rw [Dom.removeLoop]
    refine Calms.bind (Keeps.get_upper_node p).calms fun up => Calms.bind (Keeps.unlink p up).calms fun _ => ⟨fun s => ?_⟩
    rw [St.get_bind]
    cases e : csub s.len 1 with
    | err => rw [St.lift_err_bind rfl]; exact Quiet.refl s
    | panic => exact Quiet.refl s
    | ok l =>
      rw [St.lift_ok_bind rfl, St.put_bind]
      refine Quiet.trans (b := { s with len := l }) ⟨rfl, fun _ => rfl⟩ ((Calms.ite (Keeps.pure ()).calms (Calms.bind (Keeps.get_value up).calms fun v =>
        Calms.ite (Keeps.pure ()).calms (Calms.bind (Keeps.down up).calms fun d => Calms.ite (Keeps.pure ()).calms (ih up)))).all _)

theorem Calms.remove_node (p : Ptr) : Calms (remove_node p : St (Dom T) _) := by
  unfold Dom.remove_node
  refine Calms.bind (Keeps.set_value p none).calms fun o => Calms.bind (Keeps.down p).calms fun d => Calms.ite (Keeps.pure _).calms
    (Calms.bind Keeps.get.calms fun s => Calms.bind (Calms.removeLoop _ _) fun _ => (Keeps.pure _).calms)

/-! ## insertion -/

macro "om" : tactic => `(tactic| ((try simp only [Nat.le_eq, Nat.lt_eq, Ptr] at *); omega))

/-- `k` nodes more are allocated, and the length has grown by as much -/
structure Gain (s s' : Dom T) (k : Nat) : Prop where
  next : s'.next = s.next + k
  dom : ∀ p, (s'.heap p).isSome = true ↔ (s.heap p).isSome = true ∨ Nat.le s.next p ∧ Nat.lt p (s.next + k)
  len : s'.len = s.len + k

theorem Gain.refl (s : Dom T) : Gain s s 0 := ⟨rfl, fun p => ⟨.inl, fun h => h.elim id fun h => by om⟩, rfl⟩
theorem Gain.trans {a b c : Dom T} {j k : Nat} (h : Gain a b j) (h' : Gain b c k) : Gain a c (j + k) := by
  refine ⟨by rw [h'.next, h.next]; om, fun p => ?_, by rw [h'.len, h.len]; om⟩
  rw [h'.dom, h.dom, h.next]
  constructor
  · rintro ((h | h) | h)
    · exact .inl h
    · exact .inr (by om)
    · exact .inr (by om)
  · rintro (h | h)
    · exact .inl (.inl h)
    · by_cases h2 : p < a.next + j
      · exact .inl (.inr (by om))
      · exact .inr (by om)

/-- a program that, where it succeeds, has allocated `k` nodes -/
structure Gains {α : Type} (f : St (Dom T) α) : Prop where
  all : ∀ s a s', f s = (.ok a, s') → ∃ k, Gain s s' k

theorem Keeps.gains {α : Type} {f : St (Dom T) α} (h : Keeps f) : Gains f := by
  refine ⟨fun s a s' e => ⟨0, ?_⟩⟩
  obtain ⟨h1, h2⟩ := h.all s
  rw [e] at h1 h2
  exact ⟨h1.next, fun p => ⟨fun h => .inl (by rw [← h1.dom]; exact h), fun h => h.elim (fun h => by rw [h1.dom]; exact h) fun h => by om⟩, h2⟩
theorem Gains.bind {α β : Type} {f : St (Dom T) α} {g : α → St (Dom T) β} (hf : Gains f) (hg : ∀ a, Gains (g a)) : Gains (f >>= g) := by
  refine ⟨fun s b s' e => ?_⟩
  obtain ⟨a, s1, e1, e2⟩ := St.bind_ok_inv e
  obtain ⟨j, h1⟩ := hf.all _ _ _ e1
  obtain ⟨k, h2⟩ := (hg a).all _ _ _ e2
  exact ⟨j + k, h1.trans h2⟩
theorem Gains.ite {α : Type} {c : Prop} [Decidable c] {f g : St (Dom T) α} (hf : Gains f) (hg : Gains g) : Gains (if c then f else g) := by split <;> assumption


theorem alloc_more (name : LabelSequence) (v : Option T) (s : Dom T) : ∃ s', alloc name v s = (.ok s.next, s') ∧ s'.next = s.next + 1 ∧ s'.len = s.len ∧
    ∀ p, (s'.heap p).isSome = true ↔ (s.heap p).isSome = true ∨ p = s.next := by
  refine ⟨_, rfl, rfl, rfl, fun p => ?_⟩
  show (if p = s.next then some _ else s.heap p).isSome = true ↔ _
  split
  · rename_i h; simp [h]
  · rename_i h; simp [h]

/-- one node more, and the length counts one more -/
theorem one_more {s s1 s2 : Dom T} (h1 : s1.next = s.next + 1) (h2 : ∀ p, (s1.heap p).isSome = true ↔ (s.heap p).isSome = true ∨ p = s.next)
    (hq : Quiet s1 s2) (hl : s2.len = s.len + 1) : Gain s s2 1 := by
  refine ⟨by rw [hq.next, h1], fun p => ?_, hl⟩
  rw [hq.dom, h2]
  refine or_congr Iff.rfl ⟨fun h => by om, fun h => by om⟩

/-- a program that counts one node more -/
structure Ends {α : Type} (f : St (Dom T) α) : Prop where
  all : ∀ s a s', f s = (.ok a, s') → Quiet s s' ∧ s'.len = s.len + 1

theorem Ends.count : Ends (fun s => (.ok (), { s with len := s.len + 1 }) : St (Dom T) Unit) :=
  ⟨fun s a s' e => by cases e; exact ⟨⟨rfl, fun _ => rfl⟩, rfl⟩⟩
theorem Ends.bind {α β : Type} {f : St (Dom T) α} {g : α → St (Dom T) β} (hf : Keeps f) (hg : ∀ a, Ends (g a)) : Ends (f >>= g) := by
  refine ⟨fun s b s' e => ?_⟩
  obtain ⟨a, s1, e1, e2⟩ := St.bind_ok_inv e
  have h1 := hf.all s
  rw [e1] at h1
  obtain ⟨h2, h3⟩ := (hg a).all _ _ _ e2
  exact ⟨h1.1.trans h2, by rw [h3, h1.2]⟩

theorem Gains.node_fission (p : Ptr) (k : Nat) : Gains (node_fission p k : St (Dom T) _) := by
  refine ⟨fun s a s' e => ⟨1, ?_⟩⟩
  unfold Dom.node_fission at e
  obtain ⟨up, s1, e1, e2⟩ := St.bind_ok_inv e
  have h1 : s1.next = s.next + 1 ∧ s1.len = s.len ∧ ∀ p, (s1.heap p).isSome = true ↔ (s.heap p).isSome = true ∨ p = s.next := by
    unfold Dom.split_to_parent at e1
    obtain ⟨n, t1, d1, e1⟩ := St.bind_ok_inv e1
    obtain ⟨c, t2, d2, e1⟩ := St.bind_ok_inv e1
    have q1 := (Keeps.deref p).all s
    rw [d1] at q1
    have q2 := (Keeps.lift (csub n.name.label_count k)).all t1
    rw [d2] at q2
    generalize n.name.split c k = r at e1
    match r, e1 with
    | .ok (par, rest), e1 =>
      obtain ⟨x, t3, d3, e1⟩ := St.bind_ok_inv e1
      have q3 := (Keeps.upd p fun n : Node T => { n with name := rest }).all t2
      rw [d3] at q3
      have hq := (q1.1.trans q2.1).trans q3.1
      obtain ⟨t4, d4, n4, l4, c4⟩ := alloc_more par none t3
      rw [d4] at e1
      cases e1
      refine ⟨by rw [n4, hq.next], by rw [l4, q3.2, q2.2, q1.2], fun q => ?_⟩
      rw [c4, hq.dom, hq.next]
    | .err, e1 => cases e1
    | .panic, e1 => cases e1
  obtain ⟨n1, l1, d1⟩ := h1
  have hk : Ends (do
      set_parent up (← parent p)
      connect_child .root p p up
      set_down up p
      set_parent p up
      set_left up (← left p)
      adopt (← left p) up
      set_right up (← right p)
      adopt (← right p) up
      set_left p 0
      set_right p 0
      set_color up (← get_color p)
      set_color p .Black
      set_subtree_root up (← is_subtree_root p)
      set_subtree_root p true
      fun s => (.ok (), { s with len := s.len + 1 }) : St (Dom T) Unit) := by
    repeat' first
      | with_reducible exact Ends.count
      | (with_reducible refine Ends.bind ?_ fun _ => ?_; · kept)
    exact Ends.bind (Keeps.set_subtree_root _ _) fun _ => Ends.count
  obtain ⟨hq, hl⟩ := hk.all _ _ _ e2
  exact one_more n1 d1 hq (by rw [hl, l1])


theorem Gains.insertLoop (m : Build) (f : Nat) : ∀ (a b c : Ptr) (o : Int) (sl : LabelSlice), Gains (insertLoop m f a b c o sl : St (Dom T) _) := by
  induction f with
  | zero => intros; exact Keeps.boom.gains
  | succ f ih =>
    intro a b c o sl
    rw [Dom.insertLoop]
    refine Gains.ite (Keeps.pure _).gains (Gains.bind (Keeps.deref _).gains fun n => Gains.bind (Keeps.lift _).gains fun cur =>
      Gains.bind (Keeps.lift _).gains fun r => ?_)
    have hd : Gains (do
        Dom.node_fission c r.common_label_count
        let q ← Dom.parent c
        Dom.insertLoop m f a b q o sl : St (Dom T) InsertPos) :=
      Gains.bind (Gains.node_fission _ _) fun _ => Gains.bind (Keeps.parent _).gains fun _ => ih _ _ _ _ _
    cases r.relation with
    | Equal => exact (Keeps.pure _).gains
    | None => exact ih _ _ _ _ _
    | SubDomain => exact Gains.bind (Keeps.lift _).gains fun _ => ih _ _ _ _ _
    | SuperDomain => exact hd
    | CommonAncestor => exact hd

theorem Gains.insertAt (n : Name) (v : Option T) (a b : Ptr) (o : Int) (sl : LabelSlice) : Gains (insertAt n v a b o sl : St (Dom T) _) := by
  refine ⟨fun s x s' e => ⟨1, ?_⟩⟩
  unfold Dom.insertAt at e
  obtain ⟨u, s1, e1, e⟩ := St.bind_ok_inv e
  cases e1
  obtain ⟨nm, s2, e2, e⟩ := St.bind_ok_inv e
  have q2 := (Keeps.lift (n.into_label_sequence sl.first_label sl.last_label)).all { s with len := s.len + 1 }
  rw [e2] at q2
  obtain ⟨nd, s3, e3, e⟩ := St.bind_ok_inv e
  obtain ⟨s4, d4, n4, l4, c4⟩ := alloc_more nm v s2
  rw [d4] at e3
  cases e3
  generalize hloc : (if b ≠ 0 then Loc.down b else Loc.root) = loc at e
  have hk : Keeps (do
      set_parent s2.next a
      if a = 0 then do
        store loc s2.next
        set_color s2.next .Black
        set_subtree_root s2.next true
        set_parent s2.next b
      else if o < 0 then do
        set_subtree_root s2.next false
        set_left a s2.next
        insert_fixup loc s2.next
      else do
        set_subtree_root s2.next false
        set_right a s2.next
        insert_fixup loc s2.next
      Pure.pure s2.next : St (Dom T) Ptr) := by
    kept
    all_goals exact Keeps.insert_fixup _ _
  have q := hk.all s3
  rw [e] at q
  refine one_more (s1 := s3) ?_ (fun p => ?_) q.1 ?_
  · rw [n4, q2.1.next]
  · rw [c4, q2.1.dom, q2.1.next]
  · rw [q.2, l4, q2.2]

theorem Gains.insert (m : Build) (n : Name) (v : Option T) : Gains (Dom.insert m n v) := by
  unfold Dom.insert
  refine Gains.bind (Keeps.lift _).gains fun sl => Gains.bind Keeps.get.gains fun s => Gains.bind (Gains.insertLoop _ _ _ _ _ _ _) fun r => ?_
  cases r with
  | found p => exact (Keeps.bind (Keeps.set_value _ _) fun _ => Keeps.pure _).gains
  | free a b o sl => exact Gains.bind (Gains.insertAt _ _ _ _ _ _) fun _ => (Keeps.pure _).gains


/-! ## operations -/

/-- nothing is allocated above `next`, and `n` nodes are below -/
structure Owns (s : Dom T) (n : Nat) : Prop where
  fresh : ∀ p, s.next ≤ p → s.heap p = none
  count : s.Allocated n

theorem Owns.new : Owns (Dom.new : Dom T) 0 := ⟨fun _ _ => rfl, [], List.nodup_nil, rfl, fun p => by simp [Dom.new]⟩

theorem Quiet.none {s s' : Dom T} (h : Quiet s s') (p : Ptr) : s'.heap p = none ↔ s.heap p = none := by
  have := h.dom p
  cases e : s'.heap p <;> cases e' : s.heap p <;> simp_all

theorem Owns.quiet {s s' : Dom T} {n : Nat} (h : Owns s n) (q : Quiet s s') : Owns s' n := by
  obtain ⟨l, h1, h2, h3⟩ := h.count
  exact ⟨fun p hp => (q.none p).2 (h.fresh p (by rw [← q.next]; exact hp)), l, h1, h2, fun p => by rw [h3, ne_eq, ne_eq, q.none]⟩

theorem Owns.gain {s s' : Dom T} {n k : Nat} (h : Owns s n) (g : Gain s s' k) : Owns s' (n + k) := by
  obtain ⟨l, h1, h2, h3⟩ := h.count
  have hd : ∀ p, s'.heap p ≠ none ↔ s.heap p ≠ none ∨ (Nat.le s.next p ∧ Nat.lt p (s.next + k)) := by
    intro p
    rw [← Option.isSome_iff_ne_none, ← Option.isSome_iff_ne_none]
    exact g.dom p
  refine ⟨fun p hp => ?_, l ++ List.range' s.next k, ?_, by simp [h2], fun p => ?_⟩
  · refine Classical.byContradiction fun hne => ?_
    rcases (hd p).1 hne with h4 | h4
    · refine h4 (h.fresh p ?_)
      rw [g.next] at hp
      exact Nat.le_trans (Nat.le_add_right _ _) hp
    · rw [g.next] at hp
      exact absurd h4.2 (Nat.not_lt.2 hp)
  · refine List.nodup_append.2 ⟨h1, List.nodup_range', fun a ha b hb e => ?_⟩
    rw [List.mem_range'_1] at hb
    subst e
    exact (h3 a).1 ha (h.fresh a hb.1)
  · rw [List.mem_append, h3, hd, List.mem_range'_1]
    exact Iff.rfl

/-- everything but `insert` and `clear` neither allocates nor frees -/
theorem exec_calm (m : Build) {op : TOp T} (hi : ∀ ls v, op ≠ .insert ls v) (hc : op ≠ .clear) : Calms (op.exec m) := by
  cases op with
  | insert ls v => exact absurd rfl (hi ls v)
  | clear => exact absurd rfl hc
  | removeNode ls =>
    exact Calms.bind Keeps.get.calms fun s => Calms.bind (Keeps.lift _).calms fun r => Calms.ite (Calms.remove_node _) (Keeps.pure _).calms
  | remove ls =>
    exact Calms.bind Keeps.get.calms fun s => Calms.bind (Keeps.lift _).calms fun r => Calms.ite (Calms.remove_node _) (Keeps.pure _).calms
  | get ls =>
    exact Calms.bind Keeps.get.calms fun s => Calms.bind (Keeps.lift _).calms fun r => Calms.ite (Keeps.lift _).calms (Keeps.pure _).calms
  | callback ls b =>
    exact Calms.bind Keeps.get.calms fun s => Calms.bind (Keeps.lift _).calms fun r =>
      Calms.ite (Calms.bind (Keeps.set_callback _ _).calms fun _ => (Keeps.pure _).calms) (Keeps.pure _).calms
  | wildcard ls b =>
    exact Calms.bind Keeps.get.calms fun s => Calms.bind (Keeps.lift _).calms fun r =>
      Calms.ite (Calms.bind (Keeps.set_wildcard _ _).calms fun _ => (Keeps.pure _).calms) (Keeps.pure _).calms

theorem exec_gain {m : Build} {ls : List Label} {v o : Option T} {s s' : Dom T} (e : (TOp.insert ls v).exec m s = (.ok o, s')) : ∃ k, Gain s s' k :=
  (Gains.bind (Gains.insert _ _ _) fun _ => (Keeps.pure _).gains).all _ _ _ e

theorem cells_addrsT (par : Ptr) (sub : Bool) (t : Tr T) : (cells par sub t).map Prod.fst = (addrsT t : Multiset Ptr) := by
  induction t generalizing par sub with
  | nil => rfl
  | node i l d r ihl ihd ihr =>
    simp only [cells, Multiset.map_add, Multiset.map_singleton, ihl, ihd, ihr, addrsT]
    rw [← Multiset.cons_coe, ← Multiset.coe_add, ← Multiset.coe_add, ← Multiset.singleton_add]
    abel

theorem addrsT_length (t : Tr T) : (addrsT t).length = t.size := by
  induction t with
  | nil => rfl
  | node i l d r ihl ihd ihr => simp only [addrsT, Tr.size, List.length_cons, List.length_append, ihl, ihd, ihr]

/-- `clear` frees the nodes of the tree -/
theorem clear_owns {s : Dom T} {t : Tr T} (h : Mem s (s.next, s.len) t) {n : Nat} (ho : Owns s (t.size + n)) {u : Unit} {s' : Dom T} (e : Dom.clear s = (.ok u, s')) : Owns s' n := by
  have h0 : Hold s t.ptr (s.next, s.len) (cells 0 true t + 0) :=
    Eq.mp (congrArg (Hold s t.ptr _) (by simp [slotOf, Slot.cells, cellsU, cellsL, lptr, Slot.up])) (Z.hold h)
  have h1 : Hold { s with root := 0 } 0 (s.next, s.len) (cells 0 true t + 0) := ⟨rfl, h0.next, h0.len, h0.nodup, h0.cell, h0.bound, h0.pos⟩
  have hroot : s.root = t.ptr := h0.root
  have hsz : t.size < s.next := W.size_lt h
  obtain ⟨_, s2, e2, h2, f2⟩ := clear_recurse_spec (s.next + 1) h1 (Nat.lt_succ_of_lt hsz)
  have e3 : Dom.clear s = clear_recurse (s.next + 1) s.root { s with root := 0 } := rfl
  rw [e3, hroot, e2] at e
  cases e
  obtain ⟨l, l1, l2, l3⟩ := ho.count
  have hnd : (addrsT t).Nodup := by
    have := h0.nodup
    simp only [Multiset.map_add, Multiset.map_zero, add_zero] at this
    rw [cells_addrsT] at this
    exact Multiset.coe_nodup.1 this
  have hin : ∀ p ∈ addrsT t, s.heap p ≠ none := by
    intro p hp
    have : p ∈ (cells 0 true t).map Prod.fst := by rw [cells_addrsT]; exact hp
    obtain ⟨c, hc, rfl⟩ := Multiset.mem_map.1 this
    rw [h0.cell c (by simp [hc])]; simp
  refine ⟨fun p hp => ?_, l.filter (fun p => p ∉ addrsT t), l1.filter _, ?_, fun p => ?_⟩
  · rw [f2]
    split
    · rfl
    · refine ho.fresh p ?_
      have : s'.next = s.next := h2.next
      rw [← this]; exact hp
  · have hp : (l.filter (fun p => p ∈ addrsT t)).Perm (addrsT t) := by
      refine (List.perm_ext_iff_of_nodup (l1.filter _) hnd).2 fun p => ?_
      simp only [List.mem_filter, decide_eq_true_eq]
      exact ⟨fun h => h.2, fun h => ⟨(l3 p).2 (hin p h), h⟩⟩
    have h5 := hp.length_eq
    have h6 : (addrsT t).length = t.size := addrsT_length t
    have h7 := List.length_eq_length_filter_add (l := l) (fun p => decide (p ∈ addrsT t))
    simp only [decide_not]
    omega
  · rw [List.mem_filter, l3, f2]
    simp only [decide_eq_true_eq]
    split
    · rename_i hm; simp [hm]
    · rename_i hm; simp [hm]


/-! ## histories -/

theorem removeNode_length (N : Nodes T) (k : List Label) : (N.removeNode k).length ≤ N.length := by
  unfold Nodes.removeNode
  split
  · refine Nat.le_trans (List.length_filter_le _ _) ?_
    simp [Nodes.change]
  · exact Nat.le_refl _

theorem exec_owns {m : Build} {s s' : Dom T} {t : Tr T} {M : Table T} {op : TOp T} {o : Option T} {c : Nat} (h : Shown s t M) (hop : op.OK m)
    (ho : Owns s (M.nodes.length + c)) (e : op.exec m s = (.ok o, s')) : Owns s' ((M.step op).2.nodes.length + (c + M.takenOut [op])) := by
  obtain ⟨o', s1, e1, -, t', h'⟩ := exec_table (m := m) h hop
  rw [e] at e1
  cases e1
  have hl : M.nodes.length = t.size := h.tab.length h.inv
  have hl' : (M.step op).2.nodes.length = t'.size := h'.tab.length h'.inv
  have hq : (∀ ls v, op ≠ .insert ls v) → op ≠ .clear → Owns s' (M.nodes.length + c) := fun h1 h2 => by
    have := (exec_calm m h1 h2).all s
    rw [e] at this
    exact ho.quiet this
  cases op with
  | insert ls v =>
    obtain ⟨k, g⟩ := exec_gain e
    have := ho.gain g
    have h1 := h'.inv.len
    rw [g.len, h.inv.len] at h1
    have h2 : (M.step (.insert ls v)).2.lost = M.lost := rfl
    rw [h2] at h1
    have h3 : (M.step (.insert ls v)).2.nodes.length + (c + M.takenOut [.insert ls v]) = M.nodes.length + c + k := by
      rw [hl', hl]; simp only [Table.takenOut]; omega
    rw [h3]; exact this
  | removeNode ls =>
    have := hq (by simp) (by simp)
    have hle : (M.step (.removeNode ls)).2.nodes.length ≤ M.nodes.length := removeNode_length _ _
    have h3 : (M.step (.removeNode ls)).2.nodes.length + (c + M.takenOut [.removeNode ls]) = M.nodes.length + c := by simp only [Table.takenOut]; omega
    rw [h3]; exact this
  | remove ls =>
    have := hq (by simp) (by simp)
    have hle : (M.step (.remove ls)).2.nodes.length ≤ M.nodes.length := by
      simp only [Table.step]
      cases M.nodes.closest (lowerName ls) with
      | none => exact Nat.le_refl _
      | some k => exact removeNode_length _ _
    have h3 : (M.step (.remove ls)).2.nodes.length + (c + M.takenOut [.remove ls]) = M.nodes.length + c := by simp only [Table.takenOut]; omega
    rw [h3]; exact this
  | get ls => exact hq (by simp) (by simp)
  | callback ls b =>
    have := hq (by simp) (by simp)
    simpa [Table.step, Nodes.change, Table.takenOut] using this
  | wildcard ls b =>
    have := hq (by simp) (by simp)
    simpa [Table.step, Nodes.change, Table.takenOut] using this
  | clear =>
    obtain ⟨u, s2, e2, e3⟩ := St.bind_ok_inv (show (Dom.clear >>= fun _ => Pure.pure none : St (Dom T) (Option T)) s = (.ok o, s') from e)
    cases e3
    rw [hl] at ho
    have := clear_owns h.inv.mem ho e2
    simpa [Table.step, Table.takenOut] using this

theorem takenOut_cons (M : Table T) (op : TOp T) (ops : List (TOp T)) : M.takenOut (op :: ops) = M.takenOut [op] + (M.step op).2.takenOut ops := by
  cases op <;> simp [Table.takenOut]

theorem size_le {s : Dom T} {g : Nat × Nat} {t : Tr T} (h : Mem s g t) {n : Nat} (ho : Owns s n) : t.size ≤ n := by
  have h0 : Hold s t.ptr g (cells 0 true t) :=
    Eq.mp (congrArg (Hold s t.ptr _) (by simp [slotOf, Slot.cells, cellsU, cellsL, lptr, Slot.up])) (Z.hold h)
  obtain ⟨l, -, rfl, l3⟩ := ho.count
  have hnd : (addrsT t).Nodup := by
    have := h0.nodup
    rw [cells_addrsT] at this
    exact Multiset.coe_nodup.1 this
  rw [← addrsT_length]
  refine (List.subperm_of_subset hnd fun p hp => (l3 p).2 ?_).length_le
  have : p ∈ (cells 0 true t).map Prod.fst := by rw [cells_addrsT]; exact hp
  obtain ⟨c, hc, rfl⟩ := Multiset.mem_map.1 this
  rw [h0.cell c hc]; simp

theorem run_owns {m : Build} (ops : List (TOp T)) : ∀ {s s' : Dom T} {t : Tr T} {M : Table T} {outs : List (Option T)} {c : Nat}, Shown s t M → (∀ op ∈ ops, op.OK m) →
    Owns s (M.nodes.length + c) → TOp.run m ops s = (.ok outs, s') → Owns s' ((M.after ops).nodes.length + (c + M.takenOut ops)) := by
  induction ops with
  | nil => intro s s' t M outs c h _ ho e; cases e; exact ho
  | cons op ops ih =>
    intro s s' t M outs c h hok ho e
    rw [TOp.run] at e
    obtain ⟨a, s1, e1, e⟩ := St.bind_ok_inv e
    obtain ⟨as, s2, e2, e3⟩ := St.bind_ok_inv e
    cases e3
    have ho1 := exec_owns h (hok op (by simp)) ho e1
    obtain ⟨_, _, e1', -, t1, h1⟩ := exec_table (m := m) h (hok op (by simp))
    rw [e1] at e1'; cases e1'
    have := ih h1 (fun x hx => hok x (by simp [hx])) ho1 e2
    rw [takenOut_cons, ← Nat.add_assoc c]
    exact this

namespace Free

theorem exec_owns {m : Build} {s s' : Dom T} {t : Tr T} {δ : Nat} {op : TOp T} {o : Option T} {c : Nat} (h : Inv m s t δ) (hop : op.Legal m)
    (ho : Owns s (t.size + c)) (e : op.exec m s = (.ok o, s')) : ∃ t' δ' j, Inv m s' t' δ' ∧ Owns s' (t'.size + j) ∧ (¬ op.Removes → j = c) := by
  obtain ⟨o', s1, e1, t', δ', mv⟩ := exec_spec h hop
  rw [e] at e1
  cases e1
  have hle : ∀ {n}, Owns s' n → t'.size ≤ n := fun hn => size_le mv.inv.mem hn
  have hq : (∀ ls v, op ≠ .insert ls v) → op ≠ .clear → Owns s' (t.size + c) ∧ s'.next = s.next := fun h1 h2 => by
    have := (exec_calm m h1 h2).all s
    rw [e] at this
    exact ⟨ho.quiet this, this.next⟩
  have hk : (∀ ls v, op ≠ .insert ls v) → op ≠ .clear → s'.len = s.len → ∃ t' δ' j, Inv m s' t' δ' ∧ Owns s' (t'.size + j) ∧ (¬ op.Removes → j = c) := by
    intro h1 h2 h3
    have h4 : t'.size = t.size := by
      have := mv.inv.len
      rw [h3, h.len, mv.delta h2] at this
      omega
    exact ⟨t', δ', c, mv.inv, by rw [h4]; exact (hq h1 h2).1, fun _ => rfl⟩
  cases op with
  | insert ls v =>
    obtain ⟨k, g⟩ := exec_gain e
    have h1 := mv.inv.len
    rw [g.len, h.len, mv.delta (by simp)] at h1
    refine ⟨t', δ', c, mv.inv, ?_, fun _ => rfl⟩
    have h3 : t'.size + c = t.size + c + k := by omega
    rw [h3]; exact ho.gain g
  | removeNode ls =>
    have h1 := (hq (by simp) (by simp)).1
    refine ⟨t', δ', t.size + c - t'.size, mv.inv, ?_, fun hn => absurd trivial hn⟩
    rw [Nat.add_sub_cancel' (hle h1)]; exact h1
  | remove ls =>
    have h1 := (hq (by simp) (by simp)).1
    refine ⟨t', δ', t.size + c - t'.size, mv.inv, ?_, fun hn => absurd trivial hn⟩
    rw [Nat.add_sub_cancel' (hle h1)]; exact h1
  | get ls =>
    refine hk (by simp) (by simp) ?_
    have := (Keeps.bind Keeps.get fun s1 => Keeps.bind (Keeps.lift (s1.find m (Name.ofLabels ls))) fun r => Keeps.ite (c := r.flag = .ExactMatch) (Keeps.lift (r.get_value s1)) (Keeps.pure none)).all s
    exact (congrArg (fun x => x.2.len) e).symm.trans this.2
  | callback ls b =>
    refine hk (by simp) (by simp) ?_
    have := (Keeps.bind Keeps.get fun s1 : Dom T => Keeps.bind (Keeps.lift (s1.find m (Name.ofLabels ls))) fun r => Keeps.ite (c := r.flag = .ExactMatch)
      (Keeps.bind (Keeps.set_callback r.node b) fun _ => Keeps.pure (none : Option T)) (Keeps.pure none)).all s
    exact (congrArg (fun x => x.2.len) e).symm.trans this.2
  | wildcard ls b =>
    refine hk (by simp) (by simp) ?_
    have := (Keeps.bind Keeps.get fun s1 : Dom T => Keeps.bind (Keeps.lift (s1.find m (Name.ofLabels ls))) fun r => Keeps.ite (c := r.flag = .ExactMatch)
      (Keeps.bind (Keeps.set_wildcard r.node b) fun _ => Keeps.pure (none : Option T)) (Keeps.pure none)).all s
    exact (congrArg (fun x => x.2.len) e).symm.trans this.2
  | clear =>
    obtain ⟨u, s2, e2, e3⟩ := St.bind_ok_inv (show (Dom.clear >>= fun _ => Pure.pure none : St (Dom T) (Option T)) s = (.ok o, s') from e)
    cases e3
    have h1 := clear_owns h.mem ho e2
    obtain ⟨_, _, e4, h2⟩ := clear_spec h
    rw [e2] at e4; cases e4
    exact ⟨.nil, _, c, h2, by simpa [Tr.size] using h1, fun _ => rfl⟩

theorem run_owns {m : Build} (ops : List (TOp T)) : ∀ {s s' : Dom T} {t : Tr T} {δ : Nat} {outs : List (Option T)} {c : Nat}, Inv m s t δ → (∀ op ∈ ops, op.Legal m) →
    Owns s (t.size + c) → TOp.run m ops s = (.ok outs, s') → ∃ t' δ' j, Inv m s' t' δ' ∧ Owns s' (t'.size + j) ∧ ((∀ op ∈ ops, ¬ op.Removes) → j = c) := by
  induction ops with
  | nil => intro s s' t δ outs c h _ ho e; cases e; exact ⟨t, δ, c, h, ho, fun _ => rfl⟩
  | cons op ops ih =>
    intro s s' t δ outs c h hok ho e
    rw [TOp.run] at e
    obtain ⟨a, s1, e1, e⟩ := St.bind_ok_inv e
    obtain ⟨as, s2, e2, e3⟩ := St.bind_ok_inv e
    cases e3
    obtain ⟨t1, δ1, j1, h1, ho1, hj1⟩ := exec_owns h (hok op (by simp)) ho e1
    obtain ⟨t2, δ2, j2, h2, ho2, hj2⟩ := ih h1 (fun x hx => hok x (by simp [hx])) ho1 e2
    exact ⟨t2, δ2, j2, h2, ho2, fun hn => (hj2 fun x hx => hn x (by simp [hx])).trans (hj1 (hn op (by simp)))⟩

end Free
end Dom
end R53
