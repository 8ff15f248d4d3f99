import Verif.Model.Limit
import Verif.Proofs.TreeSteps
/-!
# How many rounds the loops of `insert` and `remove_node` make

Two runs that differ only in the rounds their loops may make agree whenever both end (`Agree`); that the run with few rounds ends is the
invariant of Proofs/TreeFree once more, with the height of each level bounded by its balance.
-/
namespace R53
variable {T : Type}

/-- two programs give the same when both succeed -/
structure Agree {σ α : Type} (p q : St σ α) : Prop where
  eq : ∀ {s : σ} {x : α} {s1 : σ} {y : α} {s2 : σ}, p s = (.ok x, s1) → q s = (.ok y, s2) → x = y ∧ s1 = s2

namespace Agree
variable {σ α β : Type}

theorem refl (p : St σ α) : Agree p p := ⟨fun h1 h2 => by rw [h1] at h2; cases h2; exact ⟨rfl, rfl⟩⟩

theorem bind {p q : St σ α} {f g : α → St σ β} (h : Agree p q) (hf : ∀ x, Agree (f x) (g x)) : Agree (p >>= f) (q >>= g) := by
  refine ⟨fun {s x s1 y s2} h1 h2 => ?_⟩
  obtain ⟨a, t1, e1, h1⟩ := St.bind_ok_inv h1
  obtain ⟨b, t2, e2, h2⟩ := St.bind_ok_inv h2
  obtain ⟨rfl, rfl⟩ := h.eq e1 e2
  exact (hf a).eq h1 h2

theorem ite {c : Prop} [Decidable c] {p q p' q' : St σ α} (h1 : Agree p p') (h2 : Agree q q') : Agree (if c then p else q) (if c then p' else q') := by
  split <;> assumption

theorem boomL (q : St σ α) : Agree St.boom q := ⟨fun h => by cases h⟩
theorem boomR (p : St σ α) : Agree p St.boom := ⟨fun _ h => by cases h⟩

/-- reading the state first changes nothing -/
theorem getL {f : σ → St σ α} {q : St σ α} (h : ∀ s, Agree (f s) q) : Agree (do let s ← St.get; f s) q := by
  refine ⟨fun {s x s1 y s2} h1 h2 => ?_⟩
  rw [St.get_bind] at h1
  exact (h s).eq h1 h2

theorem result {p q : St σ α} (h : Agree p q) {s : σ} {x y : α} {s1 s2 : σ} (h1 : p s = (.ok x, s1)) (h2 : q s = (.ok y, s2)) : p s = q s := by
  obtain ⟨rfl, rfl⟩ := h.eq h1 h2
  rw [h1, h2]

end Agree

/-- one step of a comparison of two runs -/
macro "agree1" : tactic => `(tactic| first
  | with_reducible exact Agree.refl _ | with_reducible refine Agree.bind ?_ fun _ => ?_ | with_reducible refine Agree.ite ?_ ?_)

namespace Dom

theorem insertFixLoop_agree (root : Loc) : ∀ (f f' : Nat) (p : Ptr), Agree (insertFixLoop root f p : St (Dom T) Unit) (insertFixLoop root f' p) := by
  intro f
  induction f with
  | zero => intro f' p; exact Agree.boomL _
  | succ f ih =>
    intro f' p
    cases f' with
    | zero => exact Agree.boomR _
    | succ f' =>
      rw [insertFixLoop, insertFixLoop]
      repeat' agree1
      exact ih _ _

theorem removeFixLoop_agree (root : Loc) : ∀ (f f' : Nat) (c p : Ptr), Agree (removeFixLoop root f c p : St (Dom T) Unit) (removeFixLoop root f' c p) := by
  intro f
  induction f with
  | zero => intro f' c p; exact Agree.boomL _
  | succ f ih =>
    intro f' c p
    cases f' with
    | zero => exact Agree.boomR _
    | succ f' =>
      rw [removeFixLoop, removeFixLoop]
      repeat' agree1
      exact ih _ _ _

theorem rightMostLoop_agree : ∀ (f f' : Nat) (p : Ptr), Agree (rightMostLoop f p : St (Dom T) Ptr) (rightMostLoop f' p) := by
  intro f
  induction f with
  | zero => intro f' p; exact Agree.boomL _
  | succ f ih =>
    intro f' p
    cases f' with
    | zero => exact Agree.boomR _
    | succ f' =>
      rw [rightMostLoop, rightMostLoop]
      repeat' agree1
      exact ih _ _

theorem subtreeRootLoop_agree : ∀ (f f' : Nat) (p : Ptr), Agree (subtreeRootLoop f p : St (Dom T) Ptr) (subtreeRootLoop f' p) := by
  intro f
  induction f with
  | zero => intro f' p; exact Agree.boomL _
  | succ f ih =>
    intro f' p
    cases f' with
    | zero => exact Agree.boomR _
    | succ f' =>
      rw [subtreeRootLoop, subtreeRootLoop]
      repeat' agree1
      exact ih _ _

theorem insertLoop_agree (m : Build) : ∀ (f f' : Nat) (par up cur : Ptr) (o : Int) (sl : LabelSlice),
    Agree (insertLoop m f par up cur o sl : St (Dom T) InsertPos) (insertLoop m f' par up cur o sl) := by
  intro f f' par up cur o sl
  refine ⟨fun {s x s1 y s2} h1 h2 => ?_⟩
  rcases Nat.le_total f f' with h | h
  · have := insertLoop_more h h1
    rw [h2] at this; cases this; exact ⟨rfl, rfl⟩
  · have := insertLoop_more h h2
    rw [h1] at this; cases this; exact ⟨rfl, rfl⟩

theorem insertAt_agree (n : Nat) (target : Name) (v : Option T) (par up : Ptr) (order : Int) (slice : LabelSlice) :
    Agree (insertAt target v par up order slice) (insertAtIn n target v par up order slice) := by
  have h : ∀ l p, Agree (insert_fixup l p : St (Dom T) Unit) (insert_fixupIn n l p) := by
    intro l p
    unfold insert_fixup insert_fixupIn
    refine Agree.getL fun s => ?_
    exact Agree.bind (insertFixLoop_agree _ _ _ _) fun _ => Agree.refl _
  unfold insertAt insertAtIn
  dsimp only
  refine Agree.bind (Agree.refl _) fun _ => ?_
  repeat' agree1
  all_goals exact h _ _

theorem insert_agree (n : Nat) (m : Build) (target : Name) (v : Option T) : Agree (insert m target v) (insertIn n m target v) := by
  unfold insert insertIn
  refine Agree.bind (Agree.refl _) fun slice => Agree.bind (Agree.refl _) fun s => Agree.bind (insertLoop_agree ..) fun pos => ?_
  cases pos with
  | found p => exact Agree.refl _
  | free par up order slice => exact Agree.bind (insertAt_agree ..) fun _ => Agree.refl _

theorem get_upper_agree (n : Nat) (p : Ptr) : Agree (get_upper_node p : St (Dom T) Ptr) (get_upper_nodeIn n p) := by
  unfold get_upper_node get_upper_nodeIn subtree_root
  refine Agree.bind (Agree.getL fun s => subtreeRootLoop_agree _ _ _) fun _ => Agree.refl _

theorem unlink_agree (n : Nat) (p up : Ptr) : Agree (unlink p up : St (Dom T) Unit) (unlinkIn n p up) := by
  unfold unlink unlinkIn
  repeat' agree1
  · refine Agree.getL fun s => ?_
    exact Agree.bind (rightMostLoop_agree _ _ _) fun _ => Agree.refl _
  · unfold remove_fixup
    exact Agree.getL fun s => removeFixLoop_agree _ _ _ _ _

theorem removeLoop_agree (n : Nat) : ∀ (f f' : Nat) (p : Ptr), Agree (removeLoop f p : St (Dom T) Unit) (removeLoopIn n f' p) := by
  intro f
  induction f with
  | zero => intro f' p; exact Agree.boomL _
  | succ f ih =>
    intro f' p
    cases f' with
    | zero => exact Agree.boomR _
    | succ f' =>
      rw [removeLoop, removeLoopIn]
      refine Agree.bind (get_upper_agree _ _) fun up => Agree.bind (unlink_agree _ _ _) fun _ => ?_
      repeat' agree1
      exact ih _ _

theorem remove_node_agree (levels n : Nat) (p : Ptr) : Agree (remove_node p : St (Dom T) (Option T)) (remove_nodeIn levels n p) := by
  unfold remove_node remove_nodeIn
  refine Agree.bind (Agree.refl _) fun old => Agree.bind (Agree.refl _) fun d => Agree.ite (Agree.refl _) ?_
  refine Agree.getL fun s => ?_
  exact Agree.bind (removeLoop_agree _ _ _ _) fun _ => Agree.refl _

/-! ## few rounds suffice -/

namespace Free

theorem log_mono {a b : Nat} (h : a ≤ b) : Nat.log2 (a + 1) ≤ Nat.log2 (b + 1) :=
  (Nat.le_log2 (by omega)).2 (Nat.le_trans (Nat.log2_self_le (by omega)) (by omega))

theorem Level.low {t : Tr T} (h : Level t) {B : Nat} (hB : t.size ≤ B) : t.height ≤ 2 * Nat.log2 (B + 1) := by
  have h1 := Level.tall h
  have h2 := log_mono (Nat.le_trans t.ents_le hB)
  omega

theorem repairs_in {B n : Nat} (h : B < n) : Repairs B (fun root c p => removeFixLoop root n c p : Loc → Ptr → Ptr → St (Dom T) Unit) :=
  fun hl hz htr ht hc => removeFixLoop_spec n (by omega) hz htr ht hc

theorem unlinkIn_eq (n : Nat) (node up : Ptr) : (unlinkIn n node up : St (Dom T) Unit) =
    (do unlink1 (rightMostLoop n) node; unlink2 (fun root c p => removeFixLoop root n c p) node up) := rfl

theorem takes_in {B n : Nat} (h : 2 * Nat.log2 (B + 1) < n) : Takes B (get_upper_nodeIn (T := T) n) (unlinkIn n) where
  upper {s g rest lc i l r} hw hok hB := by
    have h1 := hok.1.low hB
    have h2 := length_height (.node i l .nil r) lc
    exact upper_spec (by omega) hw
  unl {s g rest lc i l r} hw hok hB := by
    obtain ⟨k, hrb⟩ := hok.1.1
    have h1 := hok.1.low hB
    have h2 := length_height (.node i l .nil r) lc
    simp only [Tr.height] at h2
    rw [unlinkIn_eq]
    exact unlinkWith_spec (repairs_in h) h1 (fun p => ⟨n, by omega, rfl⟩) hw hw.apart hrb hok.1.2

theorem removeLoopIn_eq (n fuel : Nat) : ∀ p : Ptr, (removeLoopIn n fuel p : St (Dom T) Unit) = removeLoopWith (get_upper_nodeIn n) (unlinkIn n) fuel p := by
  induction fuel with
  | zero => intro p; rfl
  | succ fuel ih => intro p; simp only [removeLoopIn, removeLoopWith, ih]

section
variable {m : Build} {s : Dom T} {t : Tr T} {δ : Nat} {g : Nat × Nat} {lc : List (LF T)} {i : Info T} {l d r : Tr T} {rest : List (UF T)}

theorem sufU_length (h : OK (plugU t rest)) : rest.length ≤ (sufU rest).length := by
  induction rest generalizing t with
  | nil => exact Nat.zero_le _
  | cons u rest ih =>
    have h1 : u.i.labels ≠ [] := rest_ne h u (by simp)
    have h2 := List.length_pos_iff.2 h1
    have h3 := ih (t := plug (.node u.i u.l t u.r) u.lc) h
    simp only [sufU, List.length_cons, List.length_append]; omega

theorem remove_nodeIn_ok (h : Inv m s t δ) {e : Entry T} (he : e ∈ t.nodes []) {levels n : Nat} (hl : e.name.length ≤ levels)
    (hn : 2 * Nat.log2 (t.size + 1) < n) : ∃ x s', remove_nodeIn levels n e.addr s = (.ok x, s') := by
  obtain ⟨rest, lc, i, l, d, r, hw, rfl, rfl⟩ := h.place he
  suffices H : WP (remove_nodeIn levels n i.addr) s fun _ _ => True by
    obtain ⟨x, s', e, -⟩ := H
    exact ⟨x, s', e⟩
  unfold remove_nodeIn
  refine WP.bind ((W.set_value hw none).mono fun old s1 h1 => ?_)
  obtain ⟨rfl, w1⟩ := h1
  obtain ⟨R, hb1', hb2', hinv⟩ := swap (m := m) (δ := δ) _ h.ok h.names h.len w1 rfl rfl
  generalize hi' : ({ i with value := none } : Info T) = i' at w1 hb2' hinv
  have hlab : i'.labels = i.labels := by rw [← hi']
  have hadr : i'.addr = i.addr := by rw [← hi']
  refine WP.bind ?_
  rw [← hadr]
  refine Z.down w1 ?_
  by_cases hd : d.ptr = 0
  · refine WP.neg (c := (_ : Ptr) ≠ 0) (by simpa using hd) ?_
    have htd : d = .nil := by
      cases d with
      | nil => rfl
      | node j _ _ _ => exact absurd hd (Z.nz (W.down_iff.1 w1))
    subst htd
    have hsz : s.len = (plugU (plug (.node i' l .nil r) lc) rest).size + δ := by
      rw [← hinv.len]; exact congrArg Prod.snd (W.nextlen w1)
    have hsame : (plugU (plug (.node i' l .nil r) lc) rest).size = (plugU (plug (.node i l .nil r) lc) rest).size := by
      rw [size_bag [], size_bag [], hb1', hb2']; simp
    have hdep : rest.length < levels := by
      have h1 := sufU_length (OK_plugU (rest := rest) h.ok |>.1 |> fun _ => h.ok)
      have h2 := List.length_pos_iff.2 (OK_node (OK_plugU h.ok).1).1
      simp only [Info.entry, List.length_append] at hl
      omega
    rw [removeLoopIn_eq]
    refine WP.bind ((removeLoopWith_spec (g := (s.next, s.len)) (takes_in hn) levels (k := s.len) w1 hinv.ok hsz (by rw [← hi']) hdep (Nat.le_of_eq hsame)).mono fun _ s2 h2 => ?_)
    exact WP.pure trivial
  · refine WP.pos (c := (_ : Ptr) ≠ 0) (by simpa using hd) ?_
    exact WP.pure trivial

theorem insertIn_ok (h : Inv m s t δ) {ls : List Label} (hv : ValidName ls) (ha : Calm m ls) (v : Option T) {n : Nat}
    (h1 : t.steps (ls.length + 1) + 4 ≤ n) (h2 : 2 * Nat.log2 (t.size + 2) < n) : ∃ x s', insertIn n m (Name.ofLabels ls) v s = (.ok x, s') := by
  suffices H : WP (insertIn n m (Name.ofLabels ls) v) s fun _ _ => True by
    obtain ⟨x, s', e, -⟩ := H
    exact ⟨x, s', e⟩
  unfold insertIn
  refine WP.bind (WP.lift (LabelSlice.from_name_ofLabels ls) ?_)
  refine WP.bind (WP.get ?_)
  have habs : AnyName m (ls ++ [[]]) := ⟨ls, hv, ha, rfl⟩
  have hroot : s.root = t.ptr := Hold.root (Z.hold h.mem)
  have hat : At (ls ++ [[]]) (ls ++ [[]]) ([] : List (UF T)) [] t := ⟨h.ok, by simp [sufU], by simp⟩
  refine WP.bind ?_
  have hspec : WP (insertLoop m n 0 0 t.ptr (-1) ⟨(Name.ofLabels ls).raw, (Name.ofLabels ls).offsets, 0, ls.length⟩) s (InsPost (ls ++ [[]]) (ls ++ [[]]) t (s.next, s.len)) := insertLoop_spec (m := m) (tgt := ls ++ [[]]) (full := ls ++ [[]]) (order := -1) n h.mem hat h.names (habs.labs (List.Sublist.refl _))
    (LabelSlice.view_of_name hv) (by simp) trivial (by simpa using h1)
  rw [hroot]
  refine hspec.mono fun pos s1 hp => ?_
  cases pos with
  | found p => exact WP.bind ((insert_found h v hp).mono fun old s2 ho => WP.pure trivial)
  | free par up order slice =>
    refine WP.bind ?_
    obtain ⟨g', rest, lc, as, post, w1, at1, hpar, hup, hd, hvw, hfull, hg1⟩ := hp
    have hsize : (plugU (plug .nil lc) rest).size ≤ t.size + 1 := by
      rw [size_bag [], size_bag [] t]
      rcases hg1 with ⟨e, -⟩ | ⟨nm, e, -⟩ <;> rw [e] <;> simp
    have hlow := at1.level.1.low (Nat.le_trans (size_plugU _ rest) hsize)
    have hlen := length_height (.nil : Tr T) lc
    have hlt : lc.length < n := by
      have e : t.size + 1 + 1 = t.size + 2 := rfl
      rw [e] at hlow
      omega
    refine (insertAtWith_spec (fix := insert_fixupIn n) (fun _ _ z hi hc => insertFix_spec hlt z hi (n := 0) (.inl ⟨hi, rfl, rfl, rfl, rfl⟩) hc) hv v w1 at1 hpar hup hd hvw hfull).mono fun p s2 ho => ?_
    exact WP.pure trivial

end
end Free
end Dom
end R53
