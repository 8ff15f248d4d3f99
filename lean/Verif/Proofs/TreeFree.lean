import Verif.Proofs.TreeShape
import Verif.Proofs.TreeStep
/-!
# The tree without order: labels of any octets

In a release build the comparison of labels wraps around for octets from 128 on, so the levels need not be sorted. What is left is here:
the nodes in memory, the shape of the levels, and names that are found being the names asked for.
-/
namespace R53

namespace Dom
namespace Free
variable {T : Type}

theorem Step.same {as bs : List Label} {c : NameComparisonResult} (h : Step as bs c) (e : lowerName as = lowerName bs) : c.relation = .Equal := by
  have hl := lowerName_ne e
  cases h with
  | equal h _ => exact h
  | none h hc => exact absurd (lastL_lower e) hc
  | sub a1 a2 h hc e1 h1 h2 =>
    have := lowerName_ne h2
    have h3 : 0 < a1.length := List.length_pos_iff.2 h1
    rw [e1] at hl; simp at hl; omega
  | split a1 a2 b1 b2 h e1 e2 h1 h2 hc h3 h4 =>
    have hl2 := lowerName_ne h3
    have hb : 0 < b1.length := List.length_pos_iff.2 h1
    rw [e1, e2] at hl
    have ha : a1 ≠ [] := by
      intro e; subst e
      simp at hl; omega
    refine absurd ?_ (h4 ha)
    rw [e1, e2, Name.lowerName_append, Name.lowerName_append, h3] at e
    exact lastL_lower (List.append_cancel_right e)

theorem Step.below {a1 a2 bs : List Label} {c : NameComparisonResult} (h : Step (a1 ++ a2) bs c) (h1 : a1 ≠ []) (hb : bs ≠ [])
    (e : lowerName a2 = lowerName bs) : c.relation = .SubDomain ∧ c.common_label_count = bs.length := by
  have hl := lowerName_ne e
  have hp : 0 < a1.length := List.length_pos_iff.2 h1
  have ha2 : a2 ≠ [] := by
    intro e2; subst e2
    exact hb (List.length_eq_zero_iff.1 (by simpa using hl.symm))
  cases h with
  | equal h e1 =>
    have := lowerName_ne e1
    simp at this; omega
  | none h hc =>
    rw [lastL_append ha2] at hc; exact absurd (lastL_lower e) hc
  | sub a1 a2 h hc e1 h1 h2 => exact ⟨h, hc⟩
  | split x1 x2 b1 b2 h e1 e2 h1 h2 hc h3 h4 =>
    exfalso
    have hl2 := lowerName_ne h3
    have hb : 0 < b1.length := List.length_pos_iff.2 h1
    have hx : x1 ≠ [] := by
      intro e; subst e
      have e3 := congrArg List.length e1
      rw [e2] at hl
      simp at e3 hl; omega
    refine h4 hx ?_
    have e4 : lowerName x1 ++ lowerName x2 = lowerName a1 ++ (lowerName b1 ++ lowerName b2) := by
      rw [← Name.lowerName_append, ← e1, Name.lowerName_append, e, e2, Name.lowerName_append]
    rw [h3, ← List.append_assoc] at e4
    have e5 := List.append_cancel_right e4
    rw [← Name.lowerName_append] at e5
    have := lastL_lower e5
    rwa [lastL_append h1] at this

theorem Step.beside {as bs : List Label} {c : NameComparisonResult} (h : Step as bs c) (h2 : bs ≠ [])
    (e : lowerLabel (lastL as) ≠ lowerLabel (lastL bs)) : c.relation = .None := by
  cases h with
  | equal h e1 => exact absurd (lastL_lower e1) e
  | none h hc => exact h
  | sub a1 a2 h hc e1 h3 h4 =>
    refine absurd ?_ e
    have ha2 : a2 ≠ [] := by
      intro e2; subst e2
      have := lowerName_ne h4
      exact h2 (List.length_eq_zero_iff.1 (by simpa using this.symm))
    rw [e1, lastL_append ha2, lastL_lower h4]
  | split a1 a2 b1 b2 h e1 e2 h3 h4 hc h5 h6 =>
    refine absurd ?_ e
    have ha2 : a2 ≠ [] := by
      intro e2; subst e2
      have := lowerName_ne h5
      exact h4 (List.length_eq_zero_iff.1 (by simpa using this.symm))
    rw [e1, e2, lastL_append ha2, lastL_append h4, lastL_lower h5]

/-! ## names -/

/-- a valid absolute name, with the root label -/
def AnyName (m : Build) (n : List Label) : Prop := ∃ ls, ValidName ls ∧ Calm m ls ∧ n = ls ++ [[]]

theorem AnyName.congr {m : Build} {a b : List Label} (h : lowerName a = lowerName b) (ha : AnyName m a) : AnyName m b := by
  obtain ⟨ls, hv, hA, rfl⟩ := ha
  have hne : b ≠ [] := by
    intro e; subst e
    have := lowerName_ne h
    simp at this
  have eb : b = b.dropLast ++ [b.getLast hne] := (List.dropLast_concat_getLast hne).symm
  generalize b.dropLast = ls' at eb
  generalize b.getLast hne = x at eb
  subst eb
  rw [Name.lowerName_append, Name.lowerName_append] at h
  have h1 := List.append_inj' h (by simp [lowerName])
  have hx : x = [] := by
    have := h1.2
    simp only [lowerName, List.map_cons, List.map_nil, List.cons.injEq, and_true] at this
    have h2 := congrArg List.length this
    simp only [lowerLabel, List.length_map, List.length_nil] at h2
    exact List.length_eq_zero_iff.1 h2.symm
  subst hx
  have hmem : ∀ l ∈ ls', ∃ l2 ∈ ls, lowerLabel l2 = lowerLabel l := by
    intro l hl
    have : lowerLabel l ∈ lowerName ls := by rw [h1.1]; exact List.mem_map_of_mem hl
    obtain ⟨l2, h2, e⟩ := List.mem_map.1 this
    exact ⟨l2, h2, e⟩
  refine ⟨ls', ⟨?_, ?_⟩, ?_, rfl⟩
  · intro l hl
    obtain ⟨l2, h2, e⟩ := hmem l hl
    have := hv.1 l2 h2
    have e2 := congrArg List.length e
    simp only [lowerLabel, List.length_map] at e2
    unfold ValidLabel at *; omega
  · have := Name.SameName.wire_length (show SameName ls ls' from h1.1)
    have := hv.2
    simp only [nameWire, List.length_append, List.length_cons, List.length_nil] at *
    omega
  · rcases hA with hA | hA
    · exact .inl hA
    right
    intro l hl c hc
    obtain ⟨l2, h2, e⟩ := hmem l hl
    have : lowerByte c ∈ lowerLabel l2 := by rw [e]; exact List.mem_map_of_mem hc
    obtain ⟨c2, hc2, e2⟩ := List.mem_map.1 this
    have := hA l2 h2 c2 hc2
    rw [← lowerByte_ascii, ← e2, lowerByte_ascii]; exact this

/-- what the comparison needs to know about labels -/
structure LabsOK (m : Build) (ls : List Label) : Prop where
  seq : SeqOK ls
  calm : Calm m ls
  len : ls.length ≤ 128

theorem LabsOK.left {m : Build} {a b : List Label} (h : LabsOK m (a ++ b)) : LabsOK m a := by
  refine ⟨h.seq.sublist (List.sublist_append_left _ _), h.calm.sub fun l hl => by simp [hl], ?_⟩
  have := h.len; simp at this; omega

theorem LabsOK.right {m : Build} {a b : List Label} (h : LabsOK m (a ++ b)) : LabsOK m b := by
  refine ⟨h.seq.sublist (List.sublist_append_right _ _), h.calm.sub fun l hl => by simp [hl], ?_⟩
  have := h.len; simp at this; omega

theorem AnyName.labs {m : Build} {n ls : List Label} (h : AnyName m n) (hs : ls.Sublist n) : LabsOK m ls := by
  obtain ⟨x, hv, hA, rfl⟩ := h
  refine ⟨(SeqOK.root hv).sublist hs, ?_, ?_⟩
  · rcases hA with hA | hA
    · exact .inl hA
    right
    intro l hl c hc
    rcases List.mem_append.1 (hs.subset hl) with h | h
    · exact hA l h c hc
    · simp at h; subst h; simp at hc
  · have := hs.length_le
    have := hv.count
    simp only [List.length_append, List.length_cons, List.length_nil] at *; omega

theorem AnyName.suffix {m : Build} {n n' : List Label} (h : AnyName m n) (hs : n' <:+ n) (hne : n' ≠ []) : AnyName m n' := by
  obtain ⟨x, hv, hA, rfl⟩ := h
  rcases List.suffix_concat_iff.1 hs with e | ⟨t, rfl, ht⟩
  · exact absurd e hne
  · exact ⟨t, hv.sublist ht.sublist, hA.sub fun l hl => ht.subset hl, rfl⟩

/-! ## levels -/

/-- a level is a red-black tree with a black root -/
def Level (t : Tr T) : Prop := (∃ n, t.RB n) ∧ t.isRed = false

/-- every level below is a level, and every node has labels -/
def Good : Tr T → Prop
  | .nil => True
  | .node i l d r => i.labels ≠ [] ∧ Good l ∧ Good r ∧ Level d ∧ Good d

def OK (t : Tr T) : Prop := Level t ∧ Good t

theorem Good_iff (t : Tr T) : Good t ↔ ∀ e ∈ t.ents, e.1.labels ≠ [] ∧ OK e.2 := by
  induction t with
  | nil => simp [Good, Tr.ents]
  | node i l d r ihl _ ihr =>
    simp only [Good, Tr.ents, List.mem_append, List.mem_cons, ihl, ihr, OK]
    constructor
    · rintro ⟨h1, h2, h3, h4, h5⟩ e (he | rfl | he)
      · exact h2 e he
      · exact ⟨h1, h4, h5⟩
      · exact h3 e he
    · intro h
      have := h _ (.inr (.inl rfl))
      exact ⟨this.1, fun e he => h e (.inl he), fun e he => h e (.inr (.inr he)), this.2.1, this.2.2⟩

theorem OK_swap {i i' : Info T} {l d d' r : Tr T} {lc : List (LF T)} (h : OK (plug (.node i l d r) lc)) (hr : i'.red = i.red)
    (hn : i'.labels ≠ []) (hd : OK d') : OK (plug (.node i' l d' r) lc) := by
  obtain ⟨⟨⟨n, h1⟩, h2⟩, h4⟩ := h
  obtain ⟨k, h5, h6, h7⟩ := plug_RB_inv h1 h2
  have h8 : (Tr.node i' l d' r).RB k := by
    simp only [Tr.RB, hr] at h5 ⊢; exact h5
  obtain ⟨n', h9, h10⟩ := plug_RB h8 h6 (fun e f c e2 => by
      obtain ⟨f', c', e3, h⟩ := h7 (by show i.red = true; rw [← hr]; exact e)
      rw [e2] at e3; cases e3; exact h) (by
      cases lc with
      | nil => right; show i'.red = false; rw [hr]; exact h2
      | cons => left; simp)
  refine ⟨⟨⟨n', h9⟩, h10⟩, ?_⟩
  rw [Good_iff, plug_ents] at h4 ⊢
  intro e he
  simp only [Tr.ents, List.mem_append, List.mem_cons] at he h4
  rcases he with (he | he | rfl | he) | he
  · exact h4 e (.inl (.inl he))
  · exact h4 e (.inl (.inr (.inl he)))
  · exact ⟨hn, hd⟩
  · exact h4 e (.inl (.inr (.inr (.inr he))))
  · exact h4 e (.inr he)

theorem OK_node {i : Info T} {l d r : Tr T} {lc : List (LF T)} (h : OK (plug (.node i l d r) lc)) : i.labels ≠ [] ∧ OK d := by
  have h4 := h.2
  rw [Good_iff, plug_ents] at h4
  exact h4 ({ i with red := false }, d) (by simp [Tr.ents])

theorem OK_plugU {t : Tr T} {rest : List (UF T)} (h : OK (plugU t rest)) : OK t ∧ ∀ t', OK t' → OK (plugU t' rest) := by
  induction rest generalizing t with
  | nil => exact ⟨h, fun _ h => h⟩
  | cons u rest ih =>
    obtain ⟨h1, h2⟩ := ih h
    have h3 := OK_node h1
    exact ⟨h3.2, fun t' ht => h2 _ (OK_swap h1 rfl h3.1 ht)⟩

theorem OK_nil : OK (.nil : Tr T) := ⟨⟨⟨0, rfl⟩, rfl⟩, trivial⟩

theorem ents_out {i : Info T} {l d r : Tr T} {lc : List (LF T)} {t' : Tr T} {k : Nat} (h : OK (plug (.node i l d r) lc))
    (he : t'.ents = entsL lc ++ (l.ents ++ r.ents) ++ entsR lc) (hr : t'.RB k) (hb : t'.isRed = false) : OK t' := by
  have hsub : List.Sublist t'.ents (plug (.node i l d r) lc).ents := by
    rw [he, plug_ents, Tr.ents]
    exact ((((List.Sublist.refl _).append ((List.Sublist.refl _).append (List.sublist_cons_self _ _)))).append (List.Sublist.refl _))
  refine ⟨⟨⟨k, hr⟩, hb⟩, ?_⟩
  have := h.2
  rw [Good_iff] at this ⊢
  exact fun e he => this e (hsub.subset he)

theorem Good.lower {t : Tr T} (h : Good t) : ∀ x ∈ t.lower, Level x := by
  induction t with
  | nil => intro x hx; simp [Tr.lower] at hx
  | node i l d r ihl ihd ihr =>
    obtain ⟨-, h1, h2, h3, h4⟩ := h
    intro x hx
    simp only [Tr.lower, List.mem_append, List.mem_cons] at hx
    rcases hx with (hx | rfl | hx) | hx
    · exact ihl h1 x hx
    · exact h3
    · exact ihd h4 x hx
    · exact ihr h2 x hx

/-- the height of a level is logarithmic -/
theorem Level.tall {t : Tr T} (h : Level t) : t.height ≤ 2 * Nat.log2 (t.ents.length + 1) := by
  obtain ⟨⟨n, hn⟩, hr⟩ := h
  have h1 := hn.tall
  rw [hr] at h1
  have : n ≤ Nat.log2 (t.ents.length + 1) := (Nat.le_log2 (by omega)).2 h1.2
  have h2 := h1.1
  simp at h2
  omega

/-! ## a search -/

/-- the search for `tgt` has come to the place `rest`, `lc` with the subtree `t`; the labels `as` are left -/
structure At (tgt as : List Label) (rest : List (UF T)) (lc : List (LF T)) (t : Tr T) : Prop where
  ok : OK (plugU (plug t lc) rest)
  name : lowerName tgt = lowerName (as ++ sufU rest)
  ne : as ≠ []

def NamesOK (m : Build) (t : Tr T) : Prop := ∀ e ∈ bag [] t, AnyName m e.name

section
variable {m : Build} {s : Dom T} {g : Nat × Nat} {lc : List (LF T)} {t : Tr T} {i : Info T} {l d r : Tr T} {rest : List (UF T)}
variable {tgt full as post : List Label} {slice : LabelSlice}

theorem At.level (h : At tgt as rest lc t) : OK (plug t lc) := (OK_plugU h.ok).1

theorem At.down {a1 a2 : List Label} (h : At tgt as rest lc (.node i l d r)) (e : as = a1 ++ a2) (h1 : a1 ≠ []) (h2 : lowerName a2 = lowerName i.labels) :
    At tgt a1 (⟨i, l, r, lc⟩ :: rest) [] d := by
  refine ⟨h.ok, ?_, h1⟩
  rw [h.name, e]
  simp only [sufU, Name.lowerName_append, h2, List.append_assoc]

theorem node_labs (hn : NamesOK m (plugU (plug (.node i l d r) lc) rest)) : LabsOK m i.labels :=
  (hn _ entry_mem).labs (List.sublist_append_left _ _)

/-- one round of a search -/
theorem round (h : W s g rest lc (.node i l d r)) (hne : i.labels ≠ []) (hl : LabsOK m i.labels) (has : LabsOK m as) (hv : LabelSlice.View slice [] as post) :
    ∃ cur c n, s.heap i.addr = some n ∧ n = Info.node i lc.isEmpty l.ptr r.ptr (lptr (slotUp rest) lc) d.ptr ∧
      LabelSlice.from_label_sequence n.name = .ok cur ∧ slice.compare m cur false = .ok c ∧ Step as i.labels c := by
  obtain ⟨cur, e1, v1⟩ := LabelSlice.view_of_seq hl.seq hne
  obtain ⟨c, e2, hs⟩ := step_cases m hv.nonempty hne has.len hl.len has.seq.1 hl.seq.1 has.calm hl.calm
  refine ⟨cur, c, _, (Z.focus h).heap 0 rfl, by rw [slotOf_up], e1, ?_, hs⟩
  rw [LabelSlice.compare_view m hv v1]; exact e2

/-- the entries are those of before and perhaps one new node without a value, the one that splits another -/
def Grew (t0 t : Tr T) (g g' : Nat × Nat) : Prop :=
  (bag [] t = bag [] t0 ∧ g' = g) ∨
  ∃ nm, bag [] t = bag [] t0 + {⟨g.1, nm, none, false, false⟩} ∧ g' = (g.1 + 1, g.2 + 1) ∧ nm ≠ [] ∧ ∃ e ∈ bag [] t0, nm <:+ e.name

def InsPost (tgt full : List Label) (t0 : Tr T) (g : Nat × Nat) : InsertPos → Dom T → Prop
  | .found p, s => ∃ g' rest lc i l d r, W s g' rest lc (.node i l d r) ∧ i.addr = p ∧ OK (plugU (plug (.node i l d r) lc) rest) ∧
      lowerName (i.labels ++ sufU rest) = lowerName tgt ∧ Grew t0 (plugU (plug (.node i l d r) lc) rest) g g' ∧
      (g' = g ∨ i.entry (sufU rest) = ⟨g.1, i.labels ++ sufU rest, none, false, false⟩ ∧
        bag [] (plugU (plug (.node i l d r) lc) rest) = bag [] t0 + {i.entry (sufU rest)})
  | .free par up order slice, s => ∃ g' rest lc as post, W s g' rest lc .nil ∧ At tgt as rest lc .nil ∧ par = lptr 0 lc ∧ up = slotUp rest ∧
      Dir order lc ∧ LabelSlice.View slice [] as post ∧ full = as ++ post ∧ Grew t0 (plugU (plug .nil lc) rest) g g'

theorem insertLoop_round (h : W s g rest lc (.node i l d r)) (hne : i.labels ≠ []) (hl : LabsOK m i.labels) (has : LabsOK m as)
    (hv : LabelSlice.View slice [] as post) {fuel : Nat} {par up : Ptr} {order : Int} {Q : InsertPos → Dom T → Prop}
    (hq : ∀ c, Step as i.labels c → WP (insertBody m fuel par up i.addr order slice (Info.node i lc.isEmpty l.ptr r.ptr (lptr (slotUp rest) lc) d.ptr) c) s Q) :
    WP (insertLoop m (fuel + 1) par up i.addr order slice) s Q := by
  obtain ⟨cur, c, n, e1, e2, e3, e4, hs⟩ := round (m := m) h hne hl has hv
  unfold insertLoop
  rw [if_neg (Z.nz h)]
  refine WP.bind ⟨n, s, by simp [Dom.deref, e1], ?_⟩
  refine WP.bind (WP.lift e3 ?_)
  refine WP.bind (WP.lift e4 ?_)
  rw [e2]
  exact hq c hs

/-- how many nodes of a tree a search for `k` labels meets at most: each step down to a lower level uses up a label -/
def _root_.R53.Tr.steps (k : Nat) : Tr T → Nat
  | .nil => 0
  | .node _ l d r => 1 + max (max (l.steps k) (r.steps k)) (if k ≤ 1 then 0 else d.steps (k - 1))

theorem _root_.R53.Tr.steps_mono (t : Tr T) : ∀ {k k' : Nat}, k ≤ k' → t.steps k ≤ t.steps k' := by
  induction t with
  | nil => intro k k' _; exact Nat.le_refl _
  | node i l d r ihl ihd ihr =>
    intro k k' h
    have a := ihl h
    have b := ihr h
    simp only [Tr.steps]
    by_cases h1 : k ≤ 1
    · rw [if_pos h1]; omega
    · rw [if_neg h1, if_neg (by omega)]
      have c := ihd (show k - 1 ≤ k' - 1 by omega)
      omega

theorem _root_.R53.Tr.steps_size (t : Tr T) : ∀ k, t.steps k ≤ t.size := by
  induction t with
  | nil => intro k; exact Nat.le_refl _
  | node i l d r ihl ihd ihr =>
    intro k
    have a := ihl k
    have b := ihr k
    have c := ihd (k - 1)
    simp only [Tr.steps, Tr.size]
    split <;> omega

theorem insertLoop_spec (fuel : Nat) : ∀ {rest : List (UF T)} {lc : List (LF T)} {t : Tr T} {as post : List Label} {slice : LabelSlice} {order : Int},
    W s g rest lc t → At tgt as rest lc t → NamesOK m (plugU (plug t lc) rest) → LabsOK m as → LabelSlice.View slice [] as post → full = as ++ post →
    Dir order lc → t.steps as.length + 4 ≤ fuel →
    WP (insertLoop m fuel (lptr 0 lc) (slotUp rest) t.ptr order slice) s (InsPost tgt full (plugU (plug t lc) rest) g) := by
  induction fuel with
  | zero => intro _ _ _ _ _ _ _ _ _ _ _ _ _ _ hf; omega
  | succ fuel ih =>
    intro rest lc t as post slice order h ha hn has hv hfull hd hf
    cases t with
    | nil =>
      unfold insertLoop
      rw [if_pos (show (Tr.nil : Tr T).ptr = 0 from rfl)]
      exact WP.pure ⟨g, rest, lc, as, post, h, ha, rfl, rfl, hd, hv, hfull, .inl ⟨rfl, rfl⟩⟩
    | node i l d r =>
      have hi := (OK_node ha.level).1
      refine insertLoop_round (i := i) h hi (node_labs hn) has hv fun c hs => ?_
      simp only [Tr.steps] at hf
      unfold insertBody
      cases hs with
      | equal hr e =>
        rw [hr]
        refine WP.pure ⟨g, rest, lc, i, l, d, r, h, rfl, ha.ok, ?_, .inl ⟨rfl, rfl⟩, .inl rfl⟩
        rw [ha.name, Name.lowerName_append, Name.lowerName_append, e]
      | none hr hc =>
        rw [hr]
        by_cases ho : c.order < 0
        · simp only [ho, if_true]
          exact ih (rest := rest) (lc := .L i d r :: lc) (t := l) (Z.left_down.1 h) ⟨ha.ok, ha.name, ha.ne⟩ hn has hv hfull ho (by omega)
        · simp only [ho, if_false]
          exact ih (rest := rest) (lc := .R i l d :: lc) (t := r) (Z.right_down.1 h) ⟨ha.ok, ha.name, ha.ne⟩ hn has hv hfull ho (by omega)
      | sub a1 a2 hr hc e h1 h2 =>
        rw [hr]
        subst e
        obtain ⟨s', e', v'⟩ := hv.strip_right h1
        have hlen := lowerName_ne h2
        refine WP.bind (WP.lift (a := s') (by rw [hc, ← hlen]; exact e') ?_)
        exact ih (rest := ⟨i, l, r, lc⟩ :: rest) (lc := []) (t := d) (W.down_iff.1 h) (ha.down rfl h1 h2) hn has.left v' (by rw [hfull]; simp) trivial (by
          have p1 : 0 < a1.length := List.length_pos_iff.2 h1
          have p2 : 0 < a2.length := by rw [hlen]; exact List.length_pos_iff.2 hi
          rw [List.length_append, if_neg (by omega)] at hf
          have := d.steps_mono (show a1.length ≤ a1.length + a2.length - 1 by omega)
          omega)
      | split a1 a2 b1 b2 hr e e' h1 h2 hc h3 h4 =>
        have hbody : WP (do node_fission i.addr c.common_label_count; let q ← parent i.addr; insertLoop m fuel (lptr 0 lc) (slotUp rest) q order slice) s
            (InsPost tgt full (plugU (plug (.node i l d r) lc) rest) g) := by
          refine WP.bind ?_
          rw [hc]
          refine (node_fission_spec h e' h1 h2 (node_labs hn).seq).mono fun _ s1 w1 => ?_
          have hlab := node_labs hn
          rw [e'] at hlab
          generalize hup : (⟨g.1, i.red, false, false, b2, none⟩ : Info T) = up at w1
          have hupl : up.labels = b2 := by rw [← hup]
          have w2 : W s1 (g.1 + 1, g.2 + 1) (⟨up, l, r, lc⟩ :: rest) [] (.node { i with red := false, labels := b1 } .nil d .nil) := W.down_iff.1 w1
          refine WP.bind (Z.parent w2 ?_)
          have ep : lptr (slotOf (⟨up, l, r, lc⟩ :: rest)).up ([] : List (LF T)) = up.addr := rfl
          rw [ep]
          have okd : OK (Tr.node { i with red := false, labels := b1 } .nil d .nil) := by
            refine ⟨⟨⟨1, .inr ⟨rfl, 0, rfl, rfl, rfl⟩⟩, rfl⟩, ?_⟩
            have := (OK_node ha.level).2
            exact ⟨h1, trivial, trivial, this.1, this.2⟩
          have oklev := OK_swap (i' := up) (d' := .node { i with red := false, labels := b1 } .nil d .nil) ha.level (by rw [← hup]) (by rw [hupl]; exact h2) okd
          have okall := (OK_plugU ha.ok).2 _ oklev
          have hat : At tgt as rest lc (.node up l (.node { i with red := false, labels := b1 } .nil d .nil) r) :=
            ⟨okall, ha.name, ha.ne⟩
          have hbag : bag [] (plugU (plug (.node up l (.node { i with red := false, labels := b1 } .nil d .nil) r) lc) rest)
              = bag [] (plugU (plug (.node i l d r) lc) rest) + {⟨g.1, b2 ++ sufU rest, none, false, false⟩} := by
            rw [bag_whole, bag_whole, bag_node, bag_node, bag_node]
            simp only [Info.entry, hupl, bag_nil, e', List.append_assoc]
            rw [← hup]
            abel
          have hgrew : Grew (plugU (plug (.node i l d r) lc) rest) (plugU (plug (.node up l (.node { i with red := false, labels := b1 } .nil d .nil) r) lc) rest)
              g (g.1 + 1, g.2 + 1) := by
            refine .inr ⟨_, hbag, rfl, by simp [h2], _, entry_mem, ?_⟩
            simp only [Info.entry, e', List.append_assoc]; exact List.suffix_append _ _
          obtain ⟨f3, rfl⟩ : ∃ f3, fuel = f3 + 3 := ⟨fuel - 3, by omega⟩
          have hlab2 : LabsOK m b2 := hlab.right
          refine insertLoop_round (i := up) w1 (by rw [hupl]; exact h2) (by rw [hupl]; exact hlab2) has hv fun c2 hs2 => ?_
          rw [hupl] at hs2
          unfold insertBody
          by_cases ha1 : a1 = []
          · subst ha1
            rw [hs2.same (by rw [e]; simpa using h3)]
            refine WP.pure ⟨_, rest, lc, up, l, _, r, w1, rfl, okall, ?_, hgrew, .inr ⟨by rw [← hup]; rfl, by rw [hbag]; rw [← hup]; rfl⟩⟩
            rw [ha.name, e, hupl]; simp only [List.nil_append, Name.lowerName_append, h3]
          · subst e
            obtain ⟨hr2, hc2⟩ := hs2.below ha1 h2 h3
            rw [hr2]
            obtain ⟨s', es', v'⟩ := hv.strip_right ha1
            refine WP.bind (WP.lift (a := s') (by rw [hc2, ← lowerName_ne h3]; exact es') ?_)
            have hat2 := hat.down rfl ha1 (by rw [hupl]; exact h3)
            refine insertLoop_round (i := { i with red := false, labels := b1 }) w2 h1 hlab.left has.left v' fun c3 hs3 => ?_
            have hr3 := hs3.beside h1 (h4 ha1)
            unfold insertBody
            rw [hr3]
            have hnil : ∀ (f : LF T) (o : Int), W s1 (g.1 + 1, g.2 + 1) (⟨up, l, r, lc⟩ :: rest) [f] .nil → At tgt a1 (⟨up, l, r, lc⟩ :: rest) [f] .nil → Dir o [f] →
                plugU (plug .nil [f]) (⟨up, l, r, lc⟩ :: rest) = plugU (plug (.node up l (.node { i with red := false, labels := b1 } .nil d .nil) r) lc) rest →
                WP (insertLoop m (f3 + 1) f.addr up.addr 0 o s') s1 (InsPost tgt full (plugU (plug (.node i l d r) lc) rest) g) := by
              intro f o w3 a3 d3 e3
              unfold insertLoop
              rw [if_pos rfl]
              refine WP.pure ⟨_, _, [f], a1, a2 ++ post, w3, a3, rfl, rfl, d3, v', by rw [hfull]; simp, ?_⟩
              rw [e3]; exact hgrew
            by_cases ho : c3.order < 0
            · simp only [ho, if_true]
              exact hnil (.L { i with red := false, labels := b1 } d .nil) _ (Z.left_down.1 w2) ⟨hat2.ok, hat2.name, hat2.ne⟩ ho rfl
            · simp only [ho, if_false]
              exact hnil (.R { i with red := false, labels := b1 } .nil d) _ (Z.right_down.1 w2) ⟨hat2.ok, hat2.name, hat2.ne⟩ ho rfl
        rcases hr with ⟨hr, -⟩ | ⟨hr, -⟩
        · rw [hr]; exact hbody
        · rw [hr]; exact hbody

/-- `insertAt` with a given way to repair the colours -/
def insertAtWith (fix : Loc → Ptr → St (Dom T) Unit) (target : Name) (v : Option T) (par up : Ptr) (order : Int) (slice : LabelSlice) : St (Dom T) Ptr := do
  let loc : Loc := if up ≠ 0 then .down up else .root
  (fun s => (.ok (), { s with len := s.len + 1 }) : St (Dom T) Unit)
  let name ← St.lift (target.into_label_sequence slice.first_label slice.last_label)
  let node ← alloc name v
  set_parent node par
  if par = 0 then do
    store loc node
    set_color node .Black
    set_subtree_root node true
    set_parent node up
  else if order < 0 then do
    set_subtree_root node false
    set_left par node
    fix loc node
  else do
    set_subtree_root node false
    set_right par node
    fix loc node
  pure node

theorem insertAtWith_spec {fix : Loc → Ptr → St (Dom T) Unit} {ls : List Label} {par up : Ptr} {order : Int} (hfix : ∀ (s4 : Dom T) (i : Info T),
      Z s4 (g.1 + 1, g.2 + 1) (slotOf rest) lc (.node i .nil .nil .nil) (cellsU rest) → i.red = true → CB lc 0 → WP (fix (slotOf rest).loc i.addr) s4 fun _ s' =>
      ∃ t k, Z s' (g.1 + 1, g.2 + 1) (slotOf rest) [] t (cellsU rest) ∧ t.ents = (plug (.node i .nil .nil .nil) lc).ents ∧ t.RB k ∧ t.isRed = false) (hls : ValidName ls) (v : Option T) (h : W s g rest lc .nil) (ha : At tgt as rest lc .nil)
    (hpar : par = lptr 0 lc) (hup : up = slotUp rest) (hd : Dir order lc) (hv : LabelSlice.View slice [] as post) (hfull : ls ++ [[]] = as ++ post) :
    WP (insertAtWith fix (Name.ofLabels ls) v par up order slice) s fun p s' => p = g.1 ∧
      ∃ t', Mem s' (g.1 + 1, g.2 + 1) t' ∧ OK t' ∧
        bag [] t' = bag [] (plugU (plug .nil lc) rest) + {⟨g.1, as ++ sufU rest, v, false, false⟩} := by
  unfold insertAtWith
  rw [hup, ← h.loc, hpar]
  have h0 : H s g (slotOf rest) (rptr 0 lc) [] [] (cellsL (slotOf rest).up 0 lc + cellsU rest) := by
    refine H.conv (show H _ _ _ _ _ _ _ from h) rfl ?_
    simp only [treesOf_cons, treesOf_nil, cells, Tr.ptr]
    abel
  refine WP.bind (h0.addLen fun s1 h1 => ?_)
  have hlen : 1 ≤ as.length := List.length_pos_iff.2 ha.ne
  have hlast := hv.last
  have hfl : ls.length + 1 = as.length + post.length := by
    have := congrArg List.length hfull; simpa using this
  have hname : (Name.ofLabels ls).into_label_sequence slice.first_label slice.last_label = .ok (.ofLabels as) := by
    rw [hv.first, Name.into_label_sequence_ofLabels hls, if_pos ⟨by simp, by simp at hlast; omega⟩]
    have : slice.last_label + 1 = as.length := by simpa using hlast
    rw [this, hfull]; simp
  refine WP.bind (WP.lift hname ?_)
  refine WP.bind (h1.alloc _ _ fun s2 h2 => ?_)
  refine WP.bind (h2.upd 0 rfl _ fun s3 h3 => ?_)
  simp only [List.set_cons_zero] at h3
  have hok := ha.level
  have hwhole : ∀ (lev : Tr T), lev.ents = entsL lc ++ [(⟨g.1, false, false, false, as, v⟩, .nil)] ++ entsR lc → (∃ k, lev.RB k) → lev.isRed = false →
      OK (plugU lev rest) ∧ bag [] (plugU lev rest) = bag [] (plugU (plug .nil lc) rest) + {⟨g.1, as ++ sufU rest, v, false, false⟩} := by
    intro lev he hrb hred
    constructor
    · refine (OK_plugU ha.ok).2 _ ⟨⟨hrb, hred⟩, ?_⟩
      have h5 := hok.2
      rw [Good_iff, plug_ents] at h5
      rw [Good_iff, he]
      intro e hm
      simp only [List.mem_append, List.mem_singleton] at hm
      rcases hm with (hm | rfl) | hm
      · exact h5 e (by simp [hm])
      · exact ⟨ha.ne, OK_nil⟩
      · exact h5 e (by simp [hm])
    · rw [bag_whole, bag_plugU, bag_ents, he]
      simp only [bagE_append, bagE_cons, bagE_nil, bag_nil, Info.entry]
      abel
  match lc, h3, hd, hok, hwhole, hfix with
  | [], h3, _, _, hwhole, _ =>
    refine WP.pos (c := lptr 0 ([] : List (LF T)) = 0) rfl ?_
    refine WP.bind (h3.store _ fun s4 h4 => ?_)
    refine WP.bind (h4.upd 0 rfl _ fun s5 h5 => ?_)
    refine WP.bind (h5.upd 0 rfl _ fun s6 h6 => ?_)
    refine WP.bind (h6.upd 0 rfl _ fun s7 h7 => ?_)
    refine WP.pure ⟨rfl, ?_⟩
    have w7 : W s7 (g.1 + 1, g.2 + 1) rest [] (.node ⟨g.1, false, false, false, as, v⟩ .nil .nil .nil) := by
      refine H.conv h7 rfl ?_
      simp only [treesOf_cons, treesOf_nil, listOf_nil, listOf_cons, cells, Tr.ptr, Info.node, cellsL, lptr, rptr, List.isEmpty_nil,
        List.set_cons_zero, mkFlag_set_subtree_root, mkFlag_default, mkFlag_set_color, reduceCtorEq, decide_false, slotOf_up]
      abel
    obtain ⟨h8, h9⟩ := hwhole (.node ⟨g.1, false, false, false, as, v⟩ .nil .nil .nil) (by simp [Tr.ents, entsL, entsR])
      ⟨1, .inr ⟨rfl, 0, rfl, rfl, rfl⟩⟩ rfl
    exact ⟨_, W.top.1 w7, h8, h9⟩
  | f :: c, h3, hd, hok, hwhole, hfix =>
    have hfz : f.addr ≠ 0 := by
      have h10 : Z s g (slotOf rest) c (f.fill .nil) (cellsU rest) := (Z.up f).1 h
      cases f <;> exact h10.nz
    have hcb : CB (f :: c) 0 := by
      obtain ⟨⟨k, h11⟩, h12⟩ := hok.1
      obtain ⟨n, h13, h14, -⟩ := plug_RB_inv h11 h12
      have : n = 0 := h13
      subst this; exact h14
    have hfin : ∀ s4, Z s4 (g.1 + 1, g.2 + 1) (slotOf rest) (f :: c) (.node ⟨g.1, true, false, false, as, v⟩ .nil .nil .nil) (cellsU rest) →
        WP (do fix (slotOf rest).loc g.1; pure g.1) s4 fun p s' => p = g.1 ∧
          ∃ t', Mem s' (g.1 + 1, g.2 + 1) t' ∧ OK t' ∧
            bag [] t' = bag [] (plugU (plug .nil (f :: c)) rest) + {⟨g.1, as ++ sufU rest, v, false, false⟩} := by
      intro s4 z4
      refine WP.bind ((hfix s4 ⟨g.1, true, false, false, as, v⟩ z4 rfl hcb).mono fun _ s5 h5 => ?_)
      obtain ⟨lev, k, z5, e5, rb5, b5⟩ := h5
      obtain ⟨h8, h9⟩ := hwhole lev (by rw [e5, plug_ents]; simp [Tr.ents]) ⟨k, rb5⟩ b5
      exact WP.pure ⟨rfl, _, W.top.1 (show W s5 _ rest [] lev from z5), h8, h9⟩
    refine WP.neg hfz ?_
    cases f with
    | L i d r =>
      have ho : order < 0 := hd
      refine WP.pos ho ?_
      refine WP.bind (h3.upd 0 rfl _ fun s4 h4 => ?_)
      have h5 : H s4 (g.1 + 1, g.2 + 1) (slotOf rest) (rptr i.addr c) [(i.addr, Info.node i c.isEmpty 0 r.ptr (lptr (slotOf rest).up c) d.ptr),
            (g.1, Info.node ⟨g.1, true, false, false, as, v⟩ false 0 0 i.addr 0)] []
          (cells i.addr true d + cells i.addr false r + cellsL (slotOf rest).up i.addr c + cellsU rest) := by
        refine H.conv h4 rfl ?_
        simp only [treesOf_cons, treesOf_nil, listOf_nil, listOf_cons, cells, Tr.ptr, Info.node, cellsL, lptr, rptr, LF.cell, LF.addr, LF.info, LF.dn, LF.sib,
          List.set_cons_zero, mkFlag_set_subtree_root, mkFlag_default]
        abel
      refine WP.bind (h5.upd 0 rfl _ fun s6 h6 => ?_)
      have z6 : Z s6 (g.1 + 1, g.2 + 1) (slotOf rest) (.L i d r :: c) (.node ⟨g.1, true, false, false, as, v⟩ .nil .nil .nil) (cellsU rest) := by
        refine H.conv h6 rfl ?_
        simp only [treesOf_cons, treesOf_nil, listOf_nil, listOf_cons, cells, Tr.ptr, Info.node, cellsL, lptr, rptr, LF.cell, LF.addr, LF.info, LF.dn, LF.sib,
          List.set_cons_zero, List.isEmpty_cons]
        abel
      exact hfin s6 z6
    | R i l d =>
      have ho : ¬ order < 0 := hd
      refine WP.neg ho ?_
      refine WP.bind (h3.upd 0 rfl _ fun s4 h4 => ?_)
      have h5 : H s4 (g.1 + 1, g.2 + 1) (slotOf rest) (rptr i.addr c) [(i.addr, Info.node i c.isEmpty l.ptr 0 (lptr (slotOf rest).up c) d.ptr),
            (g.1, Info.node ⟨g.1, true, false, false, as, v⟩ false 0 0 i.addr 0)] []
          (cells i.addr true d + cells i.addr false l + cellsL (slotOf rest).up i.addr c + cellsU rest) := by
        refine H.conv h4 rfl ?_
        simp only [treesOf_cons, treesOf_nil, listOf_nil, listOf_cons, cells, Tr.ptr, Info.node, cellsL, lptr, rptr, LF.cell, LF.addr, LF.info, LF.dn, LF.sib,
          List.set_cons_zero, mkFlag_set_subtree_root, mkFlag_default]
        abel
      refine WP.bind (h5.upd 0 rfl _ fun s6 h6 => ?_)
      have z6 : Z s6 (g.1 + 1, g.2 + 1) (slotOf rest) (.R i l d :: c) (.node ⟨g.1, true, false, false, as, v⟩ .nil .nil .nil) (cellsU rest) := by
        refine H.conv h6 rfl ?_
        simp only [treesOf_cons, treesOf_nil, listOf_nil, listOf_cons, cells, Tr.ptr, Info.node, cellsL, lptr, rptr, LF.cell, LF.addr, LF.info, LF.dn, LF.sib,
          List.set_cons_zero, List.isEmpty_cons]
        abel
      exact hfin s6 z6

theorem insertAt_spec {ls : List Label} {par up : Ptr} {order : Int} (hls : ValidName ls) (v : Option T) (h : W s g rest lc .nil) (ha : At tgt as rest lc .nil)
    (hpar : par = lptr 0 lc) (hup : up = slotUp rest) (hd : Dir order lc) (hv : LabelSlice.View slice [] as post) (hfull : ls ++ [[]] = as ++ post) :
    WP (insertAt (Name.ofLabels ls) v par up order slice) s fun p s' => p = g.1 ∧
      ∃ t', Mem s' (g.1 + 1, g.2 + 1) t' ∧ OK t' ∧
        bag [] t' = bag [] (plugU (plug .nil lc) rest) + {⟨g.1, as ++ sufU rest, v, false, false⟩} :=
  insertAtWith_spec (fix := insert_fixup) (fun _ _ z hi hc => insert_fixup_spec z hi (n := 0) (.inl ⟨hi, rfl, rfl, rfl, rfl⟩) hc) hls v h ha hpar hup hd hv hfull

end

/-! ## the whole tree -/

/-- the memory holds the tree `t`; the length counts `δ` too many -/
structure Inv (m : Build) (s : Dom T) (t : Tr T) (δ : Nat) : Prop where
  mem : Mem s (s.next, s.len) t
  ok : OK t
  names : NamesOK m t
  len : s.len = t.size + δ

section
variable {m : Build} {s : Dom T} {t : Tr T} {δ : Nat} {g : Nat × Nat} {lc : List (LF T)} {i : Info T} {l d r : Tr T} {rest : List (UF T)}

/-- what `insert` does to the entries -/
def Inserted (t t' : Tr T) (ls : List Label) (v : Option T) (p : Ptr) (old : Option (Option T)) : Prop :=
  (∃ e R, bag [] t = {e} + R ∧ e.addr = p ∧ SameName e.name (ls ++ [[]]) ∧ old = some e.value ∧ bag [] t' = {{ e with value := v }} + R) ∨
  (old.join = none ∧ ∃ nm X, SameName nm (ls ++ [[]]) ∧ bag [] t' = bag [] t + {⟨p, nm, v, false, false⟩} + X ∧
      (X = 0 ∨ ∃ q nm2, X = {⟨q, nm2, none, false, false⟩}))

theorem Grew.inv (h : Inv m s t δ) {t' : Tr T} {g' : Nat × Nat} (hg : Grew t t' (s.next, s.len) g') : g'.2 = t'.size + δ ∧ NamesOK m t' := by
  have hl : s.len = (bag [] t).card + δ := by rw [h.len, size_bag []]
  rcases hg with ⟨e, rfl⟩ | ⟨nm, e, rfl, hne, e0, he0, hsuf⟩
  · refine ⟨by rw [size_bag [], e]; exact hl, ?_⟩
    intro x hx; rw [e] at hx; exact h.names x hx
  · refine ⟨by rw [size_bag [], e]; simp [hl]; omega, ?_⟩
    intro x hx
    rw [e, Multiset.mem_add, Multiset.mem_singleton] at hx
    rcases hx with hx | rfl
    · exact h.names x hx
    · exact (h.names e0 he0).suffix hsuf hne

/-- a change of value and user flags of one node -/
theorem swap {s' : Dom T} (i' : Info T) {k : Nat × Nat} (hok : OK (plugU (plug (.node i l d r) lc) rest)) (hn : NamesOK m (plugU (plug (.node i l d r) lc) rest))
    (hk : k.2 = (plugU (plug (.node i l d r) lc) rest).size + δ)
    (hw' : W s' k rest lc (.node i' l d r)) (hlab : i'.labels = i.labels) (hred : i'.red = i.red) :
    ∃ R, bag [] (plugU (plug (.node i l d r) lc) rest) = {i.entry (sufU rest)} + R ∧ bag [] (plugU (plug (.node i' l d r) lc) rest) = {i'.entry (sufU rest)} + R ∧
      Inv m s' (plugU (plug (.node i' l d r) lc) rest) δ := by
  have oklev := (OK_plugU hok).1
  have ok1 : OK (plugU (plug (.node i' l d r) lc) rest) := (OK_plugU hok).2 _ (OK_swap oklev hred (by rw [hlab]; exact (OK_node oklev).1) (OK_node oklev).2)
  have hb1 := bag_whole (.node i l d r) lc rest
  have hb2 := bag_whole (.node i' l d r) lc rest
  rw [bag_node] at hb1 hb2
  rw [hlab] at hb2
  generalize hR : bag (i.labels ++ sufU rest) d + bag (sufU rest) l + bag (sufU rest) r + bagE (sufU rest) (entsL lc ++ entsR lc) + bagU rest = R
  have hb1' : bag [] (plugU (plug (.node i l d r) lc) rest) = {i.entry (sufU rest)} + R := by rw [hb1, ← hR]; abel
  have hb2' : bag [] (plugU (plug (.node i' l d r) lc) rest) = {i'.entry (sufU rest)} + R := by rw [hb2, ← hR]; abel
  refine ⟨R, hb1', hb2', ?_, ok1, ?_, ?_⟩
  · have := W.nextlen hw'; rw [← this]; exact W.top.1 hw'
  · intro e he
    rw [hb2', Multiset.mem_add, Multiset.mem_singleton] at he
    rcases he with rfl | he
    · have := hn (i.entry (sufU rest)) (by rw [hb1']; simp)
      simp only [Info.entry, hlab] at this ⊢; exact this
    · exact hn e (by rw [hb1']; simp [he])
  · have := congrArg Prod.snd (W.nextlen hw')
    rw [show s'.len = k.2 from this.symm, hk, size_bag [], size_bag [], hb1', hb2']; simp

theorem insert_found (h : Inv m s t δ) {ls : List Label} (v : Option T) {s1 : Dom T} {p : Ptr}
    (hp : InsPost (ls ++ [[]]) (ls ++ [[]]) t (s.next, s.len) (.found p) s1) :
    WP (Dom.set_value p v) s1 fun old s' => ∃ t', Inv m s' t' δ ∧ Inserted t t' ls v p (some old) := by
  obtain ⟨g', rest, lc, i, l, d, r, w1, rfl, ok1, hn1, hg1, hfresh⟩ := hp
  have hsn : SameName (i.labels ++ sufU rest) (ls ++ [[]]) := hn1
  obtain ⟨hlen1, hnames1⟩ := hg1.inv h
  refine (W.set_value w1 v).mono fun old s2 ho => ?_
  obtain ⟨rfl, w2⟩ := ho
  obtain ⟨R, hb1', hb2', hinv⟩ := swap (m := m) (δ := δ) _ ok1 hnames1 hlen1 w2 rfl rfl
  refine ⟨_, hinv, ?_⟩
  rcases hfresh with rfl | ⟨efr, ebag⟩
  · rcases hg1 with ⟨eb, -⟩ | ⟨nm, -, eg, -⟩
    · exact .inl ⟨i.entry (sufU rest), R, by rw [← eb, hb1'], rfl, hsn, rfl, hb2'⟩
    · have := congrArg Prod.fst eg
      simp at this
  · have hR2 : R = bag [] t := by
      have : ({i.entry (sufU rest)} : Multiset (Entry T)) + R = {i.entry (sufU rest)} + bag [] t := by rw [← hb1', ebag]; abel
      exact Multiset.add_right_inj.1 this
    have hval : i.value = none := congrArg Entry.value efr
    refine .inr ⟨by rw [hval]; rfl, i.labels ++ sufU rest, 0, hsn, ?_, .inl rfl⟩
    rw [hb2', hR2]
    have e1 : i.cb = false := congrArg Entry.cb efr
    have e2 : i.wc = false := congrArg Entry.wc efr
    simp only [Info.entry, e1, e2]
    abel

theorem insert_free (h : Inv m s t δ) {ls : List Label} (hv : ValidName ls) (ha : Calm m ls) (v : Option T) {s1 : Dom T} {par up : Ptr} {order : Int} {slice : LabelSlice}
    (hp : InsPost (ls ++ [[]]) (ls ++ [[]]) t (s.next, s.len) (.free par up order slice) s1) :
    WP (insertAt (Name.ofLabels ls) v par up order slice) s1 fun p s' => ∃ t', Inv m s' t' δ ∧ Inserted t t' ls v p none := by
  have habs : AnyName m (ls ++ [[]]) := ⟨ls, hv, ha, rfl⟩
  obtain ⟨g', rest, lc, as, post, w1, at1, hpar, hup, hd, hvw, hfull, hg1⟩ := hp
  obtain ⟨hlen1, hnames1⟩ := hg1.inv h
  refine (insertAt_spec hv v w1 at1 hpar hup hd hvw hfull).mono fun p s2 ho => ?_
  obtain ⟨rfl, t', m2, ok2, hb2⟩ := ho
  refine ⟨t', ⟨?_, ok2, ?_, ?_⟩, .inr ⟨rfl, as ++ sufU rest, ?_⟩⟩
  · have := W.nextlen m2; rw [← this]; exact m2
  · intro e he
    rw [hb2, Multiset.mem_add, Multiset.mem_singleton] at he
    rcases he with he | rfl
    · exact hnames1 e he
    · exact habs.congr at1.name
  · have := W.nextlen m2
    rw [show s2.len = g'.2 + 1 by rw [show s2.len = (s2.next, s2.len).2 from rfl, ← this], hlen1, size_bag [], size_bag [], hb2]; simp; omega
  · rcases hg1 with ⟨eb, rfl⟩ | ⟨nm, eb, rfl, -⟩
    · exact ⟨0, at1.name.symm, by rw [hb2, eb]; simp, .inl rfl⟩
    · exact ⟨_, at1.name.symm, by rw [hb2, eb]; abel, .inr ⟨_, nm, rfl⟩⟩

theorem insert_spec (h : Inv m s t δ) {ls : List Label} (hv : ValidName ls) (ha : Calm m ls) (v : Option T) :
    WP (insert m (Name.ofLabels ls) v) s fun r s' => ∃ t', Inv m s' t' δ ∧ Inserted t t' ls v r.1 r.2 := by
  unfold insert
  refine WP.bind (WP.lift (LabelSlice.from_name_ofLabels ls) ?_)
  refine WP.bind (WP.get ?_)
  have habs : AnyName m (ls ++ [[]]) := ⟨ls, hv, ha, rfl⟩
  have hroot : s.root = t.ptr := Hold.root (Z.hold h.mem)
  have hat : At (ls ++ [[]]) (ls ++ [[]]) ([] : List (UF T)) [] t := ⟨h.ok, by simp [sufU], by simp⟩
  refine WP.bind ?_
  have hsz := W.size_lt h.mem
  simp only at hsz
  generalize hF : 2 * s.next + 4 = F
  have hspec : WP (insertLoop m F 0 0 t.ptr (-1) ⟨(Name.ofLabels ls).raw, (Name.ofLabels ls).offsets, 0, ls.length⟩) s (InsPost (ls ++ [[]]) (ls ++ [[]]) t (s.next, s.len)) := insertLoop_spec (m := m) (tgt := ls ++ [[]]) (full := ls ++ [[]]) (order := -1) F h.mem hat h.names (habs.labs (List.Sublist.refl _))
    (LabelSlice.view_of_name hv) (by simp) trivial (by have : (2 * s.next + 4 : Nat) = F := hF; have := t.steps_size (ls ++ [[]]).length; omega)
  rw [hroot]
  refine hspec.mono fun pos s1 hp => ?_
  cases pos with
  | found p => exact WP.bind ((insert_found h v hp).mono fun old s2 ho => WP.pure ho)
  | free par up order slice => exact WP.bind ((insert_free h hv ha v hp).mono fun p s2 ho => WP.pure ho)

/-! ## removal -/

/-- the part of a tree that stays when some nodes are taken out -/
structure Shrunk (t t' : Tr T) (nm : List Label) (dead : Multiset (Entry T)) : Prop where
  ok : OK t'
  bag : bag [] t = bag [] t' + dead
  none : ∀ e ∈ dead, e.value = none
  above : ∀ e ∈ dead, e.name <:+ nm

/-- the loop of `removeLoop` with given ways to find the upper node and to take a node out of its level -/
def removeLoopWith (upper : Ptr → St (Dom T) Ptr) (unl : Ptr → Ptr → St (Dom T) Unit) : Nat → Ptr → St (Dom T) Unit
  | 0, _ => St.boom
  | fuel + 1, node => do
    let up ← upper node
    unl node up
    let s ← St.get
    let l ← St.lift (csub s.len 1)
    St.put { s with len := l }
    if up = 0 then pure ()
    else if (← get_value up).isSome then pure ()
    else if (← down up) ≠ 0 then pure ()
    else removeLoopWith upper unl fuel up

/-- `upper` and `unl` do as `get_upper_node` and `unlink` in trees of at most `B` nodes -/
structure Takes (B : Nat) (upper : Ptr → St (Dom T) Ptr) (unl : Ptr → Ptr → St (Dom T) Unit) : Prop where
  upper : ∀ {s : Dom T} {g : Nat × Nat} {rest : List (UF T)} {lc : List (LF T)} {i : Info T} {l r : Tr T}, W s g rest lc (.node i l .nil r) →
    OK (plug (.node i l .nil r) lc) → (plug (.node i l .nil r) lc).size ≤ B → WP (upper i.addr) s fun p s' => s' = s ∧ p = slotUp rest
  unl : ∀ {s : Dom T} {g : Nat × Nat} {rest : List (UF T)} {lc : List (LF T)} {i : Info T} {l r : Tr T}, W s g rest lc (.node i l .nil r) →
    OK (plug (.node i l .nil r) lc) → (plug (.node i l .nil r) lc).size ≤ B → WP (unl i.addr (slotOf rest).up) s fun _ s' =>
      ∃ t' k', Z s' g (slotOf rest) [] t' (cellsU rest) ∧ t'.ents = entsL lc ++ (l.ents ++ r.ents) ++ entsR lc ∧ t'.RB k' ∧ t'.isRed = false

theorem size_plugU (t : Tr T) (rest : List (UF T)) : t.size ≤ (plugU t rest).size := by
  rw [size_bag (sufU rest) t, size_bag [] (plugU t rest), bag_plugU, Multiset.card_add]; omega

theorem removeLoopWith_spec {B : Nat} {upper : Ptr → St (Dom T) Ptr} {unl : Ptr → Ptr → St (Dom T) Unit} (tk : Takes B upper unl) (fuel : Nat) : ∀ {s : Dom T} {rest : List (UF T)} {lc : List (LF T)} {i : Info T} {l r : Tr T} {k δ : Nat},
    W s (g.1, k) rest lc (.node i l .nil r) → OK (plugU (plug (.node i l .nil r) lc) rest) → k = (plugU (plug (.node i l .nil r) lc) rest).size + δ →
    i.value = none → rest.length < fuel → (plugU (plug (.node i l .nil r) lc) rest).size ≤ B →
    WP (removeLoopWith upper unl fuel i.addr) s fun _ s' => ∃ t' k' dead, Mem s' (g.1, k') t' ∧ k' = t'.size + δ ∧
      Shrunk (plugU (plug (.node i l .nil r) lc) rest) t' (i.labels ++ sufU rest) dead := by
  induction fuel with
  | zero => intro _ _ _ _ _ _ _ _ _ _ _ _ h _; omega
  | succ fuel ih =>
    intro s rest lc i l r k δ h hok hk hv hf hB
    unfold removeLoopWith
    have hlev := (OK_plugU hok).1
    have hBl := Nat.le_trans (size_plugU _ rest) hB
    refine WP.bind ((tk.upper h hlev hBl).mono fun up s0 hs0 => ?_)
    obtain ⟨rfl, rfl⟩ := hs0
    rw [← slotOf_up]
    refine WP.bind ((tk.unl h hlev hBl).mono fun _ s1 h1 => ?_)
    obtain ⟨t', n', z1, e1, rb1, b1⟩ := h1
    rw [slotOf_up]
    refine WP.bind (WP.get ?_)
    have okt : OK t' := ents_out hlev e1 rb1 b1
    have okw : OK (plugU t' rest) := (OK_plugU hok).2 _ okt
    have hbag : Dom.bag [] (plugU (plug (.node i l .nil r) lc) rest) = Dom.bag [] (plugU t' rest) + {i.entry (sufU rest)} := by
      rw [bag_whole, bag_plugU, bag_ents _ t', e1, bag_node]
      simp only [bagE_append, bag_nil, ← bag_ents]
      abel
    have hsz : k = (plugU t' rest).size + δ + 1 := by rw [hk, size_bag [], hbag, size_bag []]; simp; omega
    have z1' : H s1 (g.1, (plugU t' rest).size + δ + 1) (slotOf rest) (rptr t'.ptr ([] : List (LF T))) [] [(lptr (slotOf rest).up ([] : List (LF T)), true, t')] (cellsL (slotOf rest).up t'.ptr [] + cellsU rest) := by
      rw [← hsz]; exact z1
    obtain ⟨hl1, z2⟩ := z1'.subLen
    refine WP.bind (WP.lift (a := (plugU t' rest).size + δ) (by rw [hl1, csub_ok (by omega)]; simp) ?_)
    refine WP.bind ⟨(), { s1 with len := (plugU t' rest).size + δ }, rfl, ?_⟩
    have w2 : W { s1 with len := (plugU t' rest).size + δ } (g.1, (plugU t' rest).size + δ) rest [] t' := z2
    generalize ({ s1 with len := (plugU t' rest).size + δ } : Dom T) = s2 at w2
    have hstop : ∃ t'' k' dead, Mem s2 (g.1, k') t'' ∧ k' = t''.size + δ ∧
        Shrunk (plugU (plug (.node i l .nil r) lc) rest) t'' (i.labels ++ sufU rest) dead := by
      refine ⟨plugU t' rest, _, {i.entry (sufU rest)}, W.top.1 w2, rfl, okw, hbag, ?_, ?_⟩
      · intro e he; rw [Multiset.mem_singleton.1 he]; exact hv
      · intro e he; rw [Multiset.mem_singleton.1 he]; exact List.suffix_refl _
    cases rest with
    | nil =>
      refine WP.pos (c := slotUp ([] : List (UF T)) = 0) rfl ?_
      exact WP.pure hstop
    | cons u rest =>
      refine WP.neg (c := slotUp (u :: rest) = 0) w2.up_nz ?_
      have w3 : W s2 (g.1, (plugU t' (u :: rest)).size + δ) rest u.lc (.node u.i u.l t' u.r) := W.down_iff.2 w2
      have h3 := Z.focus w3
      refine WP.bind (h3.value 0 rfl ?_)
      by_cases hv2 : u.i.value.isSome = true
      · exact WP.pos (c := _ = true) hv2 (WP.pure hstop)
      refine WP.neg (c := _ = true) hv2 ?_
      refine WP.bind (h3.down 0 rfl ?_)
      by_cases hd : t'.ptr = 0
      · refine WP.neg (c := (_ : Ptr) ≠ 0) (by simpa [Info.node] using hd) ?_
        have ht : t' = .nil := by
          cases t' with
          | nil => rfl
          | node j _ _ _ => exact absurd hd (Z.nz w2)
        subst ht
        have hv3 : u.i.value = none := by simpa using hv2
        simp only [List.length_cons] at hf
        refine (ih (rest := rest) (lc := u.lc) (i := u.i) (l := u.l) (r := u.r) w3 okw rfl hv3 (by omega) (show (plugU Tr.nil (u :: rest)).size ≤ B by omega)).mono fun _ s3 h4 => ?_
        obtain ⟨t3, k3, dead, m3, hk3, sh⟩ := h4
        refine ⟨t3, k3, dead + {i.entry (sufU (u :: rest))}, m3, hk3, sh.ok, ?_, ?_, ?_⟩
        · rw [hbag]
          have := sh.bag
          have e2 : plugU Tr.nil (u :: rest) = plugU (plug (.node u.i u.l .nil u.r) u.lc) rest := rfl
          rw [e2, this]; abel
        · intro e he
          rcases Multiset.mem_add.1 he with he | he
          · exact sh.none e he
          · rw [Multiset.mem_singleton.1 he]; exact hv
        · intro e he
          rcases Multiset.mem_add.1 he with he | he
          · exact (sh.above e he).trans (by simp only [sufU]; exact List.suffix_append _ _)
          · rw [Multiset.mem_singleton.1 he]; exact List.suffix_refl _
      · exact WP.pos (c := (_ : Ptr) ≠ 0) (by simpa [Info.node] using hd) (WP.pure hstop)

theorem takes_unbounded (B : Nat) : Takes B (get_upper_node (T := T)) unlink where
  upper h _ _ := get_upper_node_spec h
  unl h hok _ := by
    obtain ⟨n, hrb⟩ := hok.1.1
    exact unlink_spec h h.apart hrb hok.1.2

theorem removeLoop_eq (fuel : Nat) : ∀ p : Ptr, (removeLoop fuel p : St (Dom T) Unit) = removeLoopWith get_upper_node unlink fuel p := by
  induction fuel with
  | zero => intro p; rfl
  | succ fuel ih => intro p; simp only [removeLoop, removeLoopWith, ih]

theorem removeLoop_spec (fuel : Nat) {s : Dom T} {rest : List (UF T)} {lc : List (LF T)} {i : Info T} {l r : Tr T} {k δ : Nat}
    (h : W s (g.1, k) rest lc (.node i l .nil r)) (hok : OK (plugU (plug (.node i l .nil r) lc) rest)) (hk : k = (plugU (plug (.node i l .nil r) lc) rest).size + δ)
    (hv : i.value = none) (hf : rest.length < fuel) :
    WP (removeLoop fuel i.addr) s fun _ s' => ∃ t' k' dead, Mem s' (g.1, k') t' ∧ k' = t'.size + δ ∧
      Shrunk (plugU (plug (.node i l .nil r) lc) rest) t' (i.labels ++ sufU rest) dead := by
  rw [removeLoop_eq]
  exact removeLoopWith_spec (takes_unbounded _) fuel h hok hk hv hf (Nat.le_refl _)

/-- what `remove_node` does to the entries: the node loses its value, and nodes without a value may go -/
def Removed (t t' : Tr T) (e : Entry T) : Prop :=
  ∃ R dead, bag [] t = {e} + R ∧ {{ e with value := none }} + R = bag [] t' + dead ∧ (∀ x ∈ dead, x.value = none) ∧ (∀ x ∈ dead, x.name <:+ e.name)

theorem remove_node_spec (h : Inv m s t δ) (hw : W s g rest lc (.node i l d r)) (ht : t = plugU (plug (.node i l d r) lc) rest) :
    WP (Dom.remove_node i.addr) s fun old s' => old = i.value ∧ ∃ t', Inv m s' t' δ ∧ Removed t t' (i.entry (sufU rest)) := by
  unfold Dom.remove_node
  refine WP.bind ((W.set_value hw none).mono fun old s1 h1 => ?_)
  obtain ⟨rfl, w1⟩ := h1
  subst ht
  have hg : g = (s.next, s.len) := W.nextlen hw
  obtain ⟨R, hb1', hb2', hinv⟩ := swap (m := m) (δ := δ) _ h.ok h.names (by rw [hg]; exact h.len) w1 rfl rfl
  generalize hi' : ({ i with value := none } : Info T) = i' at w1 hb2' hinv
  have hlab : i'.labels = i.labels := by rw [← hi']
  have hadr : i'.addr = i.addr := by rw [← hi']
  have hent : i'.entry (sufU rest) = { i.entry (sufU rest) with value := none } := by rw [← hi']; rfl
  rw [hent] at hb2'
  refine WP.bind ?_
  rw [← hadr]
  refine Z.down w1 ?_
  by_cases hd : d.ptr = 0
  · refine WP.neg (c := (_ : Ptr) ≠ 0) (by simpa using hd) ?_
    have htd : d = .nil := by
      cases d with
      | nil => rfl
      | node j _ _ _ => exact absurd hd (Z.nz (W.down_iff.1 w1))
    subst htd
    refine WP.bind (WP.get ?_)
    have hdep := w1.depth_lt
    have hnx : g.1 ≤ s1.next := Nat.le_of_eq (congrArg Prod.fst (W.nextlen w1))
    have hsz : g.2 = (plugU (plug (.node i' l .nil r) lc) rest).size + δ := by
      rw [← hinv.len]; exact congrArg Prod.snd (W.nextlen w1)
    refine WP.bind ((removeLoop_spec (g := g) (s1.next + 1) (k := g.2) w1 hinv.ok hsz (by rw [← hi']) (by omega)).mono fun _ s2 h2 => ?_)
    obtain ⟨t', k', dead, m2, hk2, sh⟩ := h2
    refine WP.pure ⟨rfl, t', ⟨?_, sh.ok, ?_, ?_⟩, R, dead, hb1', ?_, sh.none, ?_⟩
    · have := W.nextlen m2; rw [← this]; exact m2
    · intro e he; exact hinv.names e (by rw [sh.bag]; simp [he])
    · have := W.nextlen m2; rw [show s2.len = k' from (congrArg Prod.snd this).symm, hk2]
    · rw [← hb2', sh.bag]
    · intro e he; have := sh.above e he; rw [hlab] at this; exact this
  · refine WP.pos (c := (_ : Ptr) ≠ 0) (by simpa using hd) ?_
    exact WP.pure ⟨rfl, _, hinv, R, 0, hb1', by rw [← hb2']; simp, by simp, by simp⟩

theorem Inv.place (h : Inv m s t δ) {e : Entry T} (he : e ∈ t.nodes []) :
    ∃ rest lc i l d r, W s (s.next, s.len) rest lc (.node i l d r) ∧ t = plugU (plug (.node i l d r) lc) rest ∧ i.entry (sufU rest) = e := by
  obtain ⟨rest, lc, i, l, d, r, e1, e2⟩ := place_of_mem t [] [] he
  refine ⟨rest, lc, i, l, d, r, W.top.2 ?_, e1.symm, e2⟩
  rw [e1]; exact h.mem

theorem Inv.remove_node (h : Inv m s t δ) {e : Entry T} (he : e ∈ t.nodes []) :
    WP (Dom.remove_node e.addr) s fun old s' => old = e.value ∧ ∃ t', Inv m s' t' δ ∧ Removed t t' e := by
  obtain ⟨rest, lc, i, l, d, r, hw, ht, rfl⟩ := h.place he
  exact remove_node_spec h hw ht

theorem Inv.set_callback (h : Inv m s t δ) {e : Entry T} (he : e ∈ t.nodes []) (b : Bool) :
    WP (Dom.set_callback e.addr b) s fun _ s' => ∃ t' R, Inv m s' t' δ ∧ bag [] t = {e} + R ∧ bag [] t' = {{ e with cb := b }} + R := by
  obtain ⟨rest, lc, i, l, d, r, hw, ht, rfl⟩ := h.place he
  refine (hw.set_callback b).mono fun _ s' w' => ?_
  subst ht
  obtain ⟨R, h1, h2, h3⟩ := swap (m := m) (δ := δ) _ h.ok h.names h.len w' rfl rfl
  exact ⟨_, R, h3, h1, h2⟩

theorem Inv.set_wildcard (h : Inv m s t δ) {e : Entry T} (he : e ∈ t.nodes []) (b : Bool) :
    WP (Dom.set_wildcard e.addr b) s fun _ s' => ∃ t' R, Inv m s' t' δ ∧ bag [] t = {e} + R ∧ bag [] t' = {{ e with wc := b }} + R := by
  obtain ⟨rest, lc, i, l, d, r, hw, ht, rfl⟩ := h.place he
  refine (hw.set_wildcard b).mono fun _ s' w' => ?_
  subst ht
  obtain ⟨R, h1, h2, h3⟩ := swap (m := m) (δ := δ) _ h.ok h.names h.len w' rfl rfl
  exact ⟨_, R, h3, h1, h2⟩

theorem Inv.get (h : Inv m s t δ) {e : Entry T} (he : e ∈ t.nodes []) : ∃ n, s.look e.addr = .ok n ∧ n.value = e.value := by
  obtain ⟨rest, lc, i, l, d, r, hw, ht, rfl⟩ := h.place he
  exact ⟨_, hw.lookup, rfl⟩

theorem Inv.addr_ne (h : Inv m s t δ) {e : Entry T} (he : e ∈ t.nodes []) : e.addr ≠ 0 := by
  obtain ⟨rest, lc, i, l, d, r, hw, ht, rfl⟩ := h.place he
  exact Z.nz hw

theorem Inv.new : Inv m (Dom.new : Dom T) .nil 0 :=
  ⟨Dom.Inv.new.mem, OK_nil, fun e he => by simp at he, rfl⟩

theorem clear_spec (h : Inv m s t δ) : WP Dom.clear s fun _ s' => Inv m s' .nil s.len := by
  unfold Dom.clear
  refine WP.bind (WP.get ?_)
  refine WP.bind ⟨(), { s with root := 0 }, rfl, ?_⟩
  have h0 : Hold s t.ptr (s.next, s.len) (cells 0 true t + 0) :=
    Eq.mp (congrArg (Hold s t.ptr _) (by simp [slotOf, Slot.cells, cellsU, cellsL, lptr, Slot.up])) (Z.hold h.mem)
  have h1 : Hold { s with root := 0 } 0 (s.next, s.len) (cells 0 true t + 0) := ⟨rfl, h0.next, h0.len, h0.nodup, h0.cell, h0.bound, h0.pos⟩
  have hroot : s.root = t.ptr := h0.root
  have hsz : t.size < s.next := W.size_lt h.mem
  simp only [hroot]
  refine (clear_recurse_spec (s.next + 1) h1 (Nat.lt_succ_of_lt hsz)).mono fun _ s' h2 => ?_
  obtain ⟨h2, f2⟩ := h2
  have hl : s'.len = s.len := h2.len
  have hn : s'.next = s.next := h2.next
  refine ⟨?_, OK_nil, fun e he => by simp at he, by rw [hl]; simp [Tr.size]⟩
  rw [hl, hn]
  show Hold _ _ _ _
  refine Eq.mp (congrArg (Hold s' 0 _) ?_) h2
  simp [cells, slotOf, Slot.cells, cellsU, cellsL]

theorem Inv.represents (h : Inv m s t δ) : Represents s t := by
  have h0 : Hold s t.ptr (s.next, s.len) (cells 0 true t) :=
    Eq.mp (congrArg (Hold s t.ptr _) (by simp [slotOf, Slot.cells, cellsU, cellsL, lptr, Slot.up])) (Z.hold h.mem)
  refine ⟨h0.root, Hold.layout (M := 0) fun c hc => ⟨(h0.bound c hc).1, h0.cell c hc⟩, ?_⟩
  have := h0.nodup
  rw [cells_addrs []] at this
  exact Multiset.coe_nodup.1 this

/-! ## search -/

/-- what a search answers -/
inductive Found (t : Tr T) (tgt : List Label) : FindResult → Prop where
  | exact (e : Entry T) (mem : e ∈ t.nodes []) (same : SameName tgt e.name) : Found t tgt ⟨e.addr, .ExactMatch⟩
  | above (e : Entry T) (mem : e ∈ t.nodes []) (sub : IsSubdomain tgt e.name) : Found t tgt ⟨e.addr, .PartialMatch⟩
  | none : Found t tgt ⟨0, .NotFound⟩

theorem rest_ne (h : OK (plugU t rest)) : ∀ u ∈ rest, u.i.labels ≠ [] := by
  induction rest generalizing t with
  | nil => simp
  | cons u rest ih =>
    intro v hv
    rcases List.mem_cons.1 hv with rfl | hv
    · exact (OK_node (OK_plugU (rest := rest) h).1).1
    · exact ih h v hv

theorem At.depth {tgt as : List Label} (h : At tgt as rest lc t) : rest.length < tgt.length := by
  have h1 := rest_le (rest_ne h.ok)
  have h2 := lowerName_ne h.name
  have h3 : 0 < as.length := List.length_pos_iff.2 h.ne
  simp only [List.length_append] at h2; omega

theorem At.res {tgt as : List Label} (h : At tgt as rest lc t) : Found (plugU (plug t lc) rest) tgt (resOf rest) := by
  cases rest with
  | nil => exact .none
  | cons u rest =>
    refine .above (u.i.entry (sufU rest)) ?_ ?_
    · rw [mem_nodes, bag_plugU, bagU]; simp
    · rw [sub_congr h.name rfl]; exact sub_append _ _

/-- the chain a search leaves: nodes above the name, from the top down; the last one is the answer -/
structure Way (t : Tr T) (tgt : List Label) (res : FindResult) (L : List (Entry T)) : Prop where
  mem : ∀ e ∈ L, e ∈ t.nodes [] ∧ IsSubdomain tgt e.name
  sorted : L.Pairwise fun a b => a.name.length < b.name.length
  last : res.node = ((addrs L).getLast?).getD 0
  none : res.flag = .NotFound ↔ L = []

theorem At.way {tgt as : List Label} (h : At tgt as rest lc t) : Way (plugU (plug t lc) rest) tgt (resOf rest) (path rest) := by
  refine ⟨fun e he => ⟨bagU_whole rfl (path_mem he), ?_⟩, path_sorted (rest_ne h.ok), ?_, ?_⟩
  · rw [sub_congr h.name rfl]; exact sub_trans (sub_append _ _) (sub_of_suffix (path_sub he))
  · cases rest with
    | nil => rfl
    | cons u rest => simp [path, addrs, resOf, Info.entry]
  · cases rest with
    | nil => simp [path, resOf]
    | cons u rest => simp [path, resOf]

theorem findLoop_spec {tgt : List Label} (htgt : tgt.length ≤ 128) (fuel : Nat) :
    ∀ {rest : List (UF T)} {lc : List (LF T)} {t : Tr T} {as post : List Label} {slice : LabelSlice} {c : Chain},
    W s g rest lc t → At tgt as rest lc t → NamesOK m (plugU (plug t lc) rest) → LabsOK m as →
    LabelSlice.View slice [] as post → c.nodes = addrs (path rest) → t.size + 1 ≤ fuel →
    ∃ res c', findLoop m s (none : Option (Ptr → Name → Unit → Bool × Unit)) fuel t.ptr slice (resOf rest) c () = .ok (res, c', ()) ∧ Found (plugU (plug t lc) rest) tgt res ∧
      ∃ L, c'.nodes = addrs L ∧ Way (plugU (plug t lc) rest) tgt res L := by
  induction fuel with
  | zero => intro _ _ _ _ _ _ _ _ _ _ _ _ _ hf; omega
  | succ fuel ih =>
    intro rest lc t as post slice c h ha hn has hv hc hf
    cases t with
    | nil => exact ⟨_, _, by unfold findLoop; rw [if_pos (show (Tr.nil : Tr T).ptr = 0 from rfl)], ha.res, _, hc, ha.way⟩
    | node i l d r =>
      have hi := (OK_node ha.level).1
      simp only [Tr.size] at hf
      obtain ⟨cur, cm, n, e1, e2, e3, e4, hs⟩ := round (m := m) h hi (node_labs hn) has hv
      have e5 : s.look i.addr = .ok n := by unfold look; rw [e1]
      have hcb : ∀ c : Chain, s.callback (none : Option (Ptr → Name → Unit → Bool × Unit)) c i.addr n () = .ok (false, ()) := by
        intro c; unfold callback; split <;> rfl
      have hstep : findLoop m s (none : Option (Ptr → Name → Unit → Bool × Unit)) (fuel + 1) i.addr slice (resOf rest) c () =
          (match cm.relation with
          | .Equal => do
            let c' ← ({ c with last_compared := i.addr, last_compared_result := cm } : Chain).push i.addr
            pure (⟨i.addr, .ExactMatch⟩, c', ())
          | .None => findLoop m s none fuel (if cm.order < 0 then n.left else n.right) slice (resOf rest) { c with last_compared := i.addr, last_compared_result := cm } ()
          | .SubDomain => do
              let c' ← ({ c with last_compared := i.addr, last_compared_result := cm } : Chain).push i.addr
              let slice ← slice.strip_right cm.common_label_count
              findLoop m s none fuel n.down slice ⟨i.addr, .PartialMatch⟩ c' ()
          | _ => pure (resOf rest, { c with last_compared := i.addr, last_compared_result := cm }, ())) := by
        conv_lhs => unfold findLoop
        rw [if_neg (Z.nz h), e5, Res.bind_ok, e3, Res.bind_ok, e4, Res.bind_ok]
        cases cm.relation <;> simp [hcb]
      show ∃ res c', findLoop m s (none : Option (Ptr → Name → Unit → Bool × Unit)) (fuel + 1) i.addr slice (resOf rest) c () = _ ∧ _
      rw [hstep]
      clear hstep
      have hdep := ha.depth
      have hpush : ({ c with last_compared := i.addr, last_compared_result := cm } : Chain).push i.addr =
          .ok { c with last_compared := i.addr, last_compared_result := cm, nodes := c.nodes ++ [i.addr] } := by
        unfold Chain.push
        have : c.nodes.length < 128 := by rw [hc]; simp only [addrs, List.length_map, path_length]; omega
        rw [assertR, if_pos (by simpa using this)]; rfl
      generalize hcc : ({ c with last_compared := i.addr, last_compared_result := cm } : Chain) = c1 at *
      have hc1 : c1.nodes = addrs (path rest) := by rw [← hcc]; exact hc
      subst e2
      cases hs with
      | equal hr e =>
        rw [hr]
        simp only [hpush, Res.bind_ok]
        have hsame : SameName tgt (i.entry (sufU rest)).name := by
          show lowerName tgt = lowerName (i.labels ++ sufU rest)
          rw [ha.name, Name.lowerName_append, Name.lowerName_append, e]
        refine ⟨_, _, rfl, .exact (i.entry (sufU rest)) (by rw [mem_nodes]; exact entry_mem) hsame, path rest ++ [i.entry (sufU rest)], ?_, ?_, ?_, ?_, ?_⟩
        · show c.nodes ++ [i.addr] = _
          rw [hc]; simp [addrs, Info.entry]
        · intro x hx
          rcases List.mem_append.1 hx with hx | hx
          · exact ha.way.mem x hx
          · rw [List.mem_singleton] at hx; subst hx
            refine ⟨by rw [mem_nodes]; exact entry_mem, ?_⟩
            have e2 : lowerName tgt = lowerName (i.entry (sufU rest)).name := hsame
            unfold IsSubdomain; rw [e2]; exact List.suffix_refl _
        · rw [List.pairwise_append]
          refine ⟨ha.way.sorted, by simp, fun a hm b hb => ?_⟩
          rw [List.mem_singleton] at hb; subst hb
          have h1 := (path_sub hm).length_le
          have h2 : 0 < i.labels.length := List.length_pos_iff.2 hi
          simp only [Info.entry, List.length_append]; omega
        · simp [addrs, Info.entry]
        · simp
      | none hr hcm =>
        rw [hr]
        by_cases ho : cm.order < 0
        · simp only [ho, if_true]
          exact ih (rest := rest) (lc := .L i d r :: lc) (t := l) (Z.left_down.1 h) ⟨ha.ok, ha.name, ha.ne⟩ hn has hv hc1 (by omega)
        · simp only [ho, if_false]
          exact ih (rest := rest) (lc := .R i l d :: lc) (t := r) (Z.right_down.1 h) ⟨ha.ok, ha.name, ha.ne⟩ hn has hv hc1 (by omega)
      | sub a1 a2 hr hcm e h1 h2 =>
        rw [hr]
        subst e
        have w2 : W s g (⟨i, l, r, lc⟩ :: rest) [] d := W.down_iff.1 h
        have at2 := ha.down rfl h1 h2
        obtain ⟨s', e', v'⟩ := hv.strip_right h1
        have hlen := lowerName_ne h2
        rw [← hlen] at hcm
        simp only [hpush, Res.bind_ok, hcm, e']
        have hc2 : ({ c with last_compared := i.addr, last_compared_result := cm, nodes := c.nodes ++ [i.addr] } : Chain).nodes = addrs (path (⟨i, l, r, lc⟩ :: rest)) := by
          simp [path, addrs, hc, Info.entry]
        exact ih (rest := ⟨i, l, r, lc⟩ :: rest) (lc := []) (t := d) w2 at2 hn has.left v' hc2 (by omega)
      | split a1 a2 b1 b2 hr e e' h1 h2 hcm h3 h4 =>
        rcases hr with ⟨hr, -⟩ | ⟨hr, -⟩
        · rw [hr]; exact ⟨_, _, rfl, ha.res, _, hc1, ha.way⟩
        · rw [hr]; exact ⟨_, _, rfl, ha.res, _, hc1, ha.way⟩

theorem find_way (h : Inv m s t δ) {ls : List Label} (hv : ValidName ls) (ha : Calm m ls) : ∃ r c L, s.find_node_ext m (Name.ofLabels ls) .new (none : Option (Ptr → Name → Unit → Bool × Unit)) () = .ok (r, c, ()) ∧
    Found t (ls ++ [[]]) r ∧ c.nodes = addrs L ∧ Way t (ls ++ [[]]) r L := by
  have habs : AnyName m (ls ++ [[]]) := ⟨ls, hv, ha, rfl⟩
  have hroot : s.root = t.ptr := Hold.root (Z.hold h.mem)
  have hsz := W.size_lt h.mem
  simp only at hsz
  have hlen : (ls ++ [[]] : List Label).length ≤ 128 := (habs.labs (List.Sublist.refl _)).len
  obtain ⟨res, c', e, hf, L, hL⟩ := findLoop_spec (m := m) (s := s) (tgt := ls ++ [[]]) hlen (s.next + 1) (rest := []) (lc := []) (t := t) (c := .new) h.mem
    ⟨h.ok, by simp [sufU], by simp⟩ h.names (habs.labs (List.Sublist.refl _)) (LabelSlice.view_of_name hv) rfl (by omega)
  refine ⟨res, c', L, ?_, hf, hL⟩
  unfold find_node_ext
  rw [LabelSlice.from_name_ofLabels ls]
  simp only [Res.bind_ok, hroot]
  have e' : findLoop m s (none : Option (Ptr → Name → Unit → Bool × Unit)) (s.next + 1) t.ptr ⟨(Name.ofLabels ls).raw, (Name.ofLabels ls).offsets, 0, ls.length⟩ ⟨0, .NotFound⟩ .new () = .ok (res, c', ()) := e
  rw [e']

theorem find_found (h : Inv m s t δ) {ls : List Label} (hv : ValidName ls) (ha : Calm m ls) : ∃ r, s.find m (Name.ofLabels ls) = .ok r ∧ Found t (ls ++ [[]]) r := by
  obtain ⟨r, c, L, e, hf, -⟩ := find_way h hv ha
  refine ⟨r, ?_, hf⟩
  unfold find find_node
  rw [e]; rfl

end
end Free
end Dom
end R53
