import Verif.Proofs.TreeCtx
import Verif.Proofs.TreeName
/-!
# What a tree means: entries, order, and places seen from a name
-/
namespace R53
namespace Dom
variable {T : Type}

/-- every level below is a level, and every node has labels -/
def _root_.R53.Tr.SGood : Tr T → Prop
  | .nil => True
  | .node i l d r => i.labels ≠ [] ∧ l.SGood ∧ r.SGood ∧ d.SLevel ∧ d.SGood

def OK (t : Tr T) : Prop := t.SLevel ∧ t.SGood

theorem Tr.SGood_iff (t : Tr T) : t.SGood ↔ ∀ e ∈ t.ents, e.1.labels ≠ [] ∧ OK e.2 := by
  induction t with
  | nil => simp [Tr.SGood, Tr.ents]
  | node i l d r ihl _ ihr =>
    simp only [Tr.SGood, Tr.ents, List.mem_append, List.mem_cons, ihl, ihr, OK]
    constructor
    · rintro ⟨h1, h2, h3, h4, h5⟩ e (he | rfl | he)
      · exact h2 e he
      · exact ⟨h1, h4, h5⟩
      · exact h3 e he
    · intro h
      have := h _ (.inr (.inl rfl))
      exact ⟨this.1, fun e he => h e (.inl he), fun e he => h e (.inr (.inr he)), this.2.1, this.2.2⟩

/-! ## entries -/

def bag (suf : List Label) (t : Tr T) : Multiset (Entry T) := (t.nodes suf : Multiset (Entry T))

@[simp] theorem bag_nil (suf : List Label) : bag suf (.nil : Tr T) = 0 := rfl
theorem bag_node (suf : List Label) (i : Info T) (l d r : Tr T) :
    bag suf (.node i l d r) = {i.entry suf} + bag (i.labels ++ suf) d + bag suf l + bag suf r := by
  unfold bag
  rw [Tr.nodes, ← Multiset.coe_add, List.append_cons, ← Multiset.coe_add, ← Multiset.coe_add, Multiset.coe_singleton]
  abel

def bagE (suf : List Label) (es : List (Info T × Tr T)) : Multiset (Entry T) :=
  (es.map fun e => {e.1.entry suf} + bag (e.1.labels ++ suf) e.2).sum

@[simp] theorem bagE_nil (suf : List Label) : bagE suf ([] : List (Info T × Tr T)) = 0 := rfl
@[simp] theorem bagE_cons (suf : List Label) (e : Info T × Tr T) (es : List (Info T × Tr T)) :
    bagE suf (e :: es) = {e.1.entry suf} + bag (e.1.labels ++ suf) e.2 + bagE suf es := by simp [bagE]
@[simp] theorem bagE_append (suf : List Label) (es es' : List (Info T × Tr T)) : bagE suf (es ++ es') = bagE suf es + bagE suf es' := by
  simp [bagE]

theorem bag_ents (suf : List Label) (t : Tr T) : bag suf t = bagE suf t.ents := by
  induction t with
  | nil => rfl
  | node i l d r ihl _ ihr =>
    rw [bag_node, Tr.ents, bagE_append, bagE_cons, ihl, ihr]
    simp only [Info.entry]
    abel

def sufU : List (UF T) → List Label
  | [] => []
  | u :: rest => u.i.labels ++ sufU rest

/-- the entries around a place, above its level -/
def bagU : List (UF T) → Multiset (Entry T)
  | [] => 0
  | u :: rest => {u.i.entry (sufU rest)} + bagE (sufU rest) (u.l.ents ++ u.r.ents ++ (entsL u.lc ++ entsR u.lc)) + bagU rest

theorem bag_plug (suf : List Label) (t : Tr T) (lc : List (LF T)) : bag suf (plug t lc) = bag suf t + bagE suf (entsL lc ++ entsR lc) := by
  rw [bag_ents, plug_ents, bag_ents, bagE_append, bagE_append, bagE_append]; abel

theorem bag_plugU (t : Tr T) (rest : List (UF T)) : bag [] (plugU t rest) = bag (sufU rest) t + bagU rest := by
  induction rest generalizing t with
  | nil => simp [plugU, sufU, bagU]
  | cons u rest ih =>
    rw [plugU, ih, bag_plug, bag_node, sufU, bagU]
    simp only [bagE_append, ← bag_ents]
    abel

theorem bag_whole (t : Tr T) (lc : List (LF T)) (rest : List (UF T)) :
    bag [] (plugU (plug t lc) rest) = bag (sufU rest) t + bagE (sufU rest) (entsL lc ++ entsR lc) + bagU rest := by
  rw [bag_plugU, bag_plug]

theorem size_bag (suf : List Label) (t : Tr T) : t.size = (bag suf t).card := by
  induction t generalizing suf with
  | nil => rfl
  | node i l d r ihl ihd ihr => rw [bag_node, Tr.size, ihl suf, ihd (i.labels ++ suf), ihr suf]; simp; omega

/-! ## levels -/

def keys (es : List (Info T × Tr T)) : List Label := es.map fun e => lastL e.1.labels
def Sorted (ks : List Label) : Prop := ks.Pairwise fun a b => cmpSigned a b = .lt

theorem OK_of_ents {t t' : Tr T} (h : OK t) (he : t'.ents = t.ents) {n : Nat} (hr : t'.RB n) (hb : t'.isRed = false) : OK t' :=
  ⟨⟨⟨n, hr⟩, hb, by rw [he]; exact h.1.2.2⟩, by rw [Tr.SGood_iff, he, ← Tr.SGood_iff]; exact h.2⟩

/-- the node at a place may be exchanged for one of the same colour that sorts the same -/
theorem OK_swap {i i' : Info T} {l d d' r : Tr T} {lc : List (LF T)} (h : OK (plug (.node i l d r) lc)) (hr : i'.red = i.red)
    (hk : lowerLabel (lastL i'.labels) = lowerLabel (lastL i.labels)) (hn : i'.labels ≠ []) (hd : OK d') : OK (plug (.node i' l d' r) lc) := by
  obtain ⟨⟨⟨n, h1⟩, h2, h3⟩, h4⟩ := h
  obtain ⟨k, h5, h6, h7⟩ := plug_RB_inv h1 h2
  have h8 : (Tr.node i' l d' r).RB k := by
    simp only [Tr.RB, hr] at h5 ⊢; exact h5
  obtain ⟨n', h9, h10⟩ := plug_RB h8 h6 (fun e f c e2 => by
      obtain ⟨f', c', e3, h⟩ := h7 (by show i.red = true; rw [← hr]; exact e)
      rw [e2] at e3; cases e3; exact h) (by
      cases lc with
      | nil => right; show i'.red = false; rw [hr]; exact h2
      | cons => left; simp)
  refine ⟨⟨⟨n', h9⟩, h10, ?_⟩, ?_⟩
  · rw [plug_ents] at h3 ⊢
    simp only [Tr.ents, List.map_append, List.map_cons] at h3 ⊢
    generalize (entsL lc).map _ = A at h3 ⊢
    generalize (entsR lc).map _ = B at h3 ⊢
    generalize l.ents.map _ = C at h3 ⊢
    generalize r.ents.map _ = D at h3 ⊢
    simp only [List.pairwise_append, List.pairwise_cons, List.mem_append, List.mem_cons] at h3 ⊢
    obtain ⟨⟨h31, ⟨h32, ⟨h33, h34⟩, h35⟩, h36⟩, h37, h38⟩ := h3
    refine ⟨⟨h31, ⟨h32, ⟨fun a ha => ?_, h34⟩, fun a ha b hb => ?_⟩, fun a ha b hb => ?_⟩, h37, fun a ha b hb => ?_⟩
    · rw [cmpSigned_eq_left _ _ _ hk]; exact h33 a ha
    · rcases hb with rfl | hb
      · rw [cmpSigned_eq_right _ _ _ hk]; exact h35 a ha _ (.inl rfl)
      · exact h35 a ha b (.inr hb)
    · rcases hb with hb | rfl | hb
      · exact h36 a ha b (.inl hb)
      · rw [cmpSigned_eq_right _ _ _ hk]; exact h36 a ha _ (.inr (.inl rfl))
      · exact h36 a ha b (.inr (.inr hb))
    · rcases ha with ha | ha | rfl | ha
      · exact h38 a (.inl ha) b hb
      · exact h38 a (.inr (.inl ha)) b hb
      · rw [cmpSigned_eq_left _ _ _ hk]; exact h38 _ (.inr (.inr (.inl rfl))) b hb
      · exact h38 a (.inr (.inr (.inr ha))) b hb
  · rw [Tr.SGood_iff, plug_ents] at h4 ⊢
    intro e he
    simp only [Tr.ents, List.mem_append, List.mem_cons] at he h4
    rcases he with (he | he | rfl | he) | he
    · exact h4 e (.inl (.inl he))
    · exact h4 e (.inl (.inr (.inl he)))
    · exact ⟨hn, hd⟩
    · exact h4 e (.inl (.inr (.inr (.inr he))))
    · exact h4 e (.inr he)

theorem OK_node {i : Info T} {l d r : Tr T} {lc : List (LF T)} (h : OK (plug (.node i l d r) lc)) : i.labels ≠ [] ∧ OK d := by
  have h4 := h.2
  rw [Tr.SGood_iff, plug_ents] at h4
  exact h4 ({ i with red := false }, d) (by simp [Tr.ents])

theorem OK_plugU {t : Tr T} {rest : List (UF T)} (h : OK (plugU t rest)) : OK t ∧ ∀ t', OK t' → OK (plugU t' rest) := by
  induction rest generalizing t with
  | nil => exact ⟨h, fun _ h => h⟩
  | cons u rest ih =>
    obtain ⟨h1, h2⟩ := ih h
    have h3 := OK_node h1
    exact ⟨h3.2, fun t' ht => h2 _ (OK_swap h1 rfl rfl h3.1 ht)⟩

/-! ## seen from a label -/

/-- the label `k` belongs at this place of the level -/
def Pos (k : Label) : List (LF T) → Prop
  | [] => True
  | .L i _ _ :: c => cmpSigned k (lastL i.labels) = .lt ∧ Pos k c
  | .R i _ _ :: c => cmpSigned k (lastL i.labels) = .gt ∧ Pos k c

theorem pos_sides {k : Label} {lc : List (LF T)} (hp : Pos k lc) {mid : List (Info T × Tr T)} (hs : Sorted (keys (entsL lc ++ mid ++ entsR lc))) :
    (∀ a ∈ keys (entsL lc), cmpSigned a k = .lt) ∧ (∀ a ∈ keys (entsR lc), cmpSigned k a = .lt) := by
  induction lc generalizing mid with
  | nil => simp [entsL, entsR, keys]
  | cons f c ih =>
    cases f with
    | L i d r =>
      obtain ⟨h1, h2⟩ := hp
      obtain ⟨h3, h4⟩ := ih h2 (mid := mid ++ ({ i with red := false }, d) :: r.ents) (by simpa [entsL, entsR] using hs)
      refine ⟨h3, ?_⟩
      intro a ha
      simp only [entsR, keys, List.map_cons, List.map_append, List.mem_cons, List.mem_append, List.cons_append] at ha
      rcases ha with rfl | ha | ha
      · exact h1
      · refine cmpSigned_lt_trans _ _ _ h1 ?_
        simp only [Sorted, keys, entsL, entsR, List.map_append, List.map_cons, List.pairwise_append, List.pairwise_cons, List.mem_append, List.cons_append] at hs
        exact hs.2.1.1 a (.inl ha)
      · exact h4 a ha
    | R i l d =>
      obtain ⟨h1, h2⟩ := hp
      obtain ⟨h3, h4⟩ := ih h2 (mid := l.ents ++ ({ i with red := false }, d) :: mid) (by simpa [entsL, entsR] using hs)
      have h1' : cmpSigned (lastL i.labels) k = .lt := by rw [cmpSigned_swap, h1]; rfl
      refine ⟨?_, h4⟩
      intro a ha
      simp only [entsL, keys, List.map_cons, List.map_append, List.mem_cons, List.mem_append, List.map_nil, List.not_mem_nil, or_false] at ha
      rcases ha with (ha | ha) | rfl
      · exact h3 a ha
      · refine cmpSigned_lt_trans _ _ _ ?_ h1'
        simp only [Sorted, keys, entsL, entsR, List.map_append, List.map_cons, List.pairwise_append, List.pairwise_cons, List.mem_append, List.mem_singleton, List.map_nil] at hs
        exact hs.1.1.2.2 a (.inr ha) _ rfl
      · exact h1'

/-! ## entries that do not enclose a name -/

theorem sub_cancel {a b s s' : List Label} (hs : lowerName s = lowerName s') : IsSubdomain (a ++ s) (b ++ s') ↔ IsSubdomain a b := by
  unfold IsSubdomain
  rw [Name.lowerName_append, Name.lowerName_append, hs]
  constructor
  · rintro ⟨x, e⟩
    rw [← List.append_assoc] at e
    exact ⟨x, List.append_cancel_right e⟩
  · rintro ⟨x, e⟩
    exact ⟨x, by rw [← List.append_assoc, e]⟩

theorem sub_trans {a b c : List Label} (h1 : IsSubdomain a b) (h2 : IsSubdomain b c) : IsSubdomain a c := List.IsSuffix.trans h2 h1
theorem sub_append (x a : List Label) : IsSubdomain (x ++ a) a := by
  unfold IsSubdomain; rw [Name.lowerName_append]; exact List.suffix_append _ _
theorem sub_congr {a a' b b' : List Label} (ha : lowerName a = lowerName a') (hb : lowerName b = lowerName b') : IsSubdomain a b ↔ IsSubdomain a' b' := by
  unfold IsSubdomain; rw [ha, hb]
theorem sub_length {a b : List Label} (h : IsSubdomain a b) : b.length ≤ a.length := by
  have := h.length_le
  rwa [Name.lowerName_length, Name.lowerName_length] at this

theorem sub_last {a b : List Label} (h : IsSubdomain a b) (hb : b ≠ []) : lowerLabel (lastL a) = lowerLabel (lastL b) := by
  obtain ⟨x, e⟩ := h
  have h1 : ∃ a1 a2, a = a1 ++ a2 ∧ lowerName a2 = lowerName b := by
    refine ⟨a.take x.length, a.drop x.length, by simp, ?_⟩
    have : lowerName (a.drop x.length) = (lowerName a).drop x.length := by simp [lowerName]
    rw [this, ← e]; simp
  obtain ⟨a1, a2, rfl, h2⟩ := h1
  have ha2 : a2 ≠ [] := by
    intro e2; subst e2
    have := lowerName_ne h2
    exact hb (List.length_eq_zero_iff.1 (by simpa using this.symm))
  rw [lastL_append ha2, lastL_lower h2]

theorem mem_bag {suf : List Label} {t : Tr T} {e : Entry T} (h : e ∈ bag suf t) : ∃ x, e.name = x ++ suf := by
  induction t generalizing suf with
  | nil => simp at h
  | node i l d r ihl ihd ihr =>
    rw [bag_node] at h
    simp only [Multiset.mem_add, Multiset.mem_singleton] at h
    rcases h with ((rfl | h) | h) | h
    · exact ⟨i.labels, rfl⟩
    · obtain ⟨x, e⟩ := ihd h; exact ⟨x ++ i.labels, by rw [e]; simp⟩
    · exact ihl h
    · exact ihr h

theorem mem_bagE {suf : List Label} {es : List (Info T × Tr T)} {e : Entry T} (h : e ∈ bagE suf es) :
    ∃ e1 ∈ es, ∃ x, e.name = x ++ (e1.1.labels ++ suf) := by
  induction es with
  | nil => simp at h
  | cons e1 es ih =>
    simp only [bagE_cons, Multiset.mem_add, Multiset.mem_singleton] at h
    rcases h with (rfl | h) | h
    · exact ⟨e1, by simp, [], rfl⟩
    · obtain ⟨x, e⟩ := mem_bag h; exact ⟨e1, by simp, x, e⟩
    · obtain ⟨e2, he2, x, e⟩ := ih h; exact ⟨e2, by simp [he2], x, e⟩

/-- no entry under nodes with another last label encloses the name -/
theorem far {suf as tgt : List Label} {es : List (Info T × Tr T)} (hn : lowerName tgt = lowerName (as ++ suf))
    (hl : ∀ e ∈ es, e.1.labels ≠ [] ∧ lowerLabel (lastL e.1.labels) ≠ lowerLabel (lastL as)) {e : Entry T} (he : e ∈ bagE suf es) :
    ¬ IsSubdomain tgt e.name := by
  intro hs
  obtain ⟨e1, he1, x, ex⟩ := mem_bagE he
  obtain ⟨h1, h2⟩ := hl e1 he1
  rw [ex, sub_congr hn rfl, ← List.append_assoc, sub_cancel rfl] at hs
  have h3 := sub_last hs (by simp [h1])
  rw [lastL_append h1] at h3
  exact h2 h3.symm

theorem cmp_ne {a b : Label} (h : cmpSigned a b = .lt ∨ cmpSigned a b = .gt) : lowerLabel a ≠ lowerLabel b := by
  intro e
  rw [(cmpSigned_eq_iff a b).2 e] at h
  simp at h

/-! ## the search for a name -/

/-- the nodes above a level, the topmost first -/
def path : List (UF T) → List (Entry T)
  | [] => []
  | u :: rest => path rest ++ [u.i.entry (sufU rest)]

theorem path_sub {rest : List (UF T)} {e : Entry T} (h : e ∈ path rest) : e.name <:+ sufU rest := by
  induction rest with
  | nil => simp [path] at h
  | cons u rest ih =>
    simp only [path, List.mem_append, List.mem_singleton] at h
    rcases h with h | rfl
    · exact (ih h).trans (List.suffix_append _ _)
    · exact List.suffix_refl _

theorem sub_of_suffix {a b : List Label} (h : b <:+ a) : IsSubdomain a b := by
  obtain ⟨x, rfl⟩ := h
  exact sub_append _ _

/-- the search for `tgt` has come to the place `rest`, `lc` with the subtree `t`; the labels `as` are left -/
structure At (tgt as : List Label) (rest : List (UF T)) (lc : List (LF T)) (t : Tr T) : Prop where
  ok : OK (plugU (plug t lc) rest)
  name : lowerName tgt = lowerName (as ++ sufU rest)
  ne : as ≠ []
  pos : Pos (lastL as) lc
  above : ∀ e ∈ bagU rest, IsSubdomain tgt e.name → e ∈ path rest

section
variable {tgt as : List Label} {rest : List (UF T)} {lc : List (LF T)} {t : Tr T} {i : Info T} {l d r : Tr T}

theorem At.level (h : At tgt as rest lc t) : OK (plug t lc) := (OK_plugU h.ok).1

theorem At.around (h : At tgt as rest lc t) : ∀ e ∈ bagE (sufU rest) (entsL lc ++ entsR lc), ¬ IsSubdomain tgt e.name := by
  intro e he
  refine far h.name (fun e1 he1 => ?_) he
  have h1 := h.level
  have h2 := h1.2
  rw [Tr.SGood_iff, plug_ents] at h2
  have h3 := h1.1.2.2
  rw [plug_ents] at h3
  have h4 := pos_sides h.pos h3
  rcases List.mem_append.1 he1 with h5 | h5
  · refine ⟨(h2 e1 (by simp [h5])).1, cmp_ne (.inl (h4.1 _ (List.mem_map_of_mem h5)))⟩
  · refine ⟨(h2 e1 (by simp [h5])).1, (cmp_ne (.inl (h4.2 _ (List.mem_map_of_mem h5)))).symm⟩

theorem At.left (h : At tgt as rest lc (.node i l d r)) (hc : cmpSigned (lastL as) (lastL i.labels) = .lt) : At tgt as rest (.L i d r :: lc) l :=
  ⟨h.ok, h.name, h.ne, ⟨hc, h.pos⟩, h.above⟩
theorem At.right (h : At tgt as rest lc (.node i l d r)) (hc : cmpSigned (lastL as) (lastL i.labels) = .gt) : At tgt as rest (.R i l d :: lc) r :=
  ⟨h.ok, h.name, h.ne, ⟨hc, h.pos⟩, h.above⟩

/-- the neighbours of a node sort differently from it -/
theorem At.beside (h : At tgt as rest lc (.node i l d r)) (he : lowerLabel (lastL as) = lowerLabel (lastL i.labels)) :
    ∀ e ∈ bagE (sufU rest) (l.ents ++ r.ents), ¬ IsSubdomain tgt e.name := by
  intro e hm
  refine far h.name (fun e1 he1 => ?_) hm
  have h1 := h.level
  have h2 := h1.2
  rw [Tr.SGood_iff, plug_ents] at h2
  have h3 := h1.1.2.2
  rw [plug_ents] at h3
  simp only [Tr.ents, List.map_append, List.map_cons, List.pairwise_append, List.pairwise_cons] at h3
  rw [he]
  rcases List.mem_append.1 he1 with h5 | h5
  · exact ⟨(h2 e1 (by simp [Tr.ents, h5])).1, cmp_ne (.inl (h3.1.2.1.2.2 _ (List.mem_map_of_mem h5) _ (by simp)))⟩
  · exact ⟨(h2 e1 (by simp [Tr.ents, h5])).1, (cmp_ne (.inl (h3.1.2.1.2.1.1 _ (List.mem_map_of_mem h5)))).symm⟩

theorem At.down {a1 a2 : List Label} (h : At tgt as rest lc (.node i l d r)) (e : as = a1 ++ a2) (h1 : a1 ≠ []) (h2 : lowerName a2 = lowerName i.labels) :
    At tgt a1 (⟨i, l, r, lc⟩ :: rest) [] d := by
  have hi := (OK_node h.level).1
  have ha2 : a2 ≠ [] := by
    intro e2; subst e2
    have := lowerName_ne h2
    exact hi (List.length_eq_zero_iff.1 (by simpa using this.symm))
  refine ⟨h.ok, ?_, h1, trivial, ?_⟩
  · rw [h.name, e]
    simp only [sufU, Name.lowerName_append, h2, List.append_assoc]
  · intro e1 he1 hs
    simp only [bagU, Multiset.mem_add, Multiset.mem_singleton] at he1
    rcases he1 with (rfl | he1) | he1
    · simp [path]
    · rw [bagE_append, Multiset.mem_add] at he1
      rcases he1 with he1 | he1
      · exact absurd hs (h.beside (by rw [e, lastL_append ha2, lastL_lower h2]) e1 he1)
      · exact absurd hs (h.around e1 he1)
    · simp only [path, List.mem_append]; exact .inl (h.above e1 he1 hs)

/-- at an empty place: only the nodes above enclose the name -/
theorem At.free (h : At tgt as rest lc .nil) : ∀ e ∈ bag [] (plugU (plug .nil lc) rest), IsSubdomain tgt e.name → e ∈ path rest := by
  intro e he hs
  rw [bag_whole, bag_nil, zero_add, Multiset.mem_add] at he
  rcases he with he | he
  · exact absurd hs (h.around e he)
  · exact h.above e he hs

/-- at a node that only shares some labels -/
theorem At.split {a1 a2 b1 b2 : List Label} (h : At tgt as rest lc (.node i l d r)) (e : as = a1 ++ a2) (e' : i.labels = b1 ++ b2) (hb1 : b1 ≠ []) (hb2 : b2 ≠ [])
    (h2 : lowerName a2 = lowerName b2) (h3 : a1 ≠ [] → lowerLabel (lastL a1) ≠ lowerLabel (lastL b1)) :
    ∀ e ∈ bag [] (plugU (plug (.node i l d r) lc) rest), IsSubdomain tgt e.name → e ∈ path rest := by
  intro e1 he hs
  have ha2 : a2 ≠ [] := by
    intro e2; subst e2
    have := lowerName_ne h2
    exact hb2 (List.length_eq_zero_iff.1 (by simpa using this.symm))
  rw [bag_whole, Multiset.mem_add, Multiset.mem_add, bag_ents, Tr.ents] at he
  rcases he with (he | he) | he
  · have hkey : ∀ x, e1.name = x ++ (i.labels ++ sufU rest) → False := by
      intro x ex
      rw [ex, sub_congr h.name rfl, ← List.append_assoc, sub_cancel rfl, e, e', ← List.append_assoc, sub_cancel h2] at hs
      by_cases ha : a1 = []
      · subst ha
        have := sub_length hs
        exact hb1 (List.length_eq_zero_iff.1 (by simp at this; simp [this]))
      · have := sub_last hs (by simp [hb1])
        rw [lastL_append hb1] at this
        exact h3 ha this
    simp only [bagE_append, bagE_cons, Multiset.mem_add, Multiset.mem_singleton] at he
    rcases he with he | (rfl | he) | he
    · refine absurd hs (h.beside ?_ e1 (by rw [bagE_append, Multiset.mem_add]; exact .inl he))
      rw [e, lastL_append ha2, e', lastL_append hb2, lastL_lower h2]
    · exact (hkey [] rfl).elim
    · obtain ⟨x, ex⟩ := mem_bag he
      exact (hkey x ex).elim
    · refine absurd hs (h.beside ?_ e1 (by rw [bagE_append, Multiset.mem_add]; exact .inr he))
      rw [e, lastL_append ha2, e', lastL_append hb2, lastL_lower h2]
  · exact absurd hs (h.around e1 he)
  · exact h.above e1 he hs

end

/-! ## no name twice -/

theorem bag_sorted_ne {suf : List Label} {es es' : List (Info T × Tr T)} (h1 : ∀ e ∈ es, e.1.labels ≠ []) (h2 : ∀ e ∈ es', e.1.labels ≠ [])
    (h : ∀ e ∈ es, ∀ e' ∈ es', lowerLabel (lastL e.1.labels) ≠ lowerLabel (lastL e'.1.labels)) {a b : Entry T} (ha : a ∈ bagE suf es) (hb : b ∈ bagE suf es') :
    lowerName a.name ≠ lowerName b.name := by
  intro e
  obtain ⟨e1, he1, x, ex⟩ := mem_bagE ha
  obtain ⟨e2, he2, y, ey⟩ := mem_bagE hb
  refine h e1 he1 e2 he2 ?_
  rw [ex, ey, ← List.append_assoc, ← List.append_assoc, Name.lowerName_append (x ++ _), Name.lowerName_append (y ++ _)] at e
  have h3 := lastL_lower (List.append_cancel_right e)
  rwa [lastL_append (h1 e1 he1), lastL_append (h2 e2 he2)] at h3

theorem nodup_names {t : Tr T} (suf : List Label) (hg : t.SGood) (hs : Sorted (keys t.ents)) : ((bag suf t).map fun e => lowerName e.name).Nodup := by
  induction t generalizing suf with
  | nil => simp
  | node i l d r ihl ihd ihr =>
    have hg' := hg
    rw [Tr.SGood_iff] at hg'
    obtain ⟨g1, g2, g3, g4, g5⟩ := hg
    simp only [Sorted, keys, Tr.ents, List.map_append, List.map_cons, List.pairwise_append, List.pairwise_cons] at hs
    obtain ⟨s1, ⟨s2, s3⟩, s4⟩ := hs
    have e : bag suf (.node i l d r) = bagE suf [(i, d)] + bag suf l + bag suf r := by rw [bag_node]; simp
    have n1 := ihl suf g2 s1
    have n2 := ihr suf g3 s3
    have n3 := ihd (i.labels ++ suf) g5 g4.2.2
    have hl : ∀ e ∈ l.ents, e.1.labels ≠ [] := fun e he => (hg' e (by simp [Tr.ents, he])).1
    have hr : ∀ e ∈ r.ents, e.1.labels ≠ [] := fun e he => (hg' e (by simp [Tr.ents, he])).1
    have hi : ∀ e ∈ [(i, d)], e.1.labels ≠ [] := by intro e he; simp only [List.mem_singleton] at he; subst he; exact g1
    have n4 : ((bagE suf [(i, d)]).map fun e => lowerName e.name).Nodup := by
      simp only [bagE_cons, bagE_nil, add_zero]
      rw [Multiset.map_add, Multiset.map_singleton, Multiset.singleton_add, Multiset.nodup_cons]
      refine ⟨fun hm => ?_, n3⟩
      obtain ⟨e2, he2, ee⟩ := Multiset.mem_map.1 hm
      have : e2.name.length = (i.entry suf).name.length := lowerName_ne ee
      -- a name below has more labels
      have hlong : ∀ e ∈ bag (i.labels ++ suf) d, (i.labels ++ suf).length < e.name.length := by
        intro e he
        rw [bag_ents] at he
        obtain ⟨e1, he1, x, ex⟩ := mem_bagE he
        have := ((Tr.SGood_iff d).1 g5 e1 he1).1
        have : 0 < e1.1.labels.length := List.length_pos_iff.2 this
        rw [ex]; simp; omega
      have h4 := hlong e2 he2
      rw [this] at h4
      exact Nat.lt_irrefl _ h4
    rw [e, Multiset.map_add, Multiset.map_add, Multiset.nodup_add, Multiset.nodup_add, ]
    refine ⟨⟨n4, n1, ?_⟩, n2, ?_⟩
    · rw [Multiset.disjoint_left]
      intro x hx hy
      obtain ⟨a, ha, rfl⟩ := Multiset.mem_map.1 hx
      obtain ⟨b, hb, eb⟩ := Multiset.mem_map.1 hy
      rw [bag_ents] at hb
      refine bag_sorted_ne hi hl (fun e1 he1 e2 he2 => ?_) ha hb eb.symm
      simp only [List.mem_singleton] at he1; subst he1
      exact (cmp_ne (.inl (s4 _ (List.mem_map_of_mem he2) _ (by simp)))).symm
    · rw [Multiset.disjoint_left]
      intro x hx hy
      rw [← Multiset.map_add] at hx
      obtain ⟨a, ha, rfl⟩ := Multiset.mem_map.1 hx
      obtain ⟨b, hb, eb⟩ := Multiset.mem_map.1 hy
      rw [bag_ents] at hb
      rcases Multiset.mem_add.1 ha with ha | ha
      · refine bag_sorted_ne hi hr (fun e1 he1 e2 he2 => ?_) ha hb eb.symm
        simp only [List.mem_singleton] at he1; subst he1
        exact cmp_ne (.inl (s2 _ (List.mem_map_of_mem he2)))
      · rw [bag_ents] at ha
        refine bag_sorted_ne hl hr (fun e1 he1 e2 he2 => ?_) ha hb eb.symm
        exact cmp_ne (.inl (s4 _ (List.mem_map_of_mem he1) _ (by simp only [List.mem_cons]; exact .inr (List.mem_map_of_mem he2))))

end Dom
end R53
