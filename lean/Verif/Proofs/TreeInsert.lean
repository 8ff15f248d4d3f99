import Verif.Proofs.TreePlace
/-!
# Insertion
-/
namespace R53
namespace Dom
variable {T : Type}

/-- all names of a tree are legal, and ASCII if `A` says so -/
def NamesOK (A : Kind) (t : Tr T) : Prop := ∀ e ∈ bag [] t, AbsName A e.name

/-- the program ends as `Q` says; or it panics with the memory as it was, with overflow checks and names that are not ASCII -/
def WPx {σ α : Type} (A : Kind) (m : Build) (p : St σ α) (s : σ) (Q : α → σ → Prop) : Prop := WP p s Q ∨ A = none ∧ m = .debug ∧ p s = (.panic, s)

theorem WPx.same {σ α : Type} {A : Kind} {m : Build} {p p' : St σ α} {s : σ} {Q : α → σ → Prop} (e : p' s = p s) (h : WPx A m p s Q) : WPx A m p' s Q := by
  unfold WPx WP at *; rw [e]; exact h

theorem WPx.ok {σ α : Type} {A : Kind} {m : Build} {p : St σ α} {s : σ} {Q : α → σ → Prop} (h : WPx A m p s Q) (hA : A ≠ none) : WP p s Q := by
  rcases h with h | ⟨h, -⟩
  · exact h
  · exact absurd h hA

theorem WPx.all {σ α : Type} {m : Build} {p : St σ α} {s : σ} {Q : α → σ → Prop} (h : WPx asciiKind m p s Q) : WP p s Q := h.ok asciiKind_ne

theorem WPx.bind {σ α β : Type} {A : Kind} {m : Build} {p : St σ α} {f : α → St σ β} {s : σ} {Q : β → σ → Prop}
    (h : WPx A m p s fun a s' => WP (f a) s' Q) : WPx A m (p >>= f) s Q := by
  rcases h with h | ⟨h1, h2, h3⟩
  · exact .inl (WP.bind h)
  · exact .inr ⟨h1, h2, by rw [St.bind_apply, h3]⟩

theorem WPx.lift {σ α β : Type} {A : Kind} {m : Build} {r : Res α} {a : α} {f : α → St σ β} {s : σ} {Q : β → σ → Prop} (e : r = .ok a)
    (h : WPx A m (f a) s Q) : WPx A m (St.lift r >>= f) s Q := WPx.same (St.lift_ok_bind e f s) h

theorem WPx.get {σ β : Type} {A : Kind} {m : Build} {f : σ → St σ β} {s : σ} {Q : β → σ → Prop}
    (h : WPx A m (f s) s Q) : WPx A m (St.get >>= f) s Q := WPx.same rfl h

theorem WPx.mono {σ α : Type} {A : Kind} {m : Build} {p : St σ α} {s : σ} {P Q : α → σ → Prop} (h : WPx A m p s P) (hi : ∀ a s', P a s' → Q a s') : WPx A m p s Q := by
  rcases h with h | h
  · exact .inl (h.mono hi)
  · exact .inr h

/-- the entries are those of before and perhaps one new node without a value, the one that splits another -/
def Grew (t0 t : Tr T) (g g' : Nat × Nat) (tgt : List Label) : Prop :=
  (bag [] t = bag [] t0 ∧ g' = g) ∨
  ∃ nm, bag [] t = bag [] t0 + {⟨g.1, nm, none, false, false⟩} ∧ g' = (g.1 + 1, g.2 + 1) ∧ nm ≠ [] ∧ IsSubdomain tgt nm ∧
    ∃ e ∈ bag [] t0, nm <:+ e.name ∧ ∀ j, IsSubdomain tgt j → IsSubdomain e.name j → IsSubdomain nm j

/-- the side of the parent a new node goes to -/
def Dir (order : Int) : List (LF T) → Prop
  | [] => True
  | .L _ _ _ :: _ => order < 0
  | .R _ _ _ :: _ => ¬ order < 0

def InsPost (tgt full : List Label) (t0 : Tr T) (g : Nat × Nat) : InsertPos → Dom T → Prop
  | .found p, s => ∃ g' rest lc i l d r, W s g' rest lc (.node i l d r) ∧ i.addr = p ∧ OK (plugU (plug (.node i l d r) lc) rest) ∧
      lowerName (i.labels ++ sufU rest) = lowerName tgt ∧ Grew t0 (plugU (plug (.node i l d r) lc) rest) g g' tgt ∧
      (g' = g ∨ i.entry (sufU rest) = ⟨g.1, i.labels ++ sufU rest, none, false, false⟩ ∧
        bag [] (plugU (plug (.node i l d r) lc) rest) = bag [] t0 + {i.entry (sufU rest)})
  | .free par up order slice, s => ∃ g' rest lc as post, W s g' rest lc .nil ∧ At tgt as rest lc .nil ∧ par = lptr 0 lc ∧ up = slotUp rest ∧
      Dir order lc ∧ LabelSlice.View slice [] as post ∧ full = as ++ post ∧ Grew t0 (plugU (plug .nil lc) rest) g g' tgt

section
variable {A : Kind} {m : Build} {s : Dom T} {g : Nat × Nat} {lc : List (LF T)} {t : Tr T} {i : Info T} {l d r : Tr T} {rest : List (UF T)}
variable {tgt full as post : List Label} {slice : LabelSlice}

theorem entry_mem : i.entry (sufU rest) ∈ bag [] (plugU (plug (.node i l d r) lc) rest) := by
  rw [bag_whole, bag_node]; simp

theorem node_labs (hn : NamesOK A (plugU (plug (.node i l d r) lc) rest)) : LabsOK A i.labels :=
  (hn _ entry_mem).labs (List.sublist_append_left _ _)

/-- one round of a search -/
theorem round (hA : Kind.OK A m) (h : W s g rest lc (.node i l d r)) (hne : i.labels ≠ []) (hl : LabsOK A i.labels) (has : LabsOK A as)
    (hv : LabelSlice.View slice [] as post) :
    ∃ cur n, s.heap i.addr = some n ∧ n = Info.node i lc.isEmpty l.ptr r.ptr (lptr (slotUp rest) lc) d.ptr ∧
      LabelSlice.from_label_sequence n.name = .ok cur ∧ (Cool m as i.labels → ∃ c, slice.compare m cur false = .ok c ∧ Step as i.labels c) ∧
      (Cool m as i.labels ∨ A = none ∧ m = .debug ∧ slice.compare m cur false = .panic) := by
  obtain ⟨cur, e1, v1⟩ := LabelSlice.view_of_seq hl.seq hne
  refine ⟨cur, _, (Z.focus h).heap 0 rfl, by rw [slotOf_up], e1, fun hc => ?_, ?_⟩
  · obtain ⟨c, e2, hs⟩ := step_cases m hA hv.nonempty hne has.len hl.len has.seq.1 hl.seq.1 has.asc hl.asc hc
    exact ⟨c, by rw [LabelSlice.compare_view m hv v1]; exact e2, hs⟩
  · rw [LabelSlice.compare_view m hv v1]
    exact cool_or m hA hv.nonempty hne has.len hl.len has.seq.1 hl.seq.1 has.asc hl.asc

/-- what a round of the insert loop does after comparing -/
def insertBody (m : Build) (fuel : Nat) (par up current : Ptr) (order : Int) (slice : LabelSlice) (n : Node T) (c : NameComparisonResult) : St (Dom T) InsertPos :=
  match c.relation with
  | .Equal => pure (.found current)
  | .None => insertLoop m fuel current up (if c.order < 0 then n.left else n.right) c.order slice
  | .SubDomain => do
    let slice ← St.lift (slice.strip_right c.common_label_count)
    insertLoop m fuel 0 current n.down order slice
  | _ => do
    node_fission current c.common_label_count
    let q ← parent current
    insertLoop m fuel par up q order slice

theorem insertLoop_cool (hA : Kind.OK A m) (h : W s g rest lc (.node i l d r)) (hne : i.labels ≠ []) (hl : LabsOK A i.labels) (has : LabsOK A as)
    (hv : LabelSlice.View slice [] as post) (hc : Cool m as i.labels) {fuel : Nat} {par up : Ptr} {order : Int} {Q : InsertPos → Dom T → Prop}
    (hq : ∀ c, Step as i.labels c → WP (insertBody m fuel par up i.addr order slice (Info.node i lc.isEmpty l.ptr r.ptr (lptr (slotUp rest) lc) d.ptr) c) s Q) :
    WP (insertLoop m (fuel + 1) par up i.addr order slice) s Q := by
  obtain ⟨cur, n, e1, e2, e3, e4, -⟩ := round (m := m) hA h hne hl has hv
  obtain ⟨c, e4, hs⟩ := e4 hc
  unfold insertLoop
  rw [if_neg (Z.nz h)]
  refine WP.bind ⟨n, s, by simp [Dom.deref, e1], ?_⟩
  refine WP.bind (WP.lift e3 ?_)
  refine WP.bind (WP.lift e4 ?_)
  rw [e2]
  exact hq c hs

theorem insertLoop_round (hA : Kind.OK A m) (h : W s g rest lc (.node i l d r)) (hne : i.labels ≠ []) (hl : LabsOK A i.labels) (has : LabsOK A as)
    (hv : LabelSlice.View slice [] as post) {fuel : Nat} {par up : Ptr} {order : Int} {Q : InsertPos → Dom T → Prop}
    (hq : ∀ c, Cool m as i.labels → Step as i.labels c →
      WPx A m (insertBody m fuel par up i.addr order slice (Info.node i lc.isEmpty l.ptr r.ptr (lptr (slotUp rest) lc) d.ptr) c) s Q) :
    WPx A m (insertLoop m (fuel + 1) par up i.addr order slice) s Q := by
  obtain ⟨cur, n, e1, e2, e3, e4, hor⟩ := round (m := m) hA h hne hl has hv
  have ed : (Dom.deref i.addr : St (Dom T) (Node T)) s = (.ok n, s) := by simp [Dom.deref, e1]
  rcases hor with hc | ⟨h1, h2, h3⟩
  · obtain ⟨c, e4, hs⟩ := e4 hc
    refine WPx.same ?_ (hq c hc hs)
    conv_lhs => unfold insertLoop
    rw [if_neg (Z.nz h), St.bind_ok ed, St.lift_ok_bind e3, St.lift_ok_bind e4, e2]
    rfl
  · refine .inr ⟨h1, h2, ?_⟩
    unfold insertLoop
    rw [if_neg (Z.nz h), St.bind_ok ed, St.lift_ok_bind e3, h3]
    rfl

theorem lptr_eq (lc : List (LF T)) (i : Info T) (d r : Tr T) : lptr 0 (LF.L i d r :: lc) = i.addr := rfl

theorem insertLoop_spec (hA : Kind.OK A m) (fuel : Nat) : ∀ {rest : List (UF T)} {lc : List (LF T)} {t : Tr T} {as post : List Label} {slice : LabelSlice} {order : Int},
    W s g rest lc t → At tgt as rest lc t → NamesOK A (plugU (plug t lc) rest) → LabsOK A as → LabelSlice.View slice [] as post → full = as ++ post →
    Dir order lc → t.size + 4 ≤ fuel →
    WPx A m (insertLoop m fuel (lptr 0 lc) (slotUp rest) t.ptr order slice) s (InsPost tgt full (plugU (plug t lc) rest) g) := by
  induction fuel with
  | zero => intro _ _ _ _ _ _ _ _ _ _ _ _ _ _ hf; omega
  | succ fuel ih =>
    intro rest lc t as post slice order h ha hn has hv hfull hd hf
    cases t with
    | nil =>
      unfold insertLoop
      rw [if_pos (show (Tr.nil : Tr T).ptr = 0 from rfl)]
      exact .inl (WP.pure ⟨g, rest, lc, as, post, h, ha, rfl, rfl, hd, hv, hfull, .inl ⟨rfl, rfl⟩⟩)
    | node i l d r =>
      have hi := (OK_node ha.level).1
      refine insertLoop_round (i := i) hA h hi (node_labs hn) has hv fun c hcool hs => ?_
      simp only [Tr.size] at hf
      unfold insertBody
      cases hs with
      | equal hr e =>
        rw [hr]
        refine .inl (WP.pure ⟨g, rest, lc, i, l, d, r, h, rfl, ha.ok, ?_, .inl ⟨rfl, rfl⟩, .inl rfl⟩)
        rw [ha.name, Name.lowerName_append, Name.lowerName_append, e]
      | none hr hc =>
        rw [hr]
        rcases hc with ⟨ho, hc⟩ | ⟨ho, hc⟩
        · simp only [ho, if_true]
          exact ih (rest := rest) (lc := .L i d r :: lc) (t := l) (Z.left_down.1 h) (ha.left hc) hn has hv hfull ho (by omega)
        · simp only [ho, if_false]
          exact ih (rest := rest) (lc := .R i l d :: lc) (t := r) (Z.right_down.1 h) (ha.right hc) hn has hv hfull ho (by omega)
      | sub a1 a2 hr hc e h1 h2 =>
        rw [hr]
        subst e
        obtain ⟨s', e', v'⟩ := hv.strip_right h1
        have hlen := lowerName_ne h2
        refine WPx.lift (a := s') (by rw [hc, ← hlen]; exact e') ?_
        exact ih (rest := ⟨i, l, r, lc⟩ :: rest) (lc := []) (t := d) (W.down_iff.1 h) (ha.down rfl h1 h2) hn has.left v' (by rw [hfull]; simp) trivial (by omega)
      | split a1 a2 b1 b2 hr e e' h1 h2 hc h3 h4 =>
        have hbody : WP (do node_fission i.addr c.common_label_count; let q ← parent i.addr; insertLoop m fuel (lptr 0 lc) (slotUp rest) q order slice) s
            (InsPost tgt full (plugU (plug (.node i l d r) lc) rest) g) := by
          refine WP.bind ?_
          rw [hc]
          refine (node_fission_spec h e' h1 h2 (node_labs hn).seq).mono fun _ s1 w1 => ?_
          have hlab := node_labs hn
          rw [e'] at hlab
          generalize hup : (⟨g.1, i.red, false, false, b2, none⟩ : Info T) = up at w1
          have hupl : up.labels = b2 := by rw [← hup]
          have w2 : W s1 (g.1 + 1, g.2 + 1) (⟨up, l, r, lc⟩ :: rest) [] (.node { i with red := false, labels := b1 } .nil d .nil) := W.down_iff.1 w1
          refine WP.bind (Z.parent w2 ?_)
          have ep : lptr (slotOf (⟨up, l, r, lc⟩ :: rest)).up ([] : List (LF T)) = up.addr := rfl
          rw [ep]
          -- the new whole tree
          have okd : OK (Tr.node { i with red := false, labels := b1 } .nil d .nil) := by
            refine ⟨⟨⟨1, .inr ⟨rfl, 0, rfl, rfl, rfl⟩⟩, rfl, by simp [Tr.ents]⟩, ?_⟩
            have := (OK_node ha.level).2
            exact ⟨h1, trivial, trivial, this.1, this.2⟩
          have hkey : lowerLabel (lastL up.labels) = lowerLabel (lastL i.labels) := by rw [hupl, e', lastL_append h2]
          have oklev := OK_swap (i' := up) (d' := .node { i with red := false, labels := b1 } .nil d .nil) ha.level (by rw [← hup]) hkey (by rw [hupl]; exact h2) okd
          have okall := (OK_plugU ha.ok).2 _ oklev
          have hat : At tgt as rest lc (.node up l (.node { i with red := false, labels := b1 } .nil d .nil) r) :=
            ⟨okall, ha.name, ha.ne, ha.pos, ha.above⟩
          have hbag : bag [] (plugU (plug (.node up l (.node { i with red := false, labels := b1 } .nil d .nil) r) lc) rest)
              = bag [] (plugU (plug (.node i l d r) lc) rest) + {⟨g.1, b2 ++ sufU rest, none, false, false⟩} := by
            rw [bag_whole, bag_whole, bag_node, bag_node, bag_node]
            simp only [Info.entry, hupl, bag_nil, e', List.append_assoc]
            rw [← hup]
            abel
          have hgrew : Grew (plugU (plug (.node i l d r) lc) rest) (plugU (plug (.node up l (.node { i with red := false, labels := b1 } .nil d .nil) r) lc) rest)
              g (g.1 + 1, g.2 + 1) tgt := by
            refine .inr ⟨_, hbag, rfl, by simp [h2], ?_, _, entry_mem, ?_, ?_⟩
            · rw [sub_congr ha.name rfl, sub_cancel rfl, e]
              exact (sub_congr (a' := a1 ++ a2) (b' := a2) rfl h3.symm).2 (sub_append _ _)
            · simp only [Info.entry, e', List.append_assoc]; exact List.suffix_append _ _
            · intro j hj1 hj2
              have hname : lowerName tgt = lowerName (a1 ++ (b2 ++ sufU rest)) := by
                rw [ha.name, e]; simp only [Name.lowerName_append, h3, List.append_assoc]
              rw [sub_congr hname rfl] at hj1
              by_cases ha1 : a1 = []
              · rw [ha1] at hj1; exact hj1
              · have hap : Apart (a1 ++ (b2 ++ sufU rest)) (b1 ++ (b2 ++ sufU rest)) (b2 ++ sufU rest) := ⟨a1, b1, rfl, rfl, ha1, h1, h4 ha1⟩
                refine hap.common hj1 ?_
                have : i.labels ++ sufU rest = b1 ++ (b2 ++ sufU rest) := by rw [e', List.append_assoc]
                rw [← this]; exact hj2
          obtain ⟨f3, rfl⟩ : ∃ f3, fuel = f3 + 3 := ⟨fuel - 3, by omega⟩
          have hlab2 : LabsOK A b2 := ⟨hlab.seq.sublist (List.sublist_append_right _ _), fun G hA x hx => hlab.asc G hA x (by simp [hx]), by have := hlab.len; simp at this; omega⟩
          rw [e'] at hcool
          refine insertLoop_cool (i := up) hA w1 (by rw [hupl]; exact h2) (by rw [hupl]; exact hlab2) has hv (by rw [hupl]; exact hcool.upper) fun c2 hs2 => ?_
          rw [hupl] at hs2
          unfold insertBody
          by_cases ha1 : a1 = []
          · subst ha1
            rw [hs2.same (by rw [e]; simpa using h3)]
            refine WP.pure ⟨_, rest, lc, up, l, _, r, w1, rfl, okall, ?_, hgrew, .inr ⟨by rw [← hup]; rfl, by rw [hbag]; rw [← hup]; rfl⟩⟩
            rw [ha.name, e, hupl]; simp only [List.nil_append, Name.lowerName_append, h3]
          · subst e
            obtain ⟨hr2, hc2⟩ := hs2.below ha1 h2 h3
            rw [hr2]
            obtain ⟨s', es', v'⟩ := hv.strip_right ha1
            refine WP.bind (WP.lift (a := s') (by rw [hc2, ← lowerName_ne h3]; exact es') ?_)
            have hat2 := hat.down rfl ha1 (by rw [hupl]; exact h3)
            refine insertLoop_cool (i := { i with red := false, labels := b1 }) hA w2 h1 hlab.left has.left v' (hcool.lower h3) fun c3 hs3 => ?_
            obtain ⟨hr3, ho3⟩ := hs3.beside ha1 h1 (h4 ha1)
            unfold insertBody
            rw [hr3]
            have hnil : ∀ (f : LF T) (o : Int), W s1 (g.1 + 1, g.2 + 1) (⟨up, l, r, lc⟩ :: rest) [f] .nil → At tgt a1 (⟨up, l, r, lc⟩ :: rest) [f] .nil → Dir o [f] →
                plugU (plug .nil [f]) (⟨up, l, r, lc⟩ :: rest) = plugU (plug (.node up l (.node { i with red := false, labels := b1 } .nil d .nil) r) lc) rest →
                WP (insertLoop m (f3 + 1) f.addr up.addr 0 o s') s1 (InsPost tgt full (plugU (plug (.node i l d r) lc) rest) g) := by
              intro f o w3 a3 d3 e3
              unfold insertLoop
              rw [if_pos rfl]
              refine WP.pure ⟨_, _, [f], a1, a2 ++ post, w3, a3, rfl, rfl, d3, v', by rw [hfull]; simp, ?_⟩
              rw [e3]; exact hgrew
            rcases ho3 with ⟨ho, hcm⟩ | ⟨ho, hcm⟩
            · simp only [ho, if_true]
              exact hnil (.L { i with red := false, labels := b1 } d .nil) _ (Z.left_down.1 w2) (hat2.left hcm) ho rfl
            · simp only [ho, if_false]
              exact hnil (.R { i with red := false, labels := b1 } .nil d) _ (Z.right_down.1 w2) (hat2.right hcm) ho rfl
        rcases hr with ⟨hr, -⟩ | ⟨hr, -⟩
        · rw [hr]; exact .inl hbody
        · rw [hr]; exact .inl hbody

theorem insertAt_spec {ls : List Label} {par up : Ptr} {order : Int} (hls : ValidName ls) (v : Option T) (h : W s g rest lc .nil) (ha : At tgt as rest lc .nil)
    (hpar : par = lptr 0 lc) (hup : up = slotUp rest) (hd : Dir order lc) (hv : LabelSlice.View slice [] as post) (hfull : ls ++ [[]] = as ++ post) :
    WP (insertAt (Name.ofLabels ls) v par up order slice) s fun p s' => p = g.1 ∧
      ∃ t', Mem s' (g.1 + 1, g.2 + 1) t' ∧ OK t' ∧
        bag [] t' = bag [] (plugU (plug .nil lc) rest) + {⟨g.1, as ++ sufU rest, v, false, false⟩} := by
  unfold insertAt
  rw [hup, ← h.loc, hpar]
  have h0 : H s g (slotOf rest) (rptr 0 lc) [] [] (cellsL (slotOf rest).up 0 lc + cellsU rest) := by
    refine H.conv (show H _ _ _ _ _ _ _ from h) rfl ?_
    simp only [treesOf_cons, treesOf_nil, cells, Tr.ptr]
    abel
  refine WP.bind (h0.addLen fun s1 h1 => ?_)
  have hlen : 1 ≤ as.length := List.length_pos_iff.2 ha.ne
  have hlast := hv.last
  have hfl : ls.length + 1 = as.length + post.length := by
    have := congrArg List.length hfull; simpa using this
  have hname : (Name.ofLabels ls).into_label_sequence slice.first_label slice.last_label = .ok (.ofLabels as) := by
    rw [hv.first, Name.into_label_sequence_ofLabels hls, if_pos ⟨by simp, by simp at hlast; omega⟩]
    have : slice.last_label + 1 = as.length := by simpa using hlast
    rw [this, hfull]; simp
  refine WP.bind (WP.lift hname ?_)
  refine WP.bind (h1.alloc _ _ fun s2 h2 => ?_)
  refine WP.bind (h2.upd 0 rfl _ fun s3 h3 => ?_)
  simp only [List.set_cons_zero] at h3
  -- the entries of the new whole tree
  have hok := ha.level
  have hwhole : ∀ (lev : Tr T), lev.ents = entsL lc ++ [(⟨g.1, false, false, false, as, v⟩, .nil)] ++ entsR lc → (∃ k, lev.RB k) → lev.isRed = false →
      OK (plugU lev rest) ∧ bag [] (plugU lev rest) = bag [] (plugU (plug .nil lc) rest) + {⟨g.1, as ++ sufU rest, v, false, false⟩} := by
    intro lev he hrb hred
    constructor
    · refine (OK_plugU ha.ok).2 _ ⟨⟨hrb, hred, ?_⟩, ?_⟩
      · have h5 := hok.1.2.2
        rw [plug_ents] at h5
        have h6 := pos_sides ha.pos h5
        rw [he]
        simp only [Tr.ents, List.append_nil, List.map_append, List.map_cons, List.map_nil, List.pairwise_append, List.pairwise_cons, List.mem_append, List.mem_singleton] at h5 ⊢
        refine ⟨⟨h5.1, by simp, fun a h b e => ?_⟩, h5.2.1, fun a h b hb => ?_⟩
        · rw [e]; exact h6.1 a h
        · rcases h with h | e
          · exact h5.2.2 a h b hb
          · rw [e]; exact h6.2 b hb
      · have h5 := hok.2
        rw [Tr.SGood_iff, plug_ents] at h5
        rw [Tr.SGood_iff, he]
        intro e hm
        simp only [List.mem_append, List.mem_singleton] at hm
        rcases hm with (hm | rfl) | hm
        · exact h5 e (by simp [hm])
        · exact ⟨ha.ne, ⟨⟨0, rfl⟩, rfl, by simp [Tr.ents]⟩, trivial⟩
        · exact h5 e (by simp [hm])
    · rw [bag_whole, bag_plugU, bag_ents, he]
      simp only [bagE_append, bagE_cons, bagE_nil, bag_nil, Info.entry]
      abel
  match lc, h3, hd, hok, hwhole with
  | [], h3, _, _, hwhole =>
    refine WP.pos (c := lptr 0 ([] : List (LF T)) = 0) rfl ?_
    refine WP.bind (h3.store _ fun s4 h4 => ?_)
    refine WP.bind (h4.upd 0 rfl _ fun s5 h5 => ?_)
    refine WP.bind (h5.upd 0 rfl _ fun s6 h6 => ?_)
    refine WP.bind (h6.upd 0 rfl _ fun s7 h7 => ?_)
    refine WP.pure ⟨rfl, ?_⟩
    have w7 : W s7 (g.1 + 1, g.2 + 1) rest [] (.node ⟨g.1, false, false, false, as, v⟩ .nil .nil .nil) := by
      refine H.conv h7 rfl ?_
      simp only [treesOf_cons, treesOf_nil, listOf_nil, listOf_cons, cells, Tr.ptr, Info.node, cellsL, lptr, rptr, List.isEmpty_nil,
        List.set_cons_zero, mkFlag_set_subtree_root, mkFlag_default, mkFlag_set_color, reduceCtorEq, decide_false, slotOf_up]
      abel
    obtain ⟨h8, h9⟩ := hwhole (.node ⟨g.1, false, false, false, as, v⟩ .nil .nil .nil) (by simp [Tr.ents, entsL, entsR])
      ⟨1, .inr ⟨rfl, 0, rfl, rfl, rfl⟩⟩ rfl
    exact ⟨_, W.top.1 w7, h8, h9⟩
  | f :: c, h3, hd, hok, hwhole =>
    have hfz : f.addr ≠ 0 := by
      have h10 : Z s g (slotOf rest) c (f.fill .nil) (cellsU rest) := (Z.up f).1 h
      cases f <;> exact h10.nz
    have hcb : CB (f :: c) 0 := by
      obtain ⟨⟨k, h11⟩, h12, -⟩ := hok.1
      obtain ⟨n, h13, h14, -⟩ := plug_RB_inv h11 h12
      have : n = 0 := h13
      subst this; exact h14
    have hfin : ∀ s4, Z s4 (g.1 + 1, g.2 + 1) (slotOf rest) (f :: c) (.node ⟨g.1, true, false, false, as, v⟩ .nil .nil .nil) (cellsU rest) →
        WP (do insert_fixup (slotOf rest).loc g.1; pure g.1) s4 fun p s' => p = g.1 ∧
          ∃ t', Mem s' (g.1 + 1, g.2 + 1) t' ∧ OK t' ∧
            bag [] t' = bag [] (plugU (plug .nil (f :: c)) rest) + {⟨g.1, as ++ sufU rest, v, false, false⟩} := by
      intro s4 z4
      refine WP.bind ((insert_fixup_spec z4 rfl (n := 0) (.inl ⟨rfl, rfl, rfl, rfl, rfl⟩) hcb).mono fun _ s5 h5 => ?_)
      obtain ⟨lev, k, z5, e5, rb5, b5⟩ := h5
      obtain ⟨h8, h9⟩ := hwhole lev (by rw [e5, plug_ents]; simp [Tr.ents]) ⟨k, rb5⟩ b5
      exact WP.pure ⟨rfl, _, W.top.1 (show W s5 _ rest [] lev from z5), h8, h9⟩
    refine WP.neg hfz ?_
    cases f with
    | L i d r =>
      have ho : order < 0 := hd
      refine WP.pos ho ?_
      refine WP.bind (h3.upd 0 rfl _ fun s4 h4 => ?_)
      have h5 : H s4 (g.1 + 1, g.2 + 1) (slotOf rest) (rptr i.addr c) [(i.addr, Info.node i c.isEmpty 0 r.ptr (lptr (slotOf rest).up c) d.ptr),
            (g.1, Info.node ⟨g.1, true, false, false, as, v⟩ false 0 0 i.addr 0)] []
          (cells i.addr true d + cells i.addr false r + cellsL (slotOf rest).up i.addr c + cellsU rest) := by
        refine H.conv h4 rfl ?_
        simp only [treesOf_cons, treesOf_nil, listOf_nil, listOf_cons, cells, Tr.ptr, Info.node, cellsL, lptr, rptr, LF.cell, LF.addr, LF.info, LF.dn, LF.sib,
          List.set_cons_zero, mkFlag_set_subtree_root, mkFlag_default]
        abel
      refine WP.bind (h5.upd 0 rfl _ fun s6 h6 => ?_)
      have z6 : Z s6 (g.1 + 1, g.2 + 1) (slotOf rest) (.L i d r :: c) (.node ⟨g.1, true, false, false, as, v⟩ .nil .nil .nil) (cellsU rest) := by
        refine H.conv h6 rfl ?_
        simp only [treesOf_cons, treesOf_nil, listOf_nil, listOf_cons, cells, Tr.ptr, Info.node, cellsL, lptr, rptr, LF.cell, LF.addr, LF.info, LF.dn, LF.sib,
          List.set_cons_zero, List.isEmpty_cons]
        abel
      exact hfin s6 z6
    | R i l d =>
      have ho : ¬ order < 0 := hd
      refine WP.neg ho ?_
      refine WP.bind (h3.upd 0 rfl _ fun s4 h4 => ?_)
      have h5 : H s4 (g.1 + 1, g.2 + 1) (slotOf rest) (rptr i.addr c) [(i.addr, Info.node i c.isEmpty l.ptr 0 (lptr (slotOf rest).up c) d.ptr),
            (g.1, Info.node ⟨g.1, true, false, false, as, v⟩ false 0 0 i.addr 0)] []
          (cells i.addr true d + cells i.addr false l + cellsL (slotOf rest).up i.addr c + cellsU rest) := by
        refine H.conv h4 rfl ?_
        simp only [treesOf_cons, treesOf_nil, listOf_nil, listOf_cons, cells, Tr.ptr, Info.node, cellsL, lptr, rptr, LF.cell, LF.addr, LF.info, LF.dn, LF.sib,
          List.set_cons_zero, mkFlag_set_subtree_root, mkFlag_default]
        abel
      refine WP.bind (h5.upd 0 rfl _ fun s6 h6 => ?_)
      have z6 : Z s6 (g.1 + 1, g.2 + 1) (slotOf rest) (.R i l d :: c) (.node ⟨g.1, true, false, false, as, v⟩ .nil .nil .nil) (cellsU rest) := by
        refine H.conv h6 rfl ?_
        simp only [treesOf_cons, treesOf_nil, listOf_nil, listOf_cons, cells, Tr.ptr, Info.node, cellsL, lptr, rptr, LF.cell, LF.addr, LF.info, LF.dn, LF.sib,
          List.set_cons_zero, List.isEmpty_cons]
        abel
      exact hfin s6 z6

end

/-! ## the whole tree -/

/-- the memory holds the tree `t`, which is in order; the length counts `δ` too many -/
structure InvA (A : Kind) (s : Dom T) (t : Tr T) (δ : Nat) : Prop where
  mem : Mem s (s.next, s.len) t
  ok : OK t
  names : NamesOK A t
  len : s.len = t.size + δ

/-- the same for ASCII names -/
abbrev Inv (s : Dom T) (t : Tr T) (δ : Nat) : Prop := InvA asciiKind s t δ

theorem cells_card (par : Ptr) (sub : Bool) (t : Tr T) : (cells par sub t).card = t.size := by
  induction t generalizing par sub with
  | nil => rfl
  | node i l d r ihl ihd ihr => simp [cells, Tr.size, ihl, ihd, ihr]; omega

theorem W.size_lt {s : Dom T} {g : Nat × Nat} {rest : List (UF T)} {lc : List (LF T)} {t : Tr T} (h : W s g rest lc t) : t.size < g.1 := by
  have h1 := card_lt (Z.hold h)
  simp only [Multiset.card_add, cells_card] at h1
  omega

theorem W.nextlen {s : Dom T} {g : Nat × Nat} {rest : List (UF T)} {lc : List (LF T)} {t : Tr T} (h : W s g rest lc t) : g = (s.next, s.len) := by
  have h1 := Z.hold h
  exact Prod.ext h1.next.symm h1.len.symm

theorem same_comm {a b : List Label} (h : lowerName a = lowerName b) : SameName a b := h

section
variable {A : Kind} {m : Build} {s : Dom T} {t : Tr T} {δ : Nat}

/-- the value of a node replaced -/
theorem W.set_value {g : Nat × Nat} {rest : List (UF T)} {lc : List (LF T)} {i : Info T} {l d r : Tr T} (h : W s g rest lc (.node i l d r)) (v : Option T) :
    WP (Dom.set_value i.addr v) s fun old s' => old = i.value ∧ W s' g rest lc (.node { i with value := v } l d r) := by
  unfold Dom.set_value
  have h0 := Z.focus h
  refine WP.bind (h0.deref 0 rfl ?_)
  refine WP.bind (h0.upd 0 rfl _ fun s1 h1 => ?_)
  exact WP.pure ⟨rfl, Z.unfocus (i := { i with value := v }) h1⟩

/-- what `insert` does to the entries -/
def Inserted (t t' : Tr T) (ls : List Label) (v : Option T) (p : Ptr) (old : Option (Option T)) : Prop :=
  (∃ e R, bag [] t = {e} + R ∧ e.addr = p ∧ SameName e.name (ls ++ [[]]) ∧ old = some e.value ∧ bag [] t' = {{ e with value := v }} + R) ∨
  ((∀ e ∈ bag [] t, ¬ SameName e.name (ls ++ [[]])) ∧
    ((old = none ∧ ∀ e ∈ bag [] t, ¬ IsSubdomain e.name (ls ++ [[]])) ∨ (old = some none ∧ ∃ e ∈ bag [] t, IsSubdomain e.name (ls ++ [[]]))) ∧
    ∃ nm X, SameName nm (ls ++ [[]]) ∧ bag [] t' = bag [] t + {⟨p, nm, v, false, false⟩} + X ∧
      (X = 0 ∨ ∃ q nm2, X = {⟨q, nm2, none, false, false⟩} ∧ IsSubdomain (ls ++ [[]]) nm2 ∧
        ∃ e ∈ bag [] t, nm2 <:+ e.name ∧ ∀ j, IsSubdomain (ls ++ [[]]) j → IsSubdomain e.name j → IsSubdomain nm2 j))

theorem Grew.inv (h : InvA A s t δ) {t' : Tr T} {g' : Nat × Nat} {tgt : List Label} (hg : Grew t t' (s.next, s.len) g' tgt) : g'.2 = t'.size + δ ∧ NamesOK A t' := by
  have hl : s.len = (bag [] t).card + δ := by rw [h.len, size_bag []]
  rcases hg with ⟨e, rfl⟩ | ⟨nm, e, rfl, hne, hsub, e0, he0, hsuf, -⟩
  · refine ⟨by rw [size_bag [], e]; exact hl, ?_⟩
    intro x hx; rw [e] at hx; exact h.names x hx
  · refine ⟨by rw [size_bag [], e]; simp [hl]; omega, ?_⟩
    intro x hx
    rw [e, Multiset.mem_add, Multiset.mem_singleton] at hx
    rcases hx with hx | rfl
    · exact h.names x hx
    · exact (h.names e0 he0).suffix hsuf hne

theorem insert_found (h : InvA A s t δ) {ls : List Label} (v : Option T) {s1 : Dom T} {p : Ptr}
    (hp : InsPost (ls ++ [[]]) (ls ++ [[]]) t (s.next, s.len) (.found p) s1) :
    WP (Dom.set_value p v) s1 fun old s' => ∃ t', InvA A s' t' δ ∧ Inserted t t' ls v p (some old) := by
  obtain ⟨g', rest, lc, i, l, d, r, w1, rfl, ok1, hn1, hg1, hfresh⟩ := hp
  have hsn : SameName (i.labels ++ sufU rest) (ls ++ [[]]) := hn1
  obtain ⟨hlen1, hnames1⟩ := hg1.inv h
  refine (W.set_value w1 v).mono fun old s2 ho => ?_
  obtain ⟨rfl, w2⟩ := ho
  have oklev := (OK_plugU ok1).1
  have ok2 : OK (plugU (plug (.node { i with value := v } l d r) lc) rest) := (OK_plugU ok1).2 _ (OK_swap oklev rfl rfl (OK_node oklev).1 (OK_node oklev).2)
  have hb1 := bag_whole (.node i l d r) lc rest
  have hb2 := bag_whole (.node { i with value := v } l d r) lc rest
  rw [bag_node] at hb1 hb2
  generalize hR : bag (i.labels ++ sufU rest) d + bag (sufU rest) l + bag (sufU rest) r + bagE (sufU rest) (entsL lc ++ entsR lc) + bagU rest = R
  have hb1' : bag [] (plugU (plug (.node i l d r) lc) rest) = {i.entry (sufU rest)} + R := by rw [hb1, ← hR]; abel
  have hb2' : bag [] (plugU (plug (.node { i with value := v } l d r) lc) rest) = {{ i.entry (sufU rest) with value := v }} + R := by
    rw [hb2, ← hR]; simp only [Info.entry]; abel
  refine ⟨_, ⟨?_, ok2, ?_, ?_⟩, ?_⟩
  · have := W.nextlen w2; rw [← this]; exact W.top.1 w2
  · intro e he
    rw [hb2', Multiset.mem_add, Multiset.mem_singleton] at he
    rcases he with rfl | he
    · exact hnames1 (i.entry (sufU rest)) (by rw [hb1']; simp)
    · exact hnames1 e (by rw [hb1']; simp [he])
  · have := W.nextlen w2
    rw [show s2.len = g'.2 by rw [this], hlen1, size_bag [], size_bag [], hb1', hb2']; simp
  · rcases hfresh with rfl | ⟨efr, ebag⟩
    · rcases hg1 with ⟨eb, -⟩ | ⟨nm, -, eg, -⟩
      · exact .inl ⟨i.entry (sufU rest), R, by rw [← eb, hb1'], rfl, hsn, rfl, hb2'⟩
      · have := congrArg Prod.fst eg
        simp at this
    · -- the node found is the one that was split off
      have hR2 : R = bag [] t := by
        have : ({i.entry (sufU rest)} : Multiset (Entry T)) + R = {i.entry (sufU rest)} + bag [] t := by rw [← hb1', ebag]; abel
        exact Multiset.add_right_inj.1 this
      have hnd := nodup_names [] ok1.2 ok1.1.2.2
      have hval : i.value = none := congrArg Entry.value efr
      have hbelow : ∃ e ∈ bag [] t, IsSubdomain e.name (ls ++ [[]]) := by
        rcases hg1 with ⟨eb, -⟩ | ⟨nm, eb, -, -, -, e0, he0, hsuf, -⟩
        · rw [ebag] at eb
          have := congrArg Multiset.card eb
          simp at this
        · have h1 : (⟨s.next, nm, none, false, false⟩ : Entry T) = i.entry (sufU rest) := by
            have h2 : bag [] t + {i.entry (sufU rest)} = bag [] t + {⟨s.next, nm, none, false, false⟩} := ebag.symm.trans eb
            have h3 := Multiset.add_right_inj.1 h2
            exact (Multiset.singleton_inj.1 h3).symm
          have h2 : nm = i.labels ++ sufU rest := congrArg Entry.name h1
          exact ⟨e0, he0, (sub_congr rfl hsn).1 (by rw [← h2]; exact sub_of_suffix hsuf)⟩
      refine .inr ⟨fun e he hse => ?_, .inr ⟨by rw [hval], hbelow⟩, i.labels ++ sufU rest, 0, hsn, ?_, .inl rfl⟩
      · rw [ebag, Multiset.map_add, Multiset.nodup_add] at hnd
        refine Multiset.disjoint_left.1 hnd.2.2 (Multiset.mem_map_of_mem _ he) ?_
        rw [Multiset.map_singleton, Multiset.mem_singleton]
        exact hse.trans hsn.symm
      · rw [hb2', hR2]
        have e1 : i.cb = false := congrArg Entry.cb efr
        have e2 : i.wc = false := congrArg Entry.wc efr
        simp only [Info.entry, e1, e2]
        abel

theorem insert_free (h : InvA A s t δ) {ls : List Label} (hv : ValidName ls) (ha : Kind.All A ls) (v : Option T) {s1 : Dom T} {par up : Ptr} {order : Int} {slice : LabelSlice}
    (hp : InsPost (ls ++ [[]]) (ls ++ [[]]) t (s.next, s.len) (.free par up order slice) s1) :
    WP (insertAt (Name.ofLabels ls) v par up order slice) s1 fun p s' => ∃ t', InvA A s' t' δ ∧ Inserted t t' ls v p none := by
  have habs : AbsName A (ls ++ [[]]) := ⟨ls, hv, ha, rfl⟩
  obtain ⟨g', rest, lc, as, post, w1, at1, hpar, hup, hd, hvw, hfull, hg1⟩ := hp
  obtain ⟨hlen1, hnames1⟩ := hg1.inv h
  refine (insertAt_spec hv v w1 at1 hpar hup hd hvw hfull).mono fun p s2 ho => ?_
  obtain ⟨rfl, t', m2, ok2, hb2⟩ := ho
  have hold : ∀ {e : Entry T}, e ∈ bag [] t → e ∈ bag [] (plugU (plug .nil lc) rest) := by
    intro e he
    rcases hg1 with ⟨eb, -⟩ | ⟨nm, eb, -⟩
    · rw [eb]; exact he
    · rw [eb]; simp [he]
  refine ⟨t', ⟨?_, ok2, ?_, ?_⟩, .inr ⟨?_, .inl ⟨rfl, fun e he => at1.none_below (hold he)⟩, as ++ sufU rest, ?_⟩⟩
  · have := W.nextlen m2; rw [← this]; exact m2
  · intro e he
    rw [hb2, Multiset.mem_add, Multiset.mem_singleton] at he
    rcases he with he | rfl
    · exact hnames1 e he
    · exact habs.congr at1.name
  · have := W.nextlen m2
    rw [show s2.len = g'.2 + 1 by rw [show s2.len = (s2.next, s2.len).2 from rfl, ← this], hlen1, size_bag [], size_bag [], hb2]; simp; omega
  · intro e he hse
    have hmem := hold he
    have h3 := sub_of_suffix (path_sub (at1.free e hmem (Name.same_sub hse.symm)))
    have h4 := sub_length h3
    have h5 := lowerName_ne hse
    have h6 := lowerName_ne at1.name
    have : 0 < as.length := List.length_pos_iff.2 at1.ne
    simp only [List.length_append] at *; omega
  · rcases hg1 with ⟨eb, rfl⟩ | ⟨nm, eb, rfl, hne, hsub, e0, he0, hsuf⟩
    · exact ⟨0, at1.name.symm, by rw [hb2, eb]; simp, .inl rfl⟩
    · exact ⟨_, at1.name.symm, by rw [hb2, eb]; abel, .inr ⟨_, nm, rfl, hsub, e0, he0, hsuf⟩⟩

theorem insert_any (hA : Kind.OK A m) (h : InvA A s t δ) {ls : List Label} (hv : ValidName ls) (ha : Kind.All A ls) (v : Option T) :
    WPx A m (insert m (Name.ofLabels ls) v) s fun r s' => ∃ t', InvA A s' t' δ ∧ Inserted t t' ls v r.1 r.2 := by
  unfold insert
  refine WPx.lift (LabelSlice.from_name_ofLabels ls) ?_
  refine WPx.get ?_
  have habs : AbsName A (ls ++ [[]]) := ⟨ls, hv, ha, rfl⟩
  have hroot : s.root = t.ptr := Hold.root (Z.hold h.mem)
  have hat : At (ls ++ [[]]) (ls ++ [[]]) ([] : List (UF T)) [] t :=
    ⟨h.ok, by simp [sufU], by simp, trivial, fun e he => by simp [bagU] at he⟩
  refine WPx.bind ?_
  have hsz := W.size_lt h.mem
  simp only at hsz
  generalize hF : 2 * s.next + 4 = F
  have hspec : WPx A m (insertLoop m F 0 0 t.ptr (-1) ⟨(Name.ofLabels ls).raw, (Name.ofLabels ls).offsets, 0, ls.length⟩) s (InsPost (ls ++ [[]]) (ls ++ [[]]) t (s.next, s.len)) :=
    insertLoop_spec (m := m) (tgt := ls ++ [[]]) (full := ls ++ [[]]) (order := -1) hA F h.mem hat h.names (habs.labs (List.Sublist.refl _))
    (LabelSlice.view_of_name hv) (by simp) trivial (by have : (2 * s.next + 4 : Nat) = F := hF; omega)
  rw [hroot]
  refine hspec.mono fun pos s1 hp => ?_
  cases pos with
  | found p => exact WP.bind ((insert_found h v hp).mono fun old s2 ho => WP.pure ho)
  | free par up order slice => exact WP.bind ((insert_free h hv ha v hp).mono fun p s2 ho => WP.pure ho)

theorem insert_spec (h : Inv s t δ) {ls : List Label} (hv : ValidName ls) (ha : Name.Ascii ls) (v : Option T) :
    WP (insert m (Name.ofLabels ls) v) s fun r s' => ∃ t', Inv s' t' δ ∧ Inserted t t' ls v r.1 r.2 :=
  (insert_any (asciiKind_ok _) h hv (asciiKind_iff.2 ha) v).all

end
end Dom
end R53
