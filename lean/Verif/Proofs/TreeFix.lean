import Verif.Proofs.TreeZip
import Mathlib.Data.Multiset.Range
/-!
# Red-black levels: the repair after an insertion and after a removal
-/
namespace R53
namespace Dom
variable {T : Type}

/-- the surroundings of a place are those of a red-black tree whose subtree at the place has black height `n` -/
def CB : List (LF T) → Nat → Prop
  | [], _ => True
  | f :: c, n => f.sib.RB n ∧
      (f.red = true → f.sib.isRed = false ∧ ∃ f2 c2, c = f2 :: c2 ∧ f2.red = false) ∧ CB c (if f.red then n else n + 1)

theorem ents_congr {t t' : Tr T} (lc : List (LF T)) (h : t.ents = t'.ents) : (plug t lc).ents = (plug t' lc).ents := by
  induction lc generalizing t t' with
  | nil => exact h
  | cons f c ih =>
    refine ih ?_
    cases f <;> simp [LF.fill, Tr.ents, h]

/-- filling a sound place with a sound subtree -/
theorem plug_RB {t : Tr T} {lc : List (LF T)} {n : Nat} (ht : t.RB n) (hc : CB lc n) (hr : t.isRed = true → ∀ f c, lc = f :: c → f.red = false)
    (hroot : lc ≠ [] ∨ t.isRed = false) : ∃ k, (plug t lc).RB k ∧ (plug t lc).isRed = false := by
  induction lc generalizing t n with
  | nil => exact ⟨n, ht, by simpa [plug] using hroot⟩
  | cons f c ih =>
    obtain ⟨h1, h2, h3⟩ := hc
    cases hf : f.red
    · rw [hf] at h3
      refine ih (n := n + 1) ?_ h3 ?_ (.inr ?_)
      · cases f <;> simp only [LF.fill, Tr.RB] <;> exact .inr ⟨hf, n, rfl, by first | exact ⟨ht, h1⟩ | exact ⟨h1, ht⟩⟩
      · intro hx; cases f <;> simp only [LF.fill, Tr.isRed] at hx <;> exact absurd (hf.symm.trans hx) (by simp)
      · cases f <;> exact hf
    · rw [hf] at h3
      obtain ⟨h4, f2, c2, e, h5⟩ := h2 hf
      have ht' : t.isRed = false := by
        cases hx : t.isRed with
        | false => rfl
        | true => have := hr hx f c rfl; rw [hf] at this; cases this
      refine ih (n := n) ?_ h3 ?_ (.inl (by rw [e]; simp))
      · cases f <;> simp only [LF.fill, Tr.RB] <;> exact .inl ⟨hf, by first | exact ⟨ht', h4, ht, h1⟩ | exact ⟨h4, ht', h1, ht⟩⟩
      · intro _ f' c' e'; rw [e] at e'; cases e'; exact h5

theorem Hold.ne_mem {s : Dom T} {rt : Ptr} {g : Nat × Nat} {m1 m2 : Multiset (Cell T)} (h : Hold s rt g (m1 + m2)) {a b : Ptr}
    (ha : a ∈ m1.map Prod.fst) (hb : b ∈ m2.map Prod.fst) : a ≠ b := by
  have hn := h.nodup
  rw [Multiset.map_add, Multiset.nodup_add] at hn
  exact fun e => Multiset.disjoint_left.1 hn.2.2 ha (e ▸ hb)

theorem rptr_mem (up hp : Ptr) (f : LF T) (c : List (LF T)) : rptr hp (f :: c) ∈ (cellsL up hp (f :: c)).map Prod.fst := by
  induction c generalizing hp f with
  | nil => cases f <;> simp [rptr, cellsL, LF.cell, LF.addr, LF.info]
  | cons f2 c ih =>
    rw [cellsL, Multiset.map_add]
    exact Multiset.mem_add.2 (.inr (ih f.addr f2))

section
variable {s : Dom T} {g : Nat × Nat} {S : Slot T} {lc c : List (LF T)} {t : Tr T} {m : Multiset (Cell T)} {i : Info T} {l d r : Tr T}

/-- a node that is not the root of its level is not the root of its level -/
theorem Z.ne_root {f : LF T} (h : Z s g S (f :: c) (.node i l d r) m) : i.addr ≠ rptr i.addr (f :: c) := by
  have h' := h.focus
  unfold H at h'
  have h3 : Hold s (S.rt (rptr i.addr (f :: c))) g (({(i.addr, Info.node i false l.ptr r.ptr (lptr S.up (f :: c)) d.ptr)} +
      S.cells (rptr i.addr (f :: c)) + treesOf [(i.addr, true, d), (i.addr, false, l), (i.addr, false, r)] + m) + cellsL S.up i.addr (f :: c)) := by
    refine Eq.mp (congrArg (Hold s _ g) ?_) h'
    simp only [listOf_cons, listOf_nil, List.isEmpty_cons]
    abel
  exact h3.ne_mem (by simp) (rptr_mem ..)

theorem Z.fnz {f : LF T} (h : Z s g S (f :: lc) t m) : f.addr ≠ 0 := by
  rw [Z.up] at h
  cases f <;> exact h.nz

theorem grand_parent_spec {f f2 : LF T} (h : Z s g S (f :: f2 :: c) (.node i l d r) m) {Q : Ptr → Dom T → Prop} (hq : Q f2.addr s) :
    WP (grand_parent i.addr) s Q := by
  have h1 := (Z.up f).1 h
  refine WP.bind (h.parent ?_)
  refine WP.neg h.fnz ?_
  cases f <;> exact h1.parent hq

theorem uncle_spec {f f2 : LF T} (h : Z s g S (f :: f2 :: c) (.node i l d r) m) {Q : Ptr → Dom T → Prop} (hq : Q f2.sib.ptr s) :
    WP (uncle i.addr) s Q := by
  have h1 := (Z.up f).1 h
  have h2 := (Z.up f2).1 h1
  refine WP.bind (grand_parent_spec h ?_)
  refine WP.neg h1.fnz ?_
  refine WP.bind (h.parent ?_)
  cases f2 with
  | L k kd kr =>
    refine WP.bind (h2.left ?_)
    refine WP.pos (LF.fill_ptr f _).symm ?_
    exact h2.right hq
  | R k kl kd =>
    refine WP.bind (h2.left ?_)
    refine WP.neg (fun e => h2.r_ne_l ?_ ?_) ?_
    · rw [LF.fill_ptr]; exact h.fnz
    · rw [LF.fill_ptr]; exact e
    · exact h2.left hq

theorem insertRotate_spec {f f2 : LF T} {n : Nat} (h : Z s g S (f :: f2 :: c) (.node i l d r) m) (hi : i.red = true)
    (ht : (Tr.node i l d r).RB n) (hc : CB (f :: f2 :: c) n) (hf : f.red = true) (hu : f2.sib.isRed = false) :
    WP (insertRotate S.loc i.addr f.addr f2.addr) s fun _ s' =>
      ∃ t, Z s' g S c t m ∧ t.ents = (f2.fill (f.fill (.node i l d r))).ents ∧ t.RB (n + 1) ∧ t.isRed = false := by
  have h1 := (Z.up f).1 h
  have h2 := (Z.up f2).1 h1
  obtain ⟨hs1, hs2, hs3, hs4, hs5⟩ := hc
  rw [hf, if_pos rfl] at hs3
  obtain ⟨hb1, f2', c2', e, hb2⟩ := hs2 hf
  cases e
  simp only [Tr.RB, hi, true_and, Bool.true_eq_false, false_and, or_false] at ht
  obtain ⟨ht1, ht2, ht3, ht4⟩ := ht
  unfold insertRotate
  cases f with
  | L p pd pr =>
    cases f2 with
    | L k kd kr =>
      -- left left
      have hne : i.addr ≠ pr.ptr := by
        have := h1.l_ne_r h.nz; exact this
      have hne2 : p.addr ≠ kr.ptr := h2.l_ne_r h1.nz
      refine WP.bind (WP.bind (h1.right (WP.bind (h2.left ?_))))
      refine WP.neg (fun e => hne e.1) ?_
      refine WP.bind (h1.left (WP.bind (h2.right ?_)))
      refine WP.neg (fun e => hne2 e.2) ?_
      refine WP.pure ?_
      refine WP.bind (h.parent ?_)
      refine WP.bind (h1.set_color _ fun s3 h3 => ?_)
      have h4 := (Z.up (.L k kd kr)).1 h3
      refine WP.bind (h4.set_color _ fun s5 h5 => ?_)
      refine WP.bind (((Z.up (.L { k with red := decide (Color.Red = .Red) } kd kr)).2 h5).left ?_)
      refine WP.pos rfl ?_
      refine (right_rotate_spec h5).mono fun _ s6 h6 => ⟨_, h6, ?_, ?_, rfl⟩
      · simp [Tr.ents, LF.fill]
      · simp only [Tr.RB, decide_true, true_and]
        refine .inr ⟨rfl, n, rfl, .inl ⟨hi, ht1, ht2, ht3, ht4⟩, .inl ⟨hb1, hu, hs1, hs3⟩⟩
    | R k kl kd =>
      -- right left
      have hne : i.addr ≠ pr.ptr := h1.l_ne_r h.nz
      refine WP.bind (WP.bind (h1.right (WP.bind (h2.left ?_))))
      refine WP.neg (fun e => hne e.1) ?_
      refine WP.bind (h1.left (WP.bind (h2.right ?_)))
      refine WP.pos ⟨rfl, rfl⟩ ?_
      refine WP.bind ((right_rotate_spec h1).mono fun _ s3 h3 => ?_)
      refine WP.pure ?_
      have h3' := Z.right_down.1 h3
      refine WP.bind (h3'.parent ?_)
      refine WP.bind (h3.set_color _ fun s4 h4 => ?_)
      have h5 := (Z.up (.R k kl kd)).1 h4
      refine WP.bind (h5.set_color _ fun s6 h6 => ?_)
      refine WP.bind ((Z.right_down.1 h6).left ?_)
      refine WP.neg ((Z.right_down.1 h6).r_ne_l h1.nz) ?_
      refine (left_rotate_spec h6).mono fun _ s6 h6 => ⟨_, h6, ?_, ?_, rfl⟩
      · simp [Tr.ents, LF.fill]
      · simp only [Tr.RB, decide_true, true_and]
        refine .inr ⟨rfl, n, rfl, .inl ⟨hu, ht1, hs3, ht3⟩, .inl ⟨hf, ht2, hb1, ht4, hs1⟩⟩
  | R p pl pd =>
    cases f2 with
    | L k kd kr =>
      -- left right
      refine WP.bind (WP.bind (h1.right (WP.bind (h2.left ?_))))
      refine WP.pos ⟨rfl, rfl⟩ ?_
      refine WP.bind ((left_rotate_spec h1).mono fun _ s3 h3 => ?_)
      refine WP.pure ?_
      have h3' := Z.left_down.1 h3
      refine WP.bind (h3'.parent ?_)
      refine WP.bind (h3.set_color _ fun s4 h4 => ?_)
      have h5 := (Z.up (.L k kd kr)).1 h4
      refine WP.bind (h5.set_color _ fun s6 h6 => ?_)
      refine WP.bind ((Z.left_down.1 h6).left ?_)
      refine WP.pos rfl ?_
      refine (right_rotate_spec h6).mono fun _ s6 h6 => ⟨_, h6, ?_, ?_, rfl⟩
      · simp [Tr.ents, LF.fill]
      · simp only [Tr.RB, decide_true, true_and]
        refine .inr ⟨rfl, n, rfl, .inl ⟨hf, hb1, ht1, hs1, ht3⟩, .inl ⟨ht2, hu, ht4, hs3⟩⟩
    | R k kl kd =>
      -- right right
      have hne : p.addr ≠ kl.ptr := h2.r_ne_l h1.nz
      have hne2 : i.addr ≠ pl.ptr := h1.r_ne_l h.nz
      refine WP.bind (WP.bind (h1.right (WP.bind (h2.left ?_))))
      refine WP.neg (fun e => hne e.2) ?_
      refine WP.bind (h1.left (WP.bind (h2.right ?_)))
      refine WP.neg (fun e => hne2 e.1) ?_
      refine WP.pure ?_
      refine WP.bind (h.parent ?_)
      refine WP.bind (h1.set_color _ fun s3 h3 => ?_)
      have h4 := (Z.up (.R k kl kd)).1 h3
      refine WP.bind (h4.set_color _ fun s5 h5 => ?_)
      refine WP.bind ((Z.right_down.1 h5).left ?_)
      refine WP.neg hne2 ?_
      refine (left_rotate_spec h5).mono fun _ s6 h6 => ⟨_, h6, ?_, ?_, rfl⟩
      · simp [Tr.ents, LF.fill]
      · simp only [Tr.RB, decide_true, true_and]
        refine .inr ⟨rfl, n, rfl, .inl ⟨hu, hb1, hs3, hs1⟩, .inl ⟨hi, ht1, ht2, ht3, ht4⟩⟩

theorem LF.fill_isRed (f : LF T) (t : Tr T) : (f.fill t).isRed = f.red := by cases f <;> rfl

theorem insertFixLoop_spec : ∀ (fuel : Nat) {s : Dom T} {lc : List (LF T)} {i : Info T} {l d r : Tr T} {n : Nat},
    lc.length < fuel → Z s g S lc (.node i l d r) m → i.red = true → (Tr.node i l d r).RB n → CB lc n →
    WP (insertFixLoop S.loc fuel i.addr) s fun _ s' =>
      ∃ t k, Z s' g S [] t m ∧ t.ents = (plug (.node i l d r) lc).ents ∧ t.RB k := by
  intro fuel
  induction fuel with
  | zero => intro s lc i l d r n hlt; omega
  | succ fuel ih =>
    intro s lc i l d r n hlt h hi ht hc
    unfold insertFixLoop
    refine WP.bind (h.load ?_)
    match lc, hlt, h, hc with
    | [], hlt, h, hc =>
      refine WP.pos rfl ?_
      exact WP.pure ⟨_, n, h, rfl, ht⟩
    | f :: c, hlt, h, hc =>
      refine WP.neg h.ne_root ?_
      refine WP.bind (h.parent ?_)
      have h1 := (Z.up f).1 h
      refine WP.bind ?_
      show WP (is_black f.addr) _ _
      rw [← LF.fill_ptr f (.node i l d r)]
      refine h1.is_black ?_
      rw [LF.fill_isRed]
      cases hf : f.red with
      | false =>
        refine WP.pos rfl ?_
        obtain ⟨k, hk, _⟩ := plug_RB ht hc (fun _ f' c' e => by cases e; exact hf) (.inl (by simp))
        exact WP.pure ⟨_, k, Z.top.1 h, rfl, hk⟩
      | true =>
        refine WP.neg (by simp) ?_
        obtain ⟨f2, c2, rfl, hf2⟩ := (hc.2.1 hf).2
        refine WP.bind (uncle_spec h ?_)
        refine WP.bind (grand_parent_spec h ?_)
        have h2 := (Z.up f2).1 h1
        -- the colour of the uncle
        have hred : WP (if f2.sib.ptr ≠ 0 then Dom.is_red f2.sib.ptr else pure false) s fun b s' => b = f2.sib.isRed ∧ s' = s := by
          by_cases hz : f2.sib.ptr = 0
          · refine WP.neg (by simpa using hz) (WP.pure ⟨?_, rfl⟩)
            revert hz; cases e : f2.sib with
            | nil => intro _; rfl
            | node => intro hz; exact absurd hz (by
                cases f2 <;> simp only [LF.sib] at e <;> subst e
                · exact (Z.right_down.1 h2).nz
                · exact (Z.left_down.1 h2).nz)
          · refine WP.pos hz ?_
            cases f2 with
            | L k kd kr => exact (Z.right_down.1 h2).is_red ⟨rfl, rfl⟩
            | R k kl kd => exact (Z.left_down.1 h2).is_red ⟨rfl, rfl⟩
        refine WP.bind (hred.mono fun b s' hb => ?_)
        obtain ⟨rfl, rfl⟩ := hb
        cases hu : f2.sib.isRed with
        | false =>
          refine WP.neg (by simp) ?_
          refine (insertRotate_spec h hi ht hc hf hu).mono fun _ s3 h3 => ?_
          obtain ⟨t, hz, he, hrb, hbl⟩ := h3
          have hc2 : CB c2 (n + 1) := by
            have := hc.2.2.2.2; simpa [hf, hf2] using this
          obtain ⟨k, hk, _⟩ := plug_RB hrb hc2 (fun e => by rw [hbl] at e; cases e) (.inr hbl)
          exact ⟨_, k, Z.top.1 hz, ents_congr c2 he, hk⟩
        | true =>
          refine WP.pos rfl ?_
          have hc2 : CB c2 (n + 1) := by
            have := hc.2.2.2.2; simpa [hf, hf2] using this
          have hs1 := hc.1
          have hs3 : f2.sib.RB n := by have := hc.2.2.1; simpa [hf] using this
          -- colours of parent, uncle, grand parent
          cases hsib : f2.sib with
          | nil => rw [hsib] at hu; cases hu
          | node u ul ud ur =>
            rw [hsib] at hu hs3
            simp only [Tr.isRed] at hu
            simp only [Tr.RB, hu, true_and, Bool.true_eq_false, false_and, or_false] at hs3
            obtain ⟨hu1, hu2, hu3, hu4⟩ := hs3
            cases f with
            | L p pd pr =>
              refine WP.bind (h1.set_color _ fun s3 h3 => ?_)
              cases f2 with
              | L k kd kr =>
                simp only [LF.sib] at hsib; subst hsib
                have h4 := Z.right_down.1 ((Z.up _).1 h3)
                refine WP.bind (h4.set_color _ fun s5 h5 => ?_)
                have h6 := (Z.up _).1 h5
                refine WP.bind (h6.set_color _ fun s7 h7 => ?_)
                refine (ih (n := n + 1) ?_ h7 rfl ?_ hc2).mono fun _ s8 h8 => ?_
                · simp only [List.length_cons] at hlt; omega
                · exact .inl ⟨rfl, rfl, rfl, .inr ⟨rfl, n, rfl, ht, hs1⟩, .inr ⟨rfl, n, rfl, hu3, hu4⟩⟩
                · obtain ⟨t, k, hz, he, hk⟩ := h8
                  exact ⟨t, k, hz, he.trans (ents_congr c2 (by simp [Tr.ents, LF.fill])), hk⟩
              | R k kl kd =>
                simp only [LF.sib] at hsib; subst hsib
                have h4 := Z.left_down.1 ((Z.up _).1 h3)
                refine WP.bind (h4.set_color _ fun s5 h5 => ?_)
                have h6 := (Z.up _).1 h5
                refine WP.bind (h6.set_color _ fun s7 h7 => ?_)
                refine (ih (n := n + 1) ?_ h7 rfl ?_ hc2).mono fun _ s8 h8 => ?_
                · simp only [List.length_cons] at hlt; omega
                · exact .inl ⟨rfl, rfl, rfl, .inr ⟨rfl, n, rfl, hu3, hu4⟩, .inr ⟨rfl, n, rfl, ht, hs1⟩⟩
                · obtain ⟨t, k, hz, he, hk⟩ := h8
                  exact ⟨t, k, hz, he.trans (ents_congr c2 (by simp [Tr.ents, LF.fill])), hk⟩
            | R p pl pd =>
              refine WP.bind (h1.set_color _ fun s3 h3 => ?_)
              cases f2 with
              | L k kd kr =>
                simp only [LF.sib] at hsib; subst hsib
                have h4 := Z.right_down.1 ((Z.up _).1 h3)
                refine WP.bind (h4.set_color _ fun s5 h5 => ?_)
                have h6 := (Z.up _).1 h5
                refine WP.bind (h6.set_color _ fun s7 h7 => ?_)
                refine (ih (n := n + 1) ?_ h7 rfl ?_ hc2).mono fun _ s8 h8 => ?_
                · simp only [List.length_cons] at hlt; omega
                · exact .inl ⟨rfl, rfl, rfl, .inr ⟨rfl, n, rfl, hs1, ht⟩, .inr ⟨rfl, n, rfl, hu3, hu4⟩⟩
                · obtain ⟨t, k, hz, he, hk⟩ := h8
                  exact ⟨t, k, hz, he.trans (ents_congr c2 (by simp [Tr.ents, LF.fill])), hk⟩
              | R k kl kd =>
                simp only [LF.sib] at hsib; subst hsib
                have h4 := Z.left_down.1 ((Z.up _).1 h3)
                refine WP.bind (h4.set_color _ fun s5 h5 => ?_)
                have h6 := (Z.up _).1 h5
                refine WP.bind (h6.set_color _ fun s7 h7 => ?_)
                refine (ih (n := n + 1) ?_ h7 rfl ?_ hc2).mono fun _ s8 h8 => ?_
                · simp only [List.length_cons] at hlt; omega
                · exact .inl ⟨rfl, rfl, rfl, .inr ⟨rfl, n, rfl, hu3, hu4⟩, .inr ⟨rfl, n, rfl, hs1, ht⟩⟩
                · obtain ⟨t, k, hz, he, hk⟩ := h8
                  exact ⟨t, k, hz, he.trans (ents_congr c2 (by simp [Tr.ents, LF.fill])), hk⟩

theorem card_lt {s : Dom T} {rt : Ptr} {m : Multiset (Cell T)} (h : Hold s rt g m) : m.card < g.1 := by
  have h1 : (0 ::ₘ m.map Prod.fst).Nodup := by
    rw [Multiset.nodup_cons]
    refine ⟨fun hx => ?_, h.nodup⟩
    obtain ⟨c, hc, e⟩ := Multiset.mem_map.1 hx
    exact (h.bound c hc).1 e
  have h2 : (0 ::ₘ m.map Prod.fst) ≤ Multiset.range g.1 := by
    rw [Multiset.le_iff_subset h1]
    intro x hx
    rw [Multiset.mem_range]
    rcases Multiset.mem_cons.1 hx with rfl | hx
    · exact h.pos
    · obtain ⟨c, hc, rfl⟩ := Multiset.mem_map.1 hx
      exact (h.bound c hc).2
  have h3 := Multiset.card_le_card h2
  rw [Multiset.card_cons, Multiset.card_map, Multiset.card_range] at h3
  omega

theorem card_cellsL (up hp : Ptr) (lc : List (LF T)) : lc.length ≤ (cellsL up hp lc).card := by
  induction lc generalizing hp with
  | nil => simp [cellsL]
  | cons f c ih =>
    have := ih f.addr
    simp only [cellsL, Multiset.card_add, Multiset.card_singleton, List.length_cons]
    omega

theorem Z.hold (h : Z s g S lc t m) : Hold s (S.rt (rptr t.ptr lc)) g
    (S.cells (rptr t.ptr lc) + cells (lptr S.up lc) lc.isEmpty t + cellsL S.up t.ptr lc + m) := by
  refine Eq.mp (congrArg (Hold s _ g) ?_) (show Hold _ _ _ _ from h)
  simp only [listOf_nil, treesOf_cons, treesOf_nil]
  abel

theorem Z.length_lt (h : Z s g S lc t m) : lc.length < g.1 := by
  have h1 := card_lt h.hold
  have h2 := card_cellsL S.up t.ptr lc
  simp only [Multiset.card_add] at h1
  omega

theorem Z.next (h : Z s g S lc t m) : s.next = g.1 := h.hold.next

/-- the repair after an insertion, with a number of rounds that covers the way up -/
theorem insertFix_spec {n F : Nat} (hF : lc.length < F) (h : Z s g S lc (.node i l d r) m) (hi : i.red = true) (ht : (Tr.node i l d r).RB n) (hc : CB lc n) :
    WP (do insertFixLoop S.loc F i.addr; let r ← load S.loc; set_color r .Black) s fun _ s' =>
      ∃ t k, Z s' g S [] t m ∧ t.ents = (plug (.node i l d r) lc).ents ∧ t.RB k ∧ t.isRed = false := by
  refine WP.bind ((insertFixLoop_spec F hF h hi ht hc).mono fun _ s1 h1 => ?_)
  obtain ⟨t, k, hz, he, hk⟩ := h1
  refine WP.bind (hz.load ?_)
  cases t with
  | nil =>
    exfalso
    have : ∀ (lc : List (LF T)) (t : Tr T), t.ents ≠ [] → (plug t lc).ents ≠ [] := by
      intro lc
      induction lc with
      | nil => exact fun _ h => h
      | cons f c ih => intro t ht; refine ih _ ?_; cases f <;> simp [LF.fill, Tr.ents]
    exact this lc (.node i l d r) (by simp [Tr.ents]) he.symm
  | node j a dj b =>
    refine hz.set_color _ fun s2 h2 => ?_
    simp only [Tr.RB] at hk
    rcases hk with ⟨_, _, _, h5, h6⟩ | ⟨_, k', e, h5, h6⟩
    · exact ⟨_, k + 1, h2, by rw [← he]; simp [Tr.ents], .inr ⟨rfl, k, rfl, h5, h6⟩, rfl⟩
    · exact ⟨_, k, h2, by rw [← he]; simp [Tr.ents], .inr ⟨rfl, k', e, h5, h6⟩, rfl⟩

theorem insert_fixup_spec {n : Nat} (h : Z s g S lc (.node i l d r) m) (hi : i.red = true) (ht : (Tr.node i l d r).RB n) (hc : CB lc n) :
    WP (insert_fixup S.loc i.addr) s fun _ s' =>
      ∃ t k, Z s' g S [] t m ∧ t.ents = (plug (.node i l d r) lc).ents ∧ t.RB k ∧ t.isRed = false := by
  unfold insert_fixup
  refine WP.bind (WP.get ?_)
  exact insertFix_spec (by have := h.length_lt; rw [h.next]; omega) h hi ht hc

/-! ## removal -/

theorem rptr_nz (h : Z s g S lc (.node i l d r) m) : rptr i.addr lc ≠ 0 := by
  match lc, h with
  | [], h => exact h.nz
  | f :: c, h =>
    have hm := rptr_mem S.up i.addr f c
    obtain ⟨x, hx, e⟩ := Multiset.mem_map.1 hm
    have := (h.hold.bound x (by
      refine Multiset.mem_add.2 (.inl (Multiset.mem_add.2 (.inr hx))))).1
    rw [e] at this; exact this

theorem Z.down_ne_root (h : Z s g S lc (.node i l d r) m) : d.ptr ≠ rptr i.addr lc := by
  match lc, h with
  | [], h => exact h.ne_down.symm
  | f :: c, h =>
    cases d with
    | nil => exact (rptr_nz h).symm
    | node j a dj b =>
      have h3 : Hold s (S.rt (rptr i.addr (f :: c))) g (({(j.addr, Info.node j true a.ptr b.ptr i.addr dj.ptr)} +
          (S.cells (rptr i.addr (f :: c)) + {(i.addr, Info.node i false l.ptr r.ptr (lptr S.up (f :: c)) j.addr)} + cells j.addr true dj +
            cells j.addr false a + cells j.addr false b + cells i.addr false l + cells i.addr false r + m)) + cellsL S.up i.addr (f :: c)) := by
        refine Eq.mp (congrArg (Hold s _ g) ?_) h.hold
        simp only [cells, Tr.ptr, List.isEmpty_cons]
        abel
      exact h3.ne_mem (by simp [Tr.ptr]) (rptr_mem ..)

/-- the sibling -/
theorem get_sibling_spec {f : LF T} (h : Z s g S (f :: c) t m) (hs : f.sib.ptr ≠ 0) {Q : Ptr → Dom T → Prop} (hq : Q f.sib.ptr s) :
    WP (get_sibling f.addr t.ptr) s Q := by
  have h1 := (Z.up f).1 h
  unfold get_sibling
  refine WP.neg h.fnz ?_
  cases f with
  | L p pd pr => exact WP.bind (h1.left (WP.pos rfl (h1.right hq)))
  | R p pl pd => exact WP.bind (h1.left (WP.neg (h1.l_ne_r hs) (h1.left hq)))

theorem sib_some {f : LF T} {n : Nat} (hc : CB (f :: c) (n + 1)) : ∃ j a dj b, f.sib = .node j a dj b := by
  cases e : f.sib with
  | nil => have := hc.1; rw [e] at this; simp [Tr.RB] at this
  | node j a dj b => exact ⟨j, a, dj, b, rfl⟩

theorem removeRedSibling_spec {f : LF T} {n : Nat} (h : Z s g S (f :: c) t m) (hc : CB (f :: c) (n + 1)) :
    WP (removeRedSibling S.loc t.ptr f.addr) s fun q s' => ∃ f' c', Z s' g S (f' :: c') t m ∧ q = f'.sib.ptr ∧ f'.addr = f.addr ∧
      f'.sib.isRed = false ∧ CB (f' :: c') (n + 1) ∧ (plug t (f' :: c')).ents = (plug t (f :: c)).ents ∧ (f'.red = true ∨ c' = c) := by
  obtain ⟨j, a, dj, b, hj⟩ := sib_some hc
  have h1 := (Z.up f).1 h
  have hjz : f.sib.ptr ≠ 0 := by
    rw [hj]
    cases f <;> simp only [LF.sib] at hj <;> subst hj
    · exact (Z.right_down.1 h1).nz
    · exact (Z.left_down.1 h1).nz
  unfold removeRedSibling
  refine WP.bind (get_sibling_spec h hjz ?_)
  refine WP.bind ?_
  have hcol : WP (Dom.is_red f.sib.ptr) s fun b s' => b = f.sib.isRed ∧ s' = s := by
    cases f with
    | L p pd pr => exact (Z.right_down.1 h1).is_red ⟨rfl, rfl⟩
    | R p pl pd => exact (Z.left_down.1 h1).is_red ⟨rfl, rfl⟩
  refine hcol.mono fun x s' hx => ?_
  obtain ⟨rfl, rfl⟩ := hx
  cases hr : f.sib.isRed with
  | false =>
    refine WP.neg (by simp) (WP.pure ⟨f, c, h, rfl, rfl, hr, hc, rfl, .inr rfl⟩)
  | true =>
    refine WP.pos rfl ?_
    obtain ⟨hs1, hs2, hs3⟩ := hc
    have hf : f.red = false := by
      cases hx : f.red with
      | false => rfl
      | true => have := (hs2 hx).1; rw [hr] at this; cases this
    rw [hf] at hs3
    rw [hj] at hs1 hr
    simp only [Tr.isRed] at hr
    simp only [Tr.RB, hr, true_and, Bool.true_eq_false, false_and, or_false] at hs1
    obtain ⟨ha, hb, ha2, hb2⟩ := hs1
    cases f with
    | L p pd pr =>
      simp only [LF.sib] at hj; subst hj
      refine WP.bind (h1.set_color _ fun s3 h3 => ?_)
      refine WP.bind ((Z.right_down.1 h3).set_color _ fun s4 h4 => ?_)
      have h5 := (Z.up _).1 h4
      refine WP.bind (h5.left ?_)
      refine WP.pos rfl ?_
      refine WP.bind ((left_rotate_spec h5).mono fun _ s6 h6 => ?_)
      have h7 := Z.left_down.1 (Z.left_down.1 h6)
      have hc' : CB (LF.L { p with red := decide (Color.Red = .Red) } pd a :: LF.L { j with red := decide (Color.Black = .Red) } dj b :: c) (n + 1) :=
        ⟨ha2, fun _ => ⟨ha, _, _, rfl, rfl⟩, hb2, (fun e => by cases e), hs3⟩
      have haz : a.ptr ≠ 0 := by
        obtain ⟨x, xa, xd, xb, e⟩ := sib_some hc'
        simp only [LF.sib] at e; subst e
        exact (Z.right_down.1 (Z.left_down.1 h6)).nz
      refine get_sibling_spec h7 haz ?_
      exact ⟨_, _, h7, rfl, rfl, ha, hc', ents_congr c (by simp [LF.fill, Tr.ents]), .inl rfl⟩
    | R p pl pd =>
      simp only [LF.sib] at hj; subst hj
      refine WP.bind (h1.set_color _ fun s3 h3 => ?_)
      refine WP.bind ((Z.left_down.1 h3).set_color _ fun s4 h4 => ?_)
      have h5 := (Z.up _).1 h4
      refine WP.bind (h5.left ?_)
      refine WP.neg (h5.l_ne_r hjz) ?_
      refine WP.bind ((right_rotate_spec h5).mono fun _ s6 h6 => ?_)
      have h7 := Z.right_down.1 (Z.right_down.1 h6)
      have hc' : CB (LF.R { p with red := decide (Color.Red = .Red) } b pd :: LF.R { j with red := decide (Color.Black = .Red) } a dj :: c) (n + 1) :=
        ⟨hb2, fun _ => ⟨hb, _, _, rfl, rfl⟩, ha2, (fun e => by cases e), hs3⟩
      have haz : b.ptr ≠ 0 := by
        obtain ⟨x, xa, xd, xb, e⟩ := sib_some hc'
        simp only [LF.sib] at e; subst e
        exact (Z.left_down.1 (Z.right_down.1 h6)).nz
      refine get_sibling_spec h7 haz ?_
      exact ⟨_, _, h7, rfl, rfl, hb, hc', ents_congr c (by simp [LF.fill, Tr.ents]), .inl rfl⟩

theorem WP.color_neg {c : Prop} [Decidable c] {x y : Ptr} {k : Color} {Q : Unit → Dom T → Prop} (hc : ¬ c) (h : WP (Dom.set_color y k) s Q) :
    WP (Dom.set_color (if c then x else y) k) s Q := by rw [if_neg hc]; exact h

theorem removeRotate_spec {f : LF T} {n : Nat} {j : Info T} {a dj b : Tr T} (h : Z s g S (f :: c) t m) (ht : t.RB n) (htr : t.isRed = false)
    (hc : CB (f :: c) (n + 1)) (hj : f.sib = .node j a dj b) (hjr : j.red = false) (hab : ¬ (a.isRed = false ∧ b.isRed = false)) :
    WP (removeRotate S.loc t.ptr f.addr j.addr) s fun _ s' =>
      ∃ t', Z s' g S c t' m ∧ t'.ents = (f.fill t).ents ∧ t'.RB (if f.red then n + 1 else n + 2) ∧ t'.isRed = f.red := by
  have h1 := (Z.up f).1 h
  obtain ⟨hs1, hs2, hs3⟩ := hc
  rw [hj] at hs1
  simp only [Tr.RB, hjr, true_and, Bool.false_eq_true, false_and, false_or] at hs1
  obtain ⟨n', e, ha, hb⟩ := hs1
  obtain rfl : n = n' := by omega
  unfold removeRotate
  cases f with
  | L p pd pr =>
    simp only [LF.sib] at hj; subst hj
    have hjz := Z.right_down.1 h1
    refine WP.bind (h1.left ?_)
    refine WP.bind (hjz.left ?_)
    refine WP.bind (hjz.right ?_)
    simp only [decide_true, if_true]
    refine WP.bind (WP.bind ((Z.right_down.1 hjz).is_black ?_))
    cases hbr : b.isRed with
    | true =>
      refine WP.neg (by simp) (WP.pure ?_)
      refine WP.bind (h1.color ?_)
      refine WP.bind (hjz.set_color _ fun s3 h3 => ?_)
      have h4 := (Z.up _).1 h3
      refine WP.bind (h4.set_color _ fun s5 h5 => ?_)
      have h6 := Z.right_down.1 h5
      refine WP.bind (h6.left ?_)
      refine WP.bind (h6.right ?_)
      refine WP.bind (h5.left ?_)
      refine WP.bind ?_
      simp only [if_true]
      cases b with
      | nil => cases hbr
      | node y yl yd yr =>
        refine (Z.right_down.1 h6).set_color _ fun s7 h7 => ?_
        have h8 := (Z.up _).1 ((Z.up _).1 h7)
        refine WP.bind (h8.left ?_)
        refine WP.pos rfl ?_
        refine (left_rotate_spec h8).mono fun _ s9 h9 => ⟨_, h9, ?_, ?_, ?_⟩
        · simp [LF.fill, Tr.ents]
        · simp only [Tr.isRed] at hbr
          simp only [Tr.RB, hbr, true_and, Bool.true_eq_false, false_and, or_false] at hb
          obtain ⟨_, _, hy1, hy2⟩ := hb
          have e1 : (Tr.node { p with red := decide (Color.Black = .Red) } t pd a).RB (n + 1) := .inr ⟨rfl, n, rfl, ht, ha⟩
          have e2 : (Tr.node { y with red := decide (Color.Black = .Red) } yl yd yr).RB (n + 1) := .inr ⟨rfl, n, rfl, hy1, hy2⟩
          cases hp : p.red
          · rw [show LF.red (.L p pd _) = false from hp]
            exact .inr ⟨by simp [LF.fill, Tr.isRed, hp], n + 1, rfl, e1, e2⟩
          · rw [show LF.red (.L p pd _) = true from hp]
            exact .inl ⟨by simp [LF.fill, Tr.isRed, hp], rfl, rfl, e1, e2⟩
        · cases hp : p.red <;> simp [LF.fill, Tr.isRed, LF.red, LF.info, hp]
    | false =>
      refine WP.pos rfl ?_
      cases a with
      | nil => exact absurd ⟨rfl, hbr⟩ hab
      | node x xa xd xb =>
        have hxr : x.red = true := by
          cases hx : x.red with
          | true => rfl
          | false => exact absurd ⟨hx, hbr⟩ hab
        simp only [Tr.RB, hxr, true_and, Bool.true_eq_false, false_and, or_false] at ha
        obtain ⟨hx1, hx2, hx3, hx4⟩ := ha
        refine WP.bind (hjz.set_color _ fun s3 h3 => ?_)
        refine WP.bind ((Z.left_down.1 h3).set_color _ fun s4 h4 => ?_)
        have h5 := (Z.up _).1 h4
        refine WP.bind (((Z.up _).1 h5).left ?_)
        refine WP.pos rfl ?_
        refine WP.bind ((right_rotate_spec h5).mono fun _ s6 h6 => ?_)
        refine get_sibling_spec (Z.left_down.1 ((Z.up _).1 h6)) h6.nz ?_
        have h7 := (Z.up _).1 h6
        refine WP.bind (h7.color ?_)
        refine WP.bind (h6.set_color _ fun s8 h8 => ?_)
        refine WP.bind (((Z.up _).1 h8).set_color _ fun s9 h9 => ?_)
        have h10 := Z.right_down.1 h9
        refine WP.bind (h10.left ?_)
        refine WP.bind (h10.right ?_)
        refine WP.bind (h9.left ?_)
        refine WP.bind ?_
        simp only [if_true]
        refine (Z.right_down.1 h10).set_color _ fun s11 h11 => ?_
        have h12 := (Z.up _).1 ((Z.up _).1 h11)
        refine WP.bind (h12.left ?_)
        refine WP.pos rfl ?_
        refine (left_rotate_spec h12).mono fun _ s13 h13 => ⟨_, h13, ?_, ?_, ?_⟩
        · simp [LF.fill, Tr.ents]
        · have e1 : (Tr.node { p with red := decide (Color.Black = .Red) } t pd xa).RB (n + 1) := .inr ⟨rfl, n, rfl, ht, hx3⟩
          have e2 : (Tr.node { j with red := decide (Color.Black = .Red) } xb dj b).RB (n + 1) := .inr ⟨rfl, n, rfl, hx4, hb⟩
          cases hp : p.red
          · rw [show LF.red (.L p pd _) = false from hp]
            exact .inr ⟨by simp [LF.fill, Tr.isRed, hp], n + 1, rfl, e1, e2⟩
          · rw [show LF.red (.L p pd _) = true from hp]
            exact .inl ⟨by simp [LF.fill, Tr.isRed, hp], rfl, rfl, e1, e2⟩
        · cases hp : p.red <;> simp [LF.fill, Tr.isRed, LF.red, LF.info, hp]
  | R p pl pd =>
    simp only [LF.sib] at hj; subst hj
    have hjz := Z.left_down.1 h1
    have hne := h1.l_ne_r hjz.nz
    refine WP.bind (h1.left ?_)
    refine WP.bind (hjz.left ?_)
    refine WP.bind (hjz.right ?_)
    simp only [hne, decide_false, Bool.false_eq_true, if_false]
    refine WP.bind (WP.bind ((Z.left_down.1 hjz).is_black ?_))
    cases har : a.isRed with
    | true =>
      refine WP.neg (by simp) (WP.pure ?_)
      refine WP.bind (h1.color ?_)
      refine WP.bind (hjz.set_color _ fun s3 h3 => ?_)
      have h4 := (Z.up _).1 h3
      refine WP.bind (h4.set_color _ fun s5 h5 => ?_)
      have h6 := Z.left_down.1 h5
      refine WP.bind (h6.left ?_)
      refine WP.bind (h6.right ?_)
      refine WP.bind (h5.left ?_)
      refine WP.bind ?_
      refine WP.color_neg hne ?_
      cases a with
      | nil => cases har
      | node y yl yd yr =>
        refine (Z.left_down.1 h6).set_color _ fun s7 h7 => ?_
        have h8 := (Z.up _).1 ((Z.up _).1 h7)
        refine WP.bind (h8.left ?_)
        refine WP.neg hne ?_
        refine (right_rotate_spec h8).mono fun _ s9 h9 => ⟨_, h9, ?_, ?_, ?_⟩
        · simp [LF.fill, Tr.ents]
        · simp only [Tr.isRed] at har
          simp only [Tr.RB, har, true_and, Bool.true_eq_false, false_and, or_false] at ha
          obtain ⟨_, _, hy1, hy2⟩ := ha
          have e1 : (Tr.node { p with red := decide (Color.Black = .Red) } b pd t).RB (n + 1) := .inr ⟨rfl, n, rfl, hb, ht⟩
          have e2 : (Tr.node { y with red := decide (Color.Black = .Red) } yl yd yr).RB (n + 1) := .inr ⟨rfl, n, rfl, hy1, hy2⟩
          cases hp : p.red
          · rw [show LF.red (.R p _ pd) = false from hp]
            exact .inr ⟨by simp [LF.fill, Tr.isRed, hp], n + 1, rfl, e2, e1⟩
          · rw [show LF.red (.R p _ pd) = true from hp]
            exact .inl ⟨by simp [LF.fill, Tr.isRed, hp], rfl, rfl, e2, e1⟩
        · cases hp : p.red <;> simp [LF.fill, Tr.isRed, LF.red, LF.info, hp]
    | false =>
      refine WP.pos rfl ?_
      cases b with
      | nil => exact absurd ⟨har, rfl⟩ hab
      | node x xa xd xb =>
        have hxr : x.red = true := by
          cases hx : x.red with
          | true => rfl
          | false => exact absurd ⟨har, hx⟩ hab
        simp only [Tr.RB, hxr, true_and, Bool.true_eq_false, false_and, or_false] at hb
        obtain ⟨hx1, hx2, hx3, hx4⟩ := hb
        refine WP.bind (hjz.set_color _ fun s3 h3 => ?_)
        refine WP.bind ((Z.right_down.1 h3).set_color _ fun s4 h4 => ?_)
        have h5 := (Z.up _).1 h4
        refine WP.bind (((Z.up _).1 h5).left ?_)
        refine WP.neg hne ?_
        refine WP.bind ((left_rotate_spec h5).mono fun _ s6 h6 => ?_)
        refine get_sibling_spec (Z.right_down.1 ((Z.up _).1 h6)) h6.nz ?_
        have h7 := (Z.up _).1 h6
        have hne2 := h7.l_ne_r h6.nz
        refine WP.bind (h7.color ?_)
        refine WP.bind (h6.set_color _ fun s8 h8 => ?_)
        refine WP.bind (((Z.up _).1 h8).set_color _ fun s9 h9 => ?_)
        have h10 := Z.left_down.1 h9
        refine WP.bind (h10.left ?_)
        refine WP.bind (h10.right ?_)
        refine WP.bind (h9.left ?_)
        refine WP.bind ?_
        refine WP.color_neg hne2 ?_
        refine (Z.left_down.1 h10).set_color _ fun s11 h11 => ?_
        have h12 := (Z.up _).1 ((Z.up _).1 h11)
        refine WP.bind (h12.left ?_)
        refine WP.neg hne2 ?_
        refine (right_rotate_spec h12).mono fun _ s13 h13 => ⟨_, h13, ?_, ?_, ?_⟩
        · simp [LF.fill, Tr.ents]
        · have e1 : (Tr.node { p with red := decide (Color.Black = .Red) } xb pd t).RB (n + 1) := .inr ⟨rfl, n, rfl, hx4, ht⟩
          have e2 : (Tr.node { j with red := decide (Color.Black = .Red) } a dj xa).RB (n + 1) := .inr ⟨rfl, n, rfl, ha, hx3⟩
          cases hp : p.red
          · rw [show LF.red (.R p _ pd) = false from hp]
            exact .inr ⟨by simp [LF.fill, Tr.isRed, hp], n + 1, rfl, e2, e1⟩
          · rw [show LF.red (.R p _ pd) = true from hp]
            exact .inl ⟨by simp [LF.fill, Tr.isRed, hp], rfl, rfl, e2, e1⟩
        · cases hp : p.red <;> simp [LF.fill, Tr.isRed, LF.red, LF.info, hp]

theorem WP.is_black_of {p : Ptr} {t : Tr T} {Q : Bool → Dom T → Prop} (h : Z s g S lc t m) (e : p = t.ptr) (hq : Q (!t.isRed) s) : WP (Dom.is_black p) s Q := by
  subst e; exact h.is_black hq

theorem removeFixLoop_spec : ∀ (fuel : Nat) {s : Dom T} {lc : List (LF T)} {t : Tr T} {n : Nat},
    lc.length < fuel → Z s g S lc t m → t.isRed = false → t.RB n → CB lc (n + 1) →
    WP (removeFixLoop S.loc fuel t.ptr (lptr S.up lc)) s fun _ s' =>
      ∃ t' k, Z s' g S [] t' m ∧ t'.ents = (plug t lc).ents ∧ t'.RB k ∧ t'.isRed = false := by
  intro fuel
  induction fuel with
  | zero => intro s lc t n hlt; omega
  | succ fuel ih =>
    intro s lc t n hlt h htr ht hc
    unfold removeFixLoop
    refine WP.bind (h.load ?_)
    match lc, hlt, h, hc with
    | [], hlt, h, hc =>
      refine WP.pos rfl ?_
      exact WP.pure ⟨_, n, h, rfl, ht, htr⟩
    | f :: c, hlt, h, hc =>
      have h1 := (Z.up f).1 h
      have hroot : f.addr ≠ 0 ∧ rptr f.addr c ≠ 0 ∧ f.dn.ptr ≠ rptr f.addr c := by
        cases f
        · exact ⟨h1.nz, rptr_nz h1, h1.down_ne_root⟩
        · exact ⟨h1.nz, rptr_nz h1, h1.down_ne_root⟩
      have hne : t.ptr ≠ rptr t.ptr (f :: c) := by
        cases t with
        | nil => exact hroot.2.1.symm
        | node i l d r => exact h.ne_root
      refine WP.neg hne ?_
      refine WP.bind (h.is_black ?_)
      rw [htr]
      refine WP.neg (by simp) ?_
      refine WP.bind ?_
      refine WP.pos hroot.1 ?_
      have hdn : WP (Dom.down f.addr) s fun q s' => q = f.dn.ptr ∧ s' = s := by
        cases f
        · exact h1.down ⟨rfl, rfl⟩
        · exact h1.down ⟨rfl, rfl⟩
      refine WP.bind (hdn.mono fun q s' hx => ?_)
      obtain ⟨rfl, rfl⟩ := hx
      refine WP.bind (h.load (WP.pure ?_))
      refine WP.neg ?_ ?_
      · simp only [decide_eq_true_eq]; exact hroot.2.2
      refine WP.bind ((removeRedSibling_spec h hc).mono fun q s2 h2 => ?_)
      obtain ⟨f', c', hz, rfl, hfa, hsr, hc', he, hcc⟩ := h2
      have hz1 := (Z.up f').1 hz
      obtain ⟨j, a, dj, b, hj⟩ := sib_some hc'
      have hjr : j.red = false := by rw [hj] at hsr; exact hsr
      have hfa' : lptr S.up (f :: c) = f'.addr := hfa.symm
      rw [hfa']
      have hab : WP (do if ← Dom.is_black (← Dom.left f'.sib.ptr) then Dom.is_black (← Dom.right f'.sib.ptr) else pure false : St (Dom T) Bool) s2
          fun x s' => x = (!a.isRed && !b.isRed) ∧ s' = s2 := by
        rw [hj]
        have hjz : ∃ lc', Z s2 g S lc' (.node j a dj b) m := by
          cases f' <;> simp only [LF.sib] at hj <;> subst hj
          · exact ⟨_, Z.right_down.1 hz1⟩
          · exact ⟨_, Z.left_down.1 hz1⟩
        obtain ⟨lc', hjz⟩ := hjz
        refine WP.bind (hjz.left ?_)
        refine WP.bind ((Z.left_down.1 hjz).is_black ?_)
        cases ha : a.isRed with
        | true => exact WP.neg (by simp) (WP.pure ⟨rfl, rfl⟩)
        | false =>
          refine WP.pos rfl ?_
          refine WP.bind (hjz.right ?_)
          exact (Z.right_down.1 hjz).is_black ⟨by simp, rfl⟩
      refine WP.bind (hab.mono fun x s' hx => ?_)
      obtain ⟨rfl, rfl⟩ := hx
      obtain ⟨hs1, hs2, hs3⟩ := hc'
      by_cases hcase : a.isRed = false ∧ b.isRed = false
      · refine WP.pos (by simp [hcase.1, hcase.2]) ?_
        rw [hj] at hs1
        simp only [Tr.RB, hjr, true_and, Bool.false_eq_true, false_and, false_or] at hs1
        obtain ⟨n', e, ha, hb⟩ := hs1
        obtain rfl : n = n' := by omega
        -- the place with the sibling red
        have key : WP (Dom.set_color f'.sib.ptr .Red) s' fun _ s3 => ∃ f'', Z s3 g S (f'' :: c') t m ∧ f''.info = f'.info ∧
            f''.sib.RB n ∧ (f''.fill t).ents = (f'.fill t).ents := by
          rw [hj]
          cases f' with
          | L p pd pr =>
            simp only [LF.sib] at hj; subst hj
            refine (Z.right_down.1 hz1).set_color _ fun s3 h3 => ?_
            refine ⟨.L p pd _, Z.left_down.1 ((Z.up _).1 h3), rfl, .inl ⟨rfl, hcase.1, hcase.2, ha, hb⟩, ?_⟩
            simp [LF.fill, Tr.ents]
          | R p pl pd =>
            simp only [LF.sib] at hj; subst hj
            refine (Z.left_down.1 hz1).set_color _ fun s3 h3 => ?_
            refine ⟨.R p _ pd, Z.right_down.1 ((Z.up _).1 h3), rfl, .inl ⟨rfl, hcase.1, hcase.2, ha, hb⟩, ?_⟩
            simp [LF.fill, Tr.ents]
        refine WP.bind (key.mono fun _ s3 h3 => ?_)
        obtain ⟨f'', h3, hinfo, hs, hents⟩ := h3
        have h4 := (Z.up f'').1 h3
        have hred : f''.red = f'.red := by unfold LF.red; rw [hinfo]
        have haddr : f''.addr = f'.addr := by unfold LF.addr; rw [hinfo]
        refine WP.bind ?_
        refine WP.is_black_of h4 (by rw [LF.fill_ptr, haddr]) ?_
        rw [LF.fill_isRed, hred]
        cases hfr : f'.red with
        | false =>
          refine WP.pos rfl ?_
          rw [hfr] at hred hs3
          obtain rfl : c' = c := by
            rcases hcc with e | e
            · rw [hfr] at e; cases e
            · exact e
          have hpar : WP (Dom.parent f'.addr) s3 fun q s' => q = lptr S.up c' ∧ s' = s3 := by
            rw [← haddr]
            cases f''
            · exact h4.parent ⟨rfl, rfl⟩
            · exact h4.parent ⟨rfl, rfl⟩
          refine WP.bind (hpar.mono fun q s4 hx => ?_)
          obtain ⟨rfl, rfl⟩ := hx
          rw [← haddr, ← LF.fill_ptr f'' t]
          refine (ih (n := n + 1) ?_ h4 ?_ ?_ hs3).mono fun _ s5 h5 => ?_
          · simp only [List.length_cons] at hlt; omega
          · rw [LF.fill_isRed, hred]
          · cases f''
            · exact .inr ⟨hred, n, rfl, ht, hs⟩
            · exact .inr ⟨hred, n, rfl, hs, ht⟩
          · obtain ⟨t', k, h6, h7, h8⟩ := h5
            exact ⟨t', k, h6, h7.trans ((ents_congr c' hents).trans he), h8⟩
        | true =>
          refine WP.neg (by simp) ?_
          rw [hfr] at hred hs3
          have key2 : WP (Dom.set_color f'.addr .Black) s3 fun _ s5 => ∃ t', Z s5 g S c' t' m ∧ t'.ents = (f''.fill t).ents ∧ t'.RB (n + 1) ∧ t'.isRed = false := by
            rw [← haddr]
            cases f'' with
            | L p pd pr => exact h4.set_color _ fun s5 h5 => ⟨_, h5, by simp [LF.fill, Tr.ents], .inr ⟨rfl, n, rfl, ht, hs⟩, rfl⟩
            | R p pl pd => exact h4.set_color _ fun s5 h5 => ⟨_, h5, by simp [LF.fill, Tr.ents], .inr ⟨rfl, n, rfl, hs, ht⟩, rfl⟩
          refine key2.mono fun _ s5 h5 => ?_
          obtain ⟨t', h6, h7, h8, h9⟩ := h5
          obtain ⟨k, hk, hk2⟩ := plug_RB h8 hs3 (fun e => by rw [h9] at e; cases e) (.inr h9)
          exact ⟨_, k, Z.top.1 h6, (ents_congr c' (h7.trans hents)).trans he, hk, hk2⟩
      · refine WP.neg ?_ ?_
        · intro e
          simp only [Bool.and_eq_true, Bool.not_eq_true'] at e
          exact hcase e
        rw [hj]
        refine (removeRotate_spec hz ht htr ⟨hs1, hs2, hs3⟩ hj hjr hcase).mono fun _ s5 h5 => ?_
        obtain ⟨t', h6, h7, h8, h9⟩ := h5
        obtain ⟨k, hk, hk2⟩ := plug_RB (lc := c') h8 (by cases hfr : f'.red <;> simpa [hfr] using hs3) (fun e f2 c2 ec => by
            rw [h9] at e
            obtain ⟨_, f3, c3, e3, hb⟩ := hs2 e
            rw [e3] at ec; cases ec; exact hb) (by
            cases hfr : f'.red with
            | false => rw [hfr] at h9; exact .inr h9
            | true =>
              obtain ⟨_, f3, c3, e3, hb⟩ := hs2 hfr
              rw [e3]; exact .inl (by simp))
        exact ⟨_, k, Z.top.1 h6, (ents_congr c' h7).trans he, hk, hk2⟩

theorem remove_fixup_spec {n : Nat} (h : Z s g S lc t m) (htr : t.isRed = false) (ht : t.RB n) (hc : CB lc (n + 1)) :
    WP (remove_fixup S.loc t.ptr (lptr S.up lc)) s fun _ s' =>
      ∃ t' k, Z s' g S [] t' m ∧ t'.ents = (plug t lc).ents ∧ t'.RB k ∧ t'.isRed = false := by
  unfold remove_fixup
  refine WP.bind (WP.get ?_)
  exact removeFixLoop_spec (s.next + 1) (by have := h.length_lt; rw [h.next]; omega) h htr ht hc

end
end Dom
end R53
