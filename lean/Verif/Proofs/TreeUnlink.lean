import Verif.Proofs.TreeFix
/-!
# Taking a node out of its level
-/
namespace R53
namespace Dom
variable {T : Type}

/-- the cells on a way down that starts below the node at `par` -/
def cellsP (par hp : Ptr) : List (LF T) → Multiset (Cell T)
  | [] => 0
  | f :: c => {f.cell false (lptr par c) hp} + cells f.addr true f.dn + cells f.addr false f.sib + cellsP par f.addr c

theorem cellsL_append (up hp : Ptr) (ps : List (LF T)) (f : LF T) (c : List (LF T)) :
    cellsL up hp (ps ++ f :: c) = cellsP f.addr hp ps + cellsL up (rptr hp ps) (f :: c) := by
  induction ps generalizing hp with
  | nil => simp [cellsP, rptr]
  | cons f2 ps ih =>
    have h1 : lptr up (ps ++ f :: c) = lptr f.addr ps := by cases ps <;> rfl
    have h2 : (ps ++ f :: c).isEmpty = false := by cases ps <;> rfl
    simp only [List.cons_append, cellsL, cellsP, rptr, h1, h2]
    rw [ih]
    simp only [cellsL]
    abel

theorem rptr_append (hp : Ptr) (ps : List (LF T)) (c : List (LF T)) : rptr hp (ps ++ c) = rptr (rptr hp ps) c := by
  induction ps generalizing hp with
  | nil => rfl
  | cons f ps ih => exact ih f.addr

theorem plug_append (t : Tr T) (ps c : List (LF T)) : plug t (ps ++ c) = plug (plug t ps) c := by
  induction ps generalizing t with
  | nil => rfl
  | cons f ps ih => exact ih (f.fill t)

theorem plug_ptr (t : Tr T) (lc : List (LF T)) : (plug t lc).ptr = rptr t.ptr lc := by
  induction lc generalizing t with
  | nil => rfl
  | cons f c ih => rw [plug, ih, LF.fill_ptr]; rfl

/-- what lies around a place: everything before and after it in the level -/
def entsL : List (LF T) → List (Info T × Tr T)
  | [] => []
  | .L _ _ _ :: c => entsL c
  | .R i l d :: c => entsL c ++ l.ents ++ [({ i with red := false }, d)]
def entsR : List (LF T) → List (Info T × Tr T)
  | [] => []
  | .L i d r :: c => ({ i with red := false }, d) :: r.ents ++ entsR c
  | .R _ _ _ :: c => entsR c

theorem plug_ents (t : Tr T) (lc : List (LF T)) : (plug t lc).ents = entsL lc ++ t.ents ++ entsR lc := by
  induction lc generalizing t with
  | nil => simp [plug, entsL, entsR]
  | cons f c ih => rw [plug, ih]; cases f <;> simp [LF.fill, Tr.ents, entsL, entsR]

theorem entsL_append (ps c : List (LF T)) : entsL (ps ++ c) = entsL c ++ entsL ps := by
  induction ps with
  | nil => simp [entsL]
  | cons f ps ih => cases f <;> simp [entsL, ih]
theorem entsR_append (ps c : List (LF T)) : entsR (ps ++ c) = entsR ps ++ entsR c := by
  induction ps with
  | nil => simp [entsR]
  | cons f ps ih => cases f <;> simp [entsR, ih]

theorem plug_RB_inv {lc : List (LF T)} {t : Tr T} {k : Nat} (h : (plug t lc).RB k) (hb : (plug t lc).isRed = false) :
    ∃ n, t.RB n ∧ CB lc n ∧ (t.isRed = true → ∃ f c, lc = f :: c ∧ f.red = false) := by
  induction lc generalizing t with
  | nil => exact ⟨k, h, trivial, fun e => by rw [show t.isRed = false from hb] at e; cases e⟩
  | cons f c ih =>
    obtain ⟨n, h1, h2, h3⟩ := ih h hb
    cases f with
    | L i d r =>
      rcases h1 with ⟨hi, ht, hr, ht2, hr2⟩ | ⟨hi, m, rfl, ht2, hr2⟩
      · exact ⟨n, ht2, ⟨hr2, fun _ => ⟨hr, h3 hi⟩, by rw [show LF.red (.L i d r) = true from hi]; exact h2⟩, fun e => by rw [ht] at e; cases e⟩
      · exact ⟨m, ht2, ⟨hr2, (fun e => by rw [show LF.red (.L i d r) = false from hi] at e; cases e),
          by rw [show LF.red (.L i d r) = false from hi]; exact h2⟩, fun _ => ⟨_, _, rfl, hi⟩⟩
    | R i l d =>
      rcases h1 with ⟨hi, hr, ht, hr2, ht2⟩ | ⟨hi, m, rfl, hr2, ht2⟩
      · exact ⟨n, ht2, ⟨hr2, fun _ => ⟨hr, h3 hi⟩, by rw [show LF.red (.R i l d) = true from hi]; exact h2⟩, fun e => by rw [ht] at e; cases e⟩
      · exact ⟨m, ht2, ⟨hr2, (fun e => by rw [show LF.red (.R i l d) = false from hi] at e; cases e),
          by rw [show LF.red (.R i l d) = false from hi]; exact h2⟩, fun _ => ⟨_, _, rfl, hi⟩⟩

theorem CB_swap {ps c : List (LF T)} {f f' : LF T} {n : Nat} (hr : f'.red = f.red) (hs : f'.sib = f.sib) (h : CB (ps ++ f :: c) n) :
    CB (ps ++ f' :: c) n := by
  induction ps generalizing n with
  | nil => simp only [List.nil_append, CB, hr, hs] at *; exact h
  | cons f2 ps ih =>
    obtain ⟨h1, h2, h3⟩ := h
    refine ⟨h1, fun e => ?_, ih h3⟩
    obtain ⟨h4, f3, c3, e3, h5⟩ := h2 e
    refine ⟨h4, ?_⟩
    cases ps with
    | nil => cases e3; exact ⟨f', c, rfl, hr.trans h5⟩
    | cons f4 ps => cases e3; exact ⟨_, _, rfl, h5⟩

def Slot.apart (S : Slot T) (p : Ptr) : Prop :=
  match S with
  | .root => True
  | .down _ _ n => n.left ≠ p ∧ n.right ≠ p

section
variable {s : Dom T} {g : Nat × Nat} {S : Slot T} {lc c : List (LF T)} {t : Tr T} {m : Multiset (Cell T)} {i j : Info T} {l d r : Tr T}
variable {fs : List (Cell T)} {ts : List (Ptr × Bool × Tr T)}

theorem Hold.drop {rt : Ptr} {m1 m2 : Multiset (Cell T)} (h : Hold s rt g (m1 + m2)) : Hold s rt g m1 := by
  refine ⟨h.root, h.next, h.len, ?_, fun c hc => h.cell c (Multiset.mem_add.2 (.inl hc)), fun c hc => h.bound c (Multiset.mem_add.2 (.inl hc)), h.pos⟩
  have hn := h.nodup
  rw [Multiset.map_add, Multiset.nodup_add] at hn
  exact hn.1

theorem H.drop {q : Ptr} {fs' : List (Cell T)} (h : H s g S q (fs ++ fs') ts m) : H s g S q fs ts m := by
  unfold H at *
  have e : listOf (fs ++ fs') = listOf fs + listOf fs' := by simp [listOf]
  rw [e] at h
  exact Hold.drop (m2 := listOf fs') (Eq.mp (congrArg (Hold s _ g) (by abel)) h)

theorem Slot.up_nz {q : Ptr} {rt p : Ptr} {n : Node T} (h : H s g (.down rt p n) q fs ts m) : p ≠ 0 := by
  have h3 : H s g .root rt ((p, { n with down := q }) :: fs) ts m := h.conv rfl (by simp only [Slot.cells, listOf_cons]; abel)
  exact h3.nz 0 rfl

/-- `connect_child` at a place -/
theorem connect_child_spec {cur old new : Ptr} {k k' : Nat} {nc no : Node T} (h : H s g S (rptr old lc) fs ts (cellsL S.up old lc + m))
    (hk : fs[k]? = some (cur, nc)) (hp : nc.parent = lptr S.up lc) (hk' : fs[k']? = some (old, no)) (hS : S.apart old)
    {Q : Unit → Dom T → Prop} (hq : ∀ s', H s' g S (rptr new lc) fs ts (cellsL S.up new lc + m) → Q () s') :
    WP (connect_child .root cur old new) s Q := by
  unfold connect_child
  refine WP.bind (h.parent k hk ?_)
  rw [hp]
  match lc, h with
  | [], h =>
    cases S with
    | root =>
      refine WP.pos rfl ?_
      refine WP.mono (h.store new fun s' h' => hq s' h') fun _ _ x => x
    | down rt p n =>
      refine WP.neg (Slot.up_nz h) ?_
      have h3 : H s g .root rt ((p, { n with down := old }) :: fs) ts (cellsL p old ([] : List (LF T)) + m) := h.conv rfl (by
        simp only [Slot.cells, listOf_cons, rptr]; unfold Slot.up; abel)
      refine WP.bind (h3.left 0 rfl ?_)
      refine WP.neg hS.1 ?_
      refine WP.bind (h3.right 0 rfl ?_)
      refine WP.neg hS.2 ?_
      refine WP.mono (h.store new fun s' h' => hq s' h') fun _ _ x => x
  | .L x xd xr :: c, h =>
    have h3 : H s g S (rptr x.addr c) ((x.addr, Info.node x c.isEmpty old xr.ptr (lptr S.up c) xd.ptr) :: fs) ts
        (cells x.addr true xd + cells x.addr false xr + cellsL S.up x.addr c + m) := h.conv rfl (by
      simp only [listOf_cons, rptr, cellsL, LF.addr, LF.info, LF.cell, LF.dn, LF.sib]; abel)
    refine WP.neg (h3.nz 0 rfl) ?_
    refine WP.bind (h3.left 0 rfl ?_)
    refine WP.pos rfl ?_
    refine h3.upd 0 rfl _ fun s' h' => hq s' (h'.conv rfl ?_)
    simp only [listOf_cons, rptr, cellsL, LF.addr, LF.info, LF.cell, LF.dn, LF.sib, List.set_cons_zero, Info.node]; abel
  | .R x xl xd :: c, h =>
    have h3 : H s g S (rptr x.addr c) ((x.addr, Info.node x c.isEmpty xl.ptr old (lptr S.up c) xd.ptr) :: fs) ((x.addr, false, xl) :: ts)
        (cells x.addr true xd + cellsL S.up x.addr c + m) := h.conv rfl (by
      simp only [listOf_cons, treesOf_cons, rptr, cellsL, LF.addr, LF.info, LF.cell, LF.dn, LF.sib]; abel)
    refine WP.neg (h3.nz 0 rfl) ?_
    refine WP.bind (h3.left 0 rfl ?_)
    refine WP.neg (h3.ne_tree (k' + 1) 0 (t := (x.addr, false, xl)) (by simpa using hk') rfl).symm ?_
    refine WP.bind (h3.right 0 rfl ?_)
    refine WP.pos rfl ?_
    refine h3.upd 0 rfl _ fun s' h' => hq s' (h'.conv rfl ?_)
    simp only [listOf_cons, treesOf_cons, rptr, cellsL, LF.addr, LF.info, LF.cell, LF.dn, LF.sib, List.set_cons_zero, Info.node]; abel

/-- the second half of `unlink`: a node with at most one child is replaced by it, and `fix` repairs the colours -/
def unlink2 (fix : Loc → Ptr → Ptr → St (Dom T) Unit) (node up : Ptr) : St (Dom T) Unit := do
  let r ← right node
  let child ← (if r ≠ 0 then pure r else left node : St (Dom T) Ptr)
  connect_child .root node node child
  (if child ≠ 0 then do
    set_parent child (← parent node)
    let cp ← parent child
    if ← (if cp = 0 then pure true else do pure (decide ((← down cp) = child))) then
      set_subtree_root child (← is_subtree_root node)
    else pure ()
  else pure () : St (Dom T) Unit)
  if ← is_black node then do
    if ← (if child ≠ 0 then is_red child else pure false) then set_color child .Black
    else fix (if up ≠ 0 then .down up else .root) child (← parent node)
  else pure ()

/-- `fix` repairs the colours of a level in which the way up has at most `B` steps -/
def Repairs (B : Nat) (fix : Loc → Ptr → Ptr → St (Dom T) Unit) : Prop :=
  ∀ {s : Dom T} {g : Nat × Nat} {S : Slot T} {lc : List (LF T)} {t : Tr T} {m : Multiset (Cell T)} {n : Nat}, lc.length ≤ B →
    Z s g S lc t m → t.isRed = false → t.RB n → CB lc (n + 1) →
    WP (fix S.loc t.ptr (lptr S.up lc)) s fun _ s' => ∃ t' k, Z s' g S [] t' m ∧ t'.ents = (plug t lc).ents ∧ t'.RB k ∧ t'.isRed = false

theorem unlink2_spec {child : Tr T} {par lp rp dp : Ptr} {n B : Nat} {fix : Loc → Ptr → Ptr → St (Dom T) Unit} (hfix : Repairs B fix) (hB : lc.length ≤ B)
    (h : H s g S (rptr i.addr lc) [(i.addr, Info.node i lc.isEmpty lp rp (lptr S.up lc) dp)] [(par, false, child)] (cellsL S.up i.addr lc + m))
    (hch : child.ptr = if rp ≠ 0 then rp else lp) (hS : S.apart i.addr)
    (hi : (i.red = true → child.isRed = false ∧ child.RB n ∧ ∃ f c, lc = f :: c ∧ f.red = false) ∧
      (i.red = false → ∃ k, n = k + 1 ∧ child.RB k)) (hc : CB lc n) :
    WP (unlink2 fix i.addr S.up) s fun _ s' =>
      ∃ t' k, Z s' g S [] t' m ∧ t'.ents = (plug child lc).ents ∧ t'.RB k ∧ t'.isRed = false := by
  unfold unlink2
  refine WP.bind (h.right 0 rfl ?_)
  have hchild : WP (if rp ≠ 0 then pure rp else left i.addr : St (Dom T) Ptr) s fun q s' => q = child.ptr ∧ s' = s := by
    by_cases hz : rp = 0
    · refine WP.neg (by simpa using hz) (h.left 0 rfl ⟨?_, rfl⟩)
      rw [hch, hz]; simp; rfl
    · exact WP.pos hz (WP.pure ⟨by rw [hch, if_pos hz], rfl⟩)
  refine WP.bind (hchild.mono fun q s' hx => ?_)
  obtain ⟨rfl, rfl⟩ := hx
  refine WP.bind (connect_child_spec (k := 0) (k' := 0) h rfl rfl rfl hS fun s1 h1 => ?_)
  -- the new parent of the child
  have step : WP (if child.ptr ≠ 0 then do
      set_parent child.ptr (← parent i.addr)
      let cp ← parent child.ptr
      if ← (if cp = 0 then pure true else do pure (decide ((← down cp) = child.ptr))) then
        set_subtree_root child.ptr (← is_subtree_root i.addr)
      else pure ()
    else pure () : St (Dom T) Unit) s1 fun _ s2 =>
      H s2 g S (rptr child.ptr lc) [(i.addr, Info.node i lc.isEmpty lp rp (lptr S.up lc) dp)] [(lptr S.up lc, lc.isEmpty, child)]
        (cellsL S.up child.ptr lc + m) := by
    cases child with
    | nil => exact WP.neg (by simp [Tr.ptr]) (WP.pure (h1.conv rfl (by simp [cells])))
    | node j a dj b =>
      have h2 : H s1 g S (rptr j.addr lc) [(j.addr, Info.node j false a.ptr b.ptr par dj.ptr),
          (i.addr, Info.node i lc.isEmpty lp rp (lptr S.up lc) dp)] []
          (cells j.addr true dj + cells j.addr false a + cells j.addr false b + cellsL S.up j.addr lc + m) := h1.conv rfl (by
        simp only [listOf_cons, treesOf_cons, cells, Tr.ptr, treesOf_nil, listOf_nil]; abel)
      refine WP.pos (h2.nz 0 rfl) ?_
      refine WP.bind (h2.parent 1 rfl ?_)
      refine WP.bind (h2.upd 0 rfl _ fun s3 h3 => ?_)
      refine WP.bind (h3.parent 0 rfl ?_)
      match lc, h3 with
      | [], h3 =>
        refine WP.bind ?_
        have hb : WP (if S.up = 0 then pure true else do pure (decide ((← down S.up) = j.addr)) : St (Dom T) Bool) s3 fun x s' => x = true ∧ s' = s3 := by
          cases S with
          | root => exact WP.pos rfl (WP.pure ⟨rfl, rfl⟩)
          | down rt p n =>
            refine WP.neg (Slot.up_nz h3) ?_
            have := h3.load (Q := fun q s' => q = j.addr ∧ s' = s3) ⟨rfl, rfl⟩
            refine WP.bind (WP.mono this fun q s' hx => ?_)
            exact WP.pure ⟨by simp [hx.1], hx.2⟩
        refine WP.mono hb fun x s' hx => ?_
        obtain ⟨rfl, rfl⟩ := hx
        refine WP.pos rfl ?_
        refine WP.bind (h3.subroot 1 rfl ?_)
        refine h3.upd 0 rfl _ fun s4 h4 => h4.conv rfl ?_
        simp only [listOf_cons, treesOf_cons, cells, Tr.ptr, treesOf_nil, listOf_nil, List.set_cons_zero, List.set_cons_succ, Info.node,
          mkFlag_set_subtree_root, mkFlag_is_subtree_root, List.isEmpty_nil]
        abel
      | f :: c, h3 =>
        have h5 : H s3 g S (rptr f.addr c) [f.cell c.isEmpty (lptr S.up c) j.addr, (j.addr, Info.node j false a.ptr b.ptr f.addr dj.ptr),
            (i.addr, Info.node i false lp rp f.addr dp)] [(f.addr, true, f.dn)]
            (cells j.addr true dj + cells j.addr false a + cells j.addr false b + cells f.addr false f.sib + cellsL S.up f.addr c + m) := h3.conv rfl (by
          simp only [listOf_cons, treesOf_cons, treesOf_nil, listOf_nil, List.set_cons_zero, Info.node, cellsL, rptr, List.isEmpty_cons, lptr]; abel)
        have hf : f.addr ≠ 0 := by cases f <;> exact h5.nz 0 rfl
        have hd : j.addr ≠ f.dn.ptr := h5.ne_tree 1 0 (t := (f.addr, true, f.dn)) rfl rfl
        refine WP.bind ?_
        refine WP.neg hf ?_
        have hdn : WP (Dom.down f.addr) s3 fun q s' => q = f.dn.ptr ∧ s' = s3 := by
          cases f <;> exact h5.down 0 rfl ⟨rfl, rfl⟩
        refine WP.bind (hdn.mono fun q s' hx => ?_)
        obtain ⟨rfl, rfl⟩ := hx
        refine WP.pure ?_
        refine WP.neg ?_ (WP.pure (h3.conv rfl ?_))
        · simp only [decide_eq_true_eq]; exact fun e => hd e.symm
        · simp only [listOf_cons, treesOf_cons, cells, Tr.ptr, treesOf_nil, listOf_nil, List.set_cons_zero, List.set_cons_succ, Info.node,
            List.isEmpty_cons]
          abel
  refine WP.bind (step.mono fun _ s2 h2 => ?_)
  have hz : Z s2 g S lc child m := H.drop (fs := []) h2
  -- with the detached node kept
  have hz2 : Z s2 g S lc child ({(i.addr, Info.node i lc.isEmpty lp rp (lptr S.up lc) dp)} + m) := h2.conv rfl (by
    simp only [listOf_cons, treesOf_cons, treesOf_nil, listOf_nil]; abel)
  refine WP.bind (WP.bind (WP.bind (h2.color 0 rfl ?_)))
  simp only [Info.node, mkFlag_get_color]
  refine WP.pure (WP.pure ?_)
  cases hir : i.red with
  | true =>
    refine WP.neg (by simp) (WP.pure ?_)
    obtain ⟨h3, h4, f, c, e, h5⟩ := hi.1 hir
    obtain ⟨k, hk, hk2⟩ := plug_RB h4 hc (fun e => by rw [h3] at e; cases e) (.inr h3)
    exact ⟨_, k, Z.top.1 hz, rfl, hk, hk2⟩
  | false =>
    refine WP.pos (by simp) ?_
    obtain ⟨k, rfl, h4⟩ := hi.2 hir
    have hred : WP (if child.ptr ≠ 0 then Dom.is_red child.ptr else pure false) s2 fun b s' => b = child.isRed ∧ s' = s2 := by
      cases child with
      | nil => exact WP.neg (by simp [Tr.ptr]) (WP.pure ⟨rfl, rfl⟩)
      | node j a dj b => exact WP.pos hz.nz (hz.is_red ⟨rfl, rfl⟩)
    refine WP.bind (hred.mono fun x s' hx => ?_)
    obtain ⟨rfl, rfl⟩ := hx
    cases hcr : child.isRed with
    | true =>
      refine WP.pos rfl ?_
      cases child with
      | nil => cases hcr
      | node j a dj b =>
        refine hz.set_color _ fun s3 h3 => ?_
        simp only [Tr.isRed] at hcr
        simp only [Tr.RB, hcr, true_and, Bool.true_eq_false, false_and, or_false] at h4
        have h6 : (Tr.node { j with red := decide (Color.Black = .Red) } a dj b).RB (k + 1) := .inr ⟨rfl, k, rfl, h4.2.2.1, h4.2.2.2⟩
        obtain ⟨k', hk, hk2⟩ := plug_RB h6 hc (fun e => by cases e) (.inr rfl)
        exact ⟨_, k', Z.top.1 h3, ents_congr lc (by simp [Tr.ents]), hk, hk2⟩
    | false =>
      refine WP.neg (by simp) ?_
      refine WP.bind (h2.parent 0 rfl ?_)
      have hloc : (if S.up ≠ 0 then Loc.down S.up else Loc.root) = S.loc := by
        cases S with
        | root => rfl
        | down rt p n => rw [if_pos (show (Slot.down rt p n).up ≠ 0 from Slot.up_nz h2)]; rfl
      rw [hloc]
      refine (hfix hB hz2 hcr h4 hc).mono fun _ s3 h3 => ?_
      obtain ⟨t', k', h5, h6, h7, h8⟩ := h3
      refine ⟨t', k', ?_, h6, h7, h8⟩
      refine H.drop (fs := []) (fs' := [(i.addr, Info.node i lc.isEmpty lp rp (lptr S.up lc) dp)]) ?_
      exact h5.conv rfl (by simp only [listOf_cons, treesOf_cons, treesOf_nil, listOf_nil, List.nil_append]; abel)

/-- all steps of a way down go right -/
def AllR (ps : List (LF T)) : Prop := ∀ f ∈ ps, ∃ i l d, f = .R i l d

theorem rightMostLoop_spec : ∀ (t : Tr T) {lc : List (LF T)} {fuel : Nat}, t ≠ .nil → Z s g S lc t m → t.height ≤ fuel →
    ∃ ps j a dj, t = plug (.node j a dj .nil) ps ∧ AllR ps ∧ rightMostLoop fuel t.ptr s = (.ok j.addr, s) := by
  intro t
  induction t with
  | nil => intro lc fuel hn; exact absurd rfl hn
  | node i l d r _ _ ihr =>
    intro lc fuel _ h hf
    simp only [Tr.height] at hf
    obtain ⟨fuel, rfl⟩ : ∃ k, fuel = k + 1 := ⟨fuel - 1, by omega⟩
    have h1 := h.right (Q := fun q s' => q = r.ptr ∧ s' = s) ⟨rfl, rfl⟩
    obtain ⟨q, s', e, rfl, rfl⟩ := h1
    have e2 : rightMostLoop (fuel + 1) (Tr.node i l d r).ptr s' = (if r.ptr = 0 then pure i.addr else rightMostLoop fuel r.ptr : St (Dom T) Ptr) s' := by
      show rightMostLoop (fuel + 1) i.addr s' = _
      rw [rightMostLoop]; exact St.bind_ok e
    rw [e2]
    have h2 := Z.right_down.1 h
    by_cases hr : r = .nil
    · subst hr
      exact ⟨[], i, l, d, rfl, (by intro f hf; cases hf), by simp [Tr.ptr]⟩
    · obtain ⟨ps, j, a, dj, e3, h3, h4⟩ := ihr (fuel := fuel) hr h2 (by omega)
      refine ⟨ps ++ [.R i l d], j, a, dj, ?_, ?_, ?_⟩
      · rw [plug_append, ← e3]; rfl
      · intro f hf
        rcases List.mem_append.1 hf with hf | hf
        · exact h3 f hf
        · rw [List.mem_singleton.1 hf]; exact ⟨_, _, _, rfl⟩
      · have hz : r.ptr ≠ 0 := by
          cases r with
          | nil => exact absurd rfl hr
          | node => exact h2.nz
        rw [if_neg hz]; exact h4

/-- changing the parent of the top of a way down -/
theorem adopt_path {q par p : Ptr} (ps : List (LF T)) (hne : ps ≠ []) :
    ∀ {hp : Ptr} {m : Multiset (Cell T)}, H s g S q fs ts (cellsP par hp ps + m) → ∀ {Q : Unit → Dom T → Prop},
    (∀ s', H s' g S q fs ts (cellsP p hp ps + m) → Q () s') → WP (adopt (rptr hp ps) p) s Q := by
  induction ps with
  | nil => exact absurd rfl hne
  | cons f ps ih =>
    intro hp m h Q hq
    cases ps with
    | nil =>
      have h1 : H s g S q (f.cell false par hp :: fs) ts (cells f.addr true f.dn + cells f.addr false f.sib + m) := h.conv rfl (by
        simp only [cellsP, listOf_cons, lptr]; abel)
      unfold adopt
      cases f with
      | L x xd xr =>
        refine WP.pos (h1.nz 0 rfl) ?_
        refine h1.upd 0 rfl _ fun s' h' => hq s' (h'.conv rfl ?_)
        simp only [cellsP, listOf_cons, lptr, LF.cell, List.set_cons_zero, Info.node]; abel
      | R x xl xd =>
        refine WP.pos (h1.nz 0 rfl) ?_
        refine h1.upd 0 rfl _ fun s' h' => hq s' (h'.conv rfl ?_)
        simp only [cellsP, listOf_cons, lptr, LF.cell, List.set_cons_zero, Info.node]; abel
    | cons f2 ps =>
      refine ih (by simp) (hp := f.addr) (m := {f.cell false f2.addr hp} + cells f.addr true f.dn + cells f.addr false f.sib + m) ?_ fun s' h' => hq s' ?_
      · refine h.conv rfl ?_
        rw [cellsP]
        simp only [lptr]
        abel
      · refine h'.conv rfl ?_
        rw [cellsP.eq_2 p hp]
        simp only [lptr]
        abel

/-- `exchange`, the lower node being the direct left child -/
theorem exchange_adj {a dj : Tr T} (h : Z s g S lc (.node i (.node j a dj .nil) d r) m) (hS : S.apart i.addr) :
    WP (exchange i.addr j.addr .root) s fun _ s' =>
      H s' g S (rptr i.addr (.L { j with red := i.red } dj r :: lc))
        [(i.addr, Info.node { i with red := j.red } false a.ptr 0 j.addr d.ptr)] [(j.addr, false, a)]
        (cellsL S.up i.addr (.L { j with red := i.red } dj r :: lc) + (cells i.addr true d + m)) := by
  have h0 : H s g S (rptr i.addr lc) [(i.addr, Info.node i lc.isEmpty j.addr r.ptr (lptr S.up lc) d.ptr),
      (j.addr, Info.node j false a.ptr 0 i.addr dj.ptr)] [(i.addr, false, r), (j.addr, false, a)]
      (cellsL S.up i.addr lc + (cells i.addr true d + cells j.addr true dj + m)) := H.conv (show H _ _ _ _ _ _ _ from h) rfl (by
    simp only [listOf_cons, treesOf_cons, treesOf_nil, listOf_nil, cells, Tr.ptr]; abel)
  have hij : i.addr ≠ j.addr := h0.ne 0 1 rfl rfl (by decide)
  have hjr : j.addr ≠ r.ptr := h0.ne_tree 1 0 (t := (i.addr, false, r)) rfl rfl
  unfold exchange swapLeft swapRight swapParent swapFlags relinkSelf
  refine WP.bind (WP.bind (h0.left 0 rfl ?_))
  refine WP.bind (h0.left 1 rfl ?_)
  refine WP.bind (h0.upd 0 rfl _ fun s1 h1 => ?_)
  refine WP.bind (h1.upd 1 rfl _ fun s2 h2 => ?_)
  refine WP.bind (h2.left 1 rfl ?_)
  refine WP.pos rfl ?_
  refine h2.upd 1 rfl _ fun s3 h3 => ?_
  refine WP.bind (WP.bind (h3.right 0 rfl ?_))
  refine WP.bind (h3.right 1 rfl ?_)
  refine WP.bind (h3.upd 0 rfl _ fun s4 h4 => ?_)
  refine WP.bind (h4.upd 1 rfl _ fun s5 h5 => ?_)
  refine WP.bind (h5.right 1 rfl ?_)
  refine WP.neg hjr.symm (WP.pure ?_)
  refine WP.bind (WP.bind (h5.parent 0 rfl ?_))
  refine WP.bind (h5.parent 1 rfl ?_)
  refine WP.bind (h5.upd 0 rfl _ fun s6 h6 => ?_)
  refine WP.bind (h6.upd 1 rfl _ fun s7 h7 => ?_)
  refine WP.bind (h7.parent 0 rfl ?_)
  refine WP.pos rfl ?_
  refine h7.upd 0 rfl _ fun s8 h8 => ?_
  refine WP.bind (WP.bind (h8.color 0 rfl ?_))
  refine WP.bind (h8.color 1 rfl ?_)
  refine WP.bind (h8.upd 0 rfl _ fun s9 h9 => ?_)
  refine WP.bind (h9.upd 1 rfl _ fun s10 h10 => ?_)
  refine WP.bind (h10.subroot 0 rfl ?_)
  refine WP.bind (h10.subroot 1 rfl ?_)
  refine WP.bind (h10.upd 0 rfl _ fun s11 h11 => ?_)
  refine h11.upd 1 rfl _ fun s12 h12 => ?_
  have e1 : decide ((if i.red = true then Color.Red else Color.Black) = Color.Red) = i.red := by cases h : i.red <;> simp
  have e2 : decide ((if j.red = true then Color.Red else Color.Black) = Color.Red) = j.red := by cases h : j.red <;> simp
  simp only [List.set_cons_zero, List.set_cons_succ, Info.node, mkFlag_get_color, mkFlag_set_color, mkFlag_is_subtree_root,
    mkFlag_set_subtree_root, e1, e2] at h12
  refine WP.bind (connect_child_spec (k := 1) (k' := 0) h12 rfl rfl rfl hS fun s13 h13 => ?_)
  refine WP.bind (WP.bind (h13.parent 0 rfl ?_))
  refine WP.bind (h13.left 1 rfl ?_)
  refine WP.neg hij ?_
  refine WP.bind (h13.right 1 rfl ?_)
  refine WP.neg hjr.symm (WP.pure ?_)
  refine WP.bind (h13.right 1 rfl ?_)
  refine WP.bind (h13.adopt 0 rfl _ fun s14 h14 => ?_)
  refine WP.bind (h14.left 1 rfl ?_)
  unfold adopt
  refine WP.pos (h14.nz 0 rfl) ?_
  refine h14.upd 0 rfl _ fun s15 h15 => ?_
  refine h15.conv rfl ?_
  simp only [listOf_cons, treesOf_cons, treesOf_nil, listOf_nil, cells, Tr.ptr, List.set_cons_zero, cellsL, LF.cell, LF.addr, LF.info, LF.dn, LF.sib,
    Info.node, rptr]
  abel

/-- `exchange` with a node further down -/
theorem exchange_far {a dj kl kd : Tr T} {k : Info T} {ps : List (LF T)} (h : Z s g S lc (.node i (plug (.node j a dj .nil) (.R k kl kd :: ps)) d r) m)
    (hS : S.apart i.addr) :
    WP (exchange i.addr j.addr .root) s fun _ s' =>
      H s' g S (rptr i.addr (.R k kl kd :: ps ++ .L { j with red := i.red } dj r :: lc))
        [(i.addr, Info.node { i with red := j.red } false a.ptr 0 k.addr d.ptr)] [(j.addr, false, a)]
        (cellsL S.up i.addr (.R k kl kd :: ps ++ .L { j with red := i.red } dj r :: lc) + (cells i.addr true d + m)) := by
  -- the place of the lower node
  have hz : Z s g S ((.R k kl kd :: ps) ++ .L i d r :: lc) (.node j a dj .nil) m := by
    rw [Z.top, plug_append, ← Z.top (lc := .L i d r :: lc), ← Z.left_down]; exact h
  have h0 : H s g S (rptr i.addr lc) [(i.addr, Info.node i lc.isEmpty (rptr k.addr ps) r.ptr (lptr S.up lc) d.ptr),
      (j.addr, Info.node j false a.ptr 0 k.addr dj.ptr), (k.addr, Info.node k false kl.ptr j.addr (lptr i.addr ps) kd.ptr)]
      [(i.addr, false, r), (j.addr, false, a), (k.addr, false, kl)]
      (cellsL S.up i.addr lc + (cellsP i.addr k.addr ps + cells i.addr true d + cells j.addr true dj + cells k.addr true kd + m)) := by
    refine H.conv (show H _ _ _ _ _ _ _ from hz) (by rw [rptr_append]; rfl) ?_
    rw [cellsL_append, rptr_append]
    simp only [listOf_cons, treesOf_cons, treesOf_nil, listOf_nil, cells, Tr.ptr, cellsL, cellsP, rptr, LF.cell, LF.addr, LF.info, LF.dn, LF.sib, lptr,
      List.cons_append, List.isEmpty_cons]
    abel
  have hij : i.addr ≠ j.addr := h0.ne 0 1 rfl rfl (by decide)
  have hik : i.addr ≠ k.addr := h0.ne 0 2 rfl rfl (by decide)
  have hjr : j.addr ≠ r.ptr := h0.ne_tree 1 0 (t := (i.addr, false, r)) rfl rfl
  have hjkl : j.addr ≠ kl.ptr := h0.ne_tree 1 2 (t := (k.addr, false, kl)) rfl rfl
  have hjx : j.addr ≠ rptr k.addr ps := by
    cases ps with
    | nil => exact h0.ne 1 2 rfl rfl (by decide)
    | cons f ps =>
      have h3 : Hold s (S.rt (rptr i.addr lc)) g (({(j.addr, Info.node j false a.ptr 0 k.addr dj.ptr)} + (S.cells (rptr i.addr lc) +
          {(i.addr, Info.node i lc.isEmpty (rptr k.addr (f :: ps)) r.ptr (lptr S.up lc) d.ptr)} +
          {(k.addr, Info.node k false kl.ptr j.addr (lptr i.addr (f :: ps)) kd.ptr)} + treesOf [(i.addr, false, r), (j.addr, false, a), (k.addr, false, kl)]
          + cellsL S.up i.addr lc + (cells i.addr true d + cells j.addr true dj + cells k.addr true kd + m))) + cellsP i.addr k.addr (f :: ps)) := by
        refine Eq.mp (congrArg (Hold s _ g) ?_) (show Hold _ _ _ _ from h0)
        simp only [listOf_cons, listOf_nil]
        abel
      refine h3.ne_mem (by simp) ?_
      clear h3 h0 hz h hjkl hjr hik hij hS
      generalize i.addr = x
      generalize k.addr = y
      induction ps generalizing f y with
      | nil => cases f <;> simp [cellsP, rptr, LF.cell, LF.addr, LF.info]
      | cons f2 ps ih =>
        rw [cellsP, Multiset.map_add]
        exact Multiset.mem_add.2 (.inr (ih f2 f.addr))
  unfold exchange swapLeft swapRight swapParent swapFlags relinkSelf
  refine WP.bind (WP.bind (h0.left 0 rfl ?_))
  refine WP.bind (h0.left 1 rfl ?_)
  refine WP.bind (h0.upd 0 rfl _ fun s1 h1 => ?_)
  refine WP.bind (h1.upd 1 rfl _ fun s2 h2 => ?_)
  refine WP.bind (h2.left 1 rfl ?_)
  refine WP.neg hjx.symm (WP.pure ?_)
  refine WP.bind (WP.bind (h2.right 0 rfl ?_))
  refine WP.bind (h2.right 1 rfl ?_)
  refine WP.bind (h2.upd 0 rfl _ fun s4 h4 => ?_)
  refine WP.bind (h4.upd 1 rfl _ fun s5 h5 => ?_)
  refine WP.bind (h5.right 1 rfl ?_)
  refine WP.neg hjr.symm (WP.pure ?_)
  refine WP.bind (WP.bind (h5.parent 0 rfl ?_))
  refine WP.bind (h5.parent 1 rfl ?_)
  refine WP.bind (h5.upd 0 rfl _ fun s6 h6 => ?_)
  refine WP.bind (h6.upd 1 rfl _ fun s7 h7 => ?_)
  refine WP.bind (h7.parent 0 rfl ?_)
  refine WP.neg hik.symm (WP.pure ?_)
  refine WP.bind (WP.bind (h7.color 0 rfl ?_))
  refine WP.bind (h7.color 1 rfl ?_)
  refine WP.bind (h7.upd 0 rfl _ fun s9 h9 => ?_)
  refine WP.bind (h9.upd 1 rfl _ fun s10 h10 => ?_)
  refine WP.bind (h10.subroot 0 rfl ?_)
  refine WP.bind (h10.subroot 1 rfl ?_)
  refine WP.bind (h10.upd 0 rfl _ fun s11 h11 => ?_)
  refine h11.upd 1 rfl _ fun s12 h12 => ?_
  have e1 : decide ((if i.red = true then Color.Red else Color.Black) = Color.Red) = i.red := by cases h : i.red <;> simp
  have e2 : decide ((if j.red = true then Color.Red else Color.Black) = Color.Red) = j.red := by cases h : j.red <;> simp
  simp only [List.set_cons_zero, List.set_cons_succ, Info.node, mkFlag_get_color, mkFlag_set_color, mkFlag_is_subtree_root,
    mkFlag_set_subtree_root, e1, e2] at h12
  refine WP.bind (connect_child_spec (k := 1) (k' := 0) h12 rfl rfl rfl hS fun s13 h13 => ?_)
  refine WP.bind (WP.bind (h13.parent 0 rfl ?_))
  refine WP.bind (h13.left 2 rfl ?_)
  refine WP.neg hjkl.symm ?_
  refine WP.bind (h13.right 2 rfl ?_)
  refine WP.pos rfl ?_
  refine h13.upd 2 rfl _ fun s14 h14 => ?_
  refine WP.bind (h14.right 1 rfl ?_)
  refine WP.bind (h14.adopt 0 rfl _ fun s15 h15 => ?_)
  refine WP.bind (h15.left 1 rfl ?_)
  have h16 : H s15 g S (rptr j.addr lc) [(i.addr, Info.node { i with red := j.red } false a.ptr 0 k.addr d.ptr),
      (j.addr, Info.node { j with red := i.red } lc.isEmpty (rptr k.addr ps) r.ptr (lptr S.up lc) dj.ptr)]
      [(j.addr, false, r), (j.addr, false, a)]
      (cellsP i.addr i.addr (.R k kl kd :: ps) + (cellsL S.up j.addr lc + (cells i.addr true d + cells j.addr true dj + m))) := by
    -- the parent is still the node removed
    refine h15.conv rfl ?_
    simp only [listOf_cons, treesOf_cons, treesOf_nil, listOf_nil, List.set_cons_zero, List.set_cons_succ, cellsP, LF.cell, LF.addr, LF.info, LF.dn, LF.sib,
      Info.node]
    abel
  refine adopt_path (.R k kl kd :: ps) (by simp) h16 fun s17 h17 => ?_
  refine h17.conv (by rw [rptr_append]; rfl) ?_
  rw [cellsL_append, rptr_append]
  simp only [listOf_cons, treesOf_cons, treesOf_nil, listOf_nil, cellsL, rptr, LF.cell, LF.addr, LF.info, LF.dn, LF.sib]
  abel

/-- the first half of `unlink`; `rm` finds the node to change places with -/
def unlink1 (rm : Ptr → St (Dom T) Ptr) (node : Ptr) : St (Dom T) Unit := do
  let l ← left node
  if l ≠ 0 then do
    let r ← right node
    if r ≠ 0 then do
      let right_most ← rm l
      exchange node right_most .root
    else pure ()
  else pure ()

theorem unlink_eq (node up : Ptr) : (unlink node up : St (Dom T) Unit) =
    (do unlink1 (fun l => do let s ← St.get; rightMostLoop (s.next + 1) l) node; unlink2 remove_fixup node up) := rfl

theorem AllR.ents {ps : List (LF T)} (h : AllR ps) : entsR ps = [] := by
  induction ps with
  | nil => rfl
  | cons f ps ih =>
    obtain ⟨i, l, d, rfl⟩ := h f (by simp)
    exact ih fun f hf => h f (by simp [hf])

theorem Tr.ptr_nil_of (h : Z s g S lc t m) (e : t.ptr = 0) : t = .nil := by
  cases t with
  | nil => rfl
  | node => exact absurd e h.nz

theorem length_height (t : Tr T) (lc : List (LF T)) : lc.length + t.height ≤ (plug t lc).height := by
  induction lc generalizing t with
  | nil => simp [plug]
  | cons f c ih =>
    have h1 := ih (f.fill t)
    have h2 : t.height + 1 ≤ (f.fill t).height := by cases f <;> simp only [LF.fill, Tr.height] <;> omega
    simp only [List.length_cons]
    exact Nat.le_trans (by omega) h1

theorem card_cells (p : Ptr) (b : Bool) (t : Tr T) : t.height ≤ (cells p b t).card := by
  induction t generalizing p b with
  | nil => simp [Tr.height]
  | node i l d r ihl _ ihr =>
    have h1 := ihl i.addr false
    have h2 := ihr i.addr false
    simp only [Tr.height, cells, Multiset.card_add, Multiset.card_cons, Multiset.card_singleton] at *
    omega

theorem Z.height_lt (h : Z s g S lc t m) : t.height < g.1 := by
  have h1 := card_lt h.hold
  have h2 := card_cells (lptr S.up lc) lc.isEmpty t
  simp only [Multiset.card_add] at h1
  omega

/-- removal keeps the level a red-black tree and takes out just the one node -/
theorem unlinkWith_spec {k B : Nat} {fix : Loc → Ptr → Ptr → St (Dom T) Unit} {rm : Ptr → St (Dom T) Ptr} (hfix : Repairs B fix)
    (hB : (plug (.node i l d r) lc).height ≤ B) (hrm : ∀ p, ∃ F, l.height ≤ F ∧ rm p s = rightMostLoop F p s) (h : Z s g S lc (.node i l d r) m) (hS : S.apart i.addr)
    (hb : (plug (.node i l d r) lc).RB k) (hr : (plug (.node i l d r) lc).isRed = false) :
    WP (do unlink1 rm i.addr; unlink2 fix i.addr S.up) s fun _ s' =>
      ∃ t' k', Z s' g S [] t' m ∧ t'.ents = entsL lc ++ (l.ents ++ r.ents) ++ entsR lc ∧ t'.RB k' ∧ t'.isRed = false := by
  have hlen : lc.length ≤ B := Nat.le_trans (Nat.le_trans (Nat.le_add_right _ _) (length_height _ lc)) hB
  refine WP.bind ?_
  unfold unlink1
  refine WP.bind (h.left ?_)
  obtain ⟨n, hn, hc, htop⟩ := plug_RB_inv hb hr
  -- at most one child
  have one : ∀ (child : Tr T), ((l = .nil ∧ child = r) ∨ (r = .nil ∧ child = l)) → WP (unlink2 fix i.addr S.up) s fun _ s' =>
      ∃ t' k', Z s' g S [] t' m ∧ t'.ents = entsL lc ++ (l.ents ++ r.ents) ++ entsR lc ∧ t'.RB k' ∧ t'.isRed = false := by
    intro child hch
    have h1 : H s g S (rptr i.addr lc) [(i.addr, Info.node i lc.isEmpty l.ptr r.ptr (lptr S.up lc) d.ptr)] [(i.addr, false, child)]
        (cellsL S.up i.addr lc + (cells i.addr true d + m)) := by
      refine h.focus.conv rfl ?_
      rcases hch with ⟨rfl, rfl⟩ | ⟨rfl, rfl⟩ <;> simp only [listOf_cons, treesOf_cons, treesOf_nil, listOf_nil, cells] <;> abel
    refine (unlink2_spec (n := n) hfix hlen h1 ?_ hS ⟨?_, ?_⟩ hc).mono fun _ s' h2 => ?_
    · rcases hch with ⟨rfl, rfl⟩ | ⟨rfl, rfl⟩
      · by_cases hz : child.ptr = 0
        · rw [hz]; rfl
        · rw [if_pos hz]
      · rw [if_neg (by simp [Tr.ptr])]
    · intro hi
      simp only [Tr.RB, hi, true_and, Bool.true_eq_false, false_and, or_false] at hn
      rcases hch with ⟨rfl, rfl⟩ | ⟨rfl, rfl⟩
      · exact ⟨hn.2.1, hn.2.2.2, htop hi⟩
      · exact ⟨hn.1, hn.2.2.1, htop hi⟩
    · intro hi
      simp only [Tr.RB, hi, true_and, Bool.false_eq_true, false_and, false_or] at hn
      obtain ⟨k, e, h3, h4⟩ := hn
      rcases hch with ⟨rfl, rfl⟩ | ⟨rfl, rfl⟩
      · exact ⟨k, e, h4⟩
      · exact ⟨k, e, h3⟩
    · obtain ⟨t', k', h3, h4, h5, h6⟩ := h2
      refine ⟨t', k', ?_, ?_, h5, h6⟩
      · unfold Z at *
        exact Hold.drop (m2 := cells i.addr true d) (Eq.mp (congrArg (Hold s' _ g) (by abel)) h3)
      · rw [h4, plug_ents]
        rcases hch with ⟨rfl, rfl⟩ | ⟨rfl, rfl⟩ <;> simp [Tr.ents]
  by_cases hlz : l.ptr = 0
  · refine WP.neg (by simpa using hlz) (WP.pure ?_)
    exact one r (.inl ⟨Tr.ptr_nil_of (Z.left_down.1 h) hlz, rfl⟩)
  refine WP.pos hlz ?_
  refine WP.bind (h.right ?_)
  by_cases hrz : r.ptr = 0
  · refine WP.neg (by simpa using hrz) (WP.pure ?_)
    exact one l (.inr ⟨Tr.ptr_nil_of (Z.right_down.1 h) hrz, rfl⟩)
  refine WP.pos hrz ?_
  have hln : l ≠ .nil := fun e => by subst e; exact hlz rfl
  obtain ⟨F, hF, erm⟩ := hrm l.ptr
  obtain ⟨ps, j, a, dj, e, hps, hrun⟩ := rightMostLoop_spec (fuel := F) l hln (Z.left_down.1 h) hF
  rw [← erm] at hrun
  refine WP.bind ⟨_, _, hrun, ?_⟩
  -- the place after the exchange
  have hpl : plug (.node i l d r) lc = plug (.node j a dj .nil) (ps ++ .L i d r :: lc) := by rw [plug_append, ← e]; rfl
  rw [hpl] at hb hr hB
  obtain ⟨n2, hn2, hc2, htop2⟩ := plug_RB_inv hb hr
  have hc3 : CB (ps ++ .L { j with red := i.red } dj r :: lc) n2 := CB_swap (f := .L i d r) rfl rfl hc2
  have key : ∀ s', (H s' g S (rptr i.addr (ps ++ .L { j with red := i.red } dj r :: lc))
        [(i.addr, Info.node { i with red := j.red } (ps ++ .L { j with red := i.red } dj r :: lc).isEmpty a.ptr 0
          (lptr S.up (ps ++ .L { j with red := i.red } dj r :: lc)) d.ptr)] [(j.addr, false, a)]
        (cellsL S.up i.addr (ps ++ .L { j with red := i.red } dj r :: lc) + (cells i.addr true d + m))) →
      WP (unlink2 fix i.addr S.up) s' fun _ s' =>
        ∃ t' k', Z s' g S [] t' m ∧ t'.ents = entsL lc ++ (l.ents ++ r.ents) ++ entsR lc ∧ t'.RB k' ∧ t'.isRed = false := by
    intro s' h1
    refine (unlink2_spec (i := { i with red := j.red }) (n := n2) hfix (by have := length_height (.node j a dj .nil) (ps ++ .L i d r :: lc); simp only [List.length_append, List.length_cons] at this ⊢; omega) h1 ?_ hS ⟨?_, ?_⟩ hc3).mono fun _ s' h2 => ?_
    · simp
    · intro hj
      have hj' : j.red = true := hj
      simp only [Tr.RB, hj', true_and, Bool.true_eq_false, false_and, or_false] at hn2
      refine ⟨hn2.1, hn2.2.2.1, ?_⟩
      obtain ⟨f, c, e2, h4⟩ := htop2 hj'
      cases ps with
      | nil => cases e2; exact ⟨_, _, rfl, h4⟩
      | cons f2 ps => cases e2; exact ⟨_, _, rfl, h4⟩
    · intro hj
      have hj' : j.red = false := hj
      simp only [Tr.RB, hj', true_and, Bool.false_eq_true, false_and, false_or] at hn2
      obtain ⟨k, e, h3, h4⟩ := hn2
      exact ⟨k, e, h3⟩
    · obtain ⟨t', k', h3, h4, h5, h6⟩ := h2
      refine ⟨t', k', ?_, ?_, h5, h6⟩
      · unfold Z at *
        exact Hold.drop (m2 := cells i.addr true d) (Eq.mp (congrArg (Hold s' _ g) (by abel)) h3)
      · rw [h4, plug_ents, entsL_append, entsR_append, e, plug_ents, hps.ents]
        simp [Tr.ents, entsL, entsR]
  match ps, hps, e, key with
  | [], _, e, key =>
    subst e
    exact (exchange_adj h hS).mono fun _ s' h1 => key s' h1
  | f :: ps, hps, e, key =>
    obtain ⟨k, kl, kd, rfl⟩ := hps f (by simp)
    subst e
    refine (exchange_far h hS).mono fun _ s' h1 => key s' ?_
    exact h1

theorem remove_fixup_repairs (B : Nat) : Repairs B (remove_fixup (T := T)) := fun _ h htr ht hc => remove_fixup_spec h htr ht hc

theorem unlink_spec {k : Nat} (h : Z s g S lc (.node i l d r) m) (hS : S.apart i.addr)
    (hb : (plug (.node i l d r) lc).RB k) (hr : (plug (.node i l d r) lc).isRed = false) :
    WP (unlink i.addr S.up) s fun _ s' =>
      ∃ t' k', Z s' g S [] t' m ∧ t'.ents = entsL lc ++ (l.ents ++ r.ents) ++ entsR lc ∧ t'.RB k' ∧ t'.isRed = false := by
  rw [unlink_eq]
  refine unlinkWith_spec (remove_fixup_repairs _) (Nat.le_refl _) (fun p => ⟨s.next + 1, ?_, rfl⟩) h hS hb hr
  have := (Z.left_down.1 h).height_lt
  rw [h.next]; omega

end
end Dom
end R53
