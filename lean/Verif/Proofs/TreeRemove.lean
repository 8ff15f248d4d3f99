import Verif.Proofs.TreeInsert
/-!
# Removal
-/
namespace R53
namespace Dom
variable {T : Type}

section
variable {s : Dom T} {g : Nat × Nat} {lc : List (LF T)} {t : Tr T} {i : Info T} {l d r : Tr T} {rest : List (UF T)}

theorem subtreeRootLoop_spec (fuel : Nat) : ∀ {lc : List (LF T)} {i : Info T} {l d r : Tr T}, W s g rest lc (.node i l d r) → lc.length < fuel →
    WP (subtreeRootLoop fuel i.addr) s fun p s' => s' = s ∧ p = rptr i.addr lc := by
  induction fuel with
  | zero => intro _ _ _ _ _ _ h; omega
  | succ fuel ih =>
    intro lc i l d r h hf
    unfold subtreeRootLoop
    have h0 := Z.focus h
    refine WP.bind (h0.subroot 0 rfl ?_)
    cases lc with
    | nil =>
      refine WP.pos (c := _ = true) (by simp [Info.node, mkFlag_is_subtree_root]) ?_
      exact WP.pure ⟨rfl, rfl⟩
    | cons f c =>
      refine WP.neg (c := _ = true) (by simp [Info.node, mkFlag_is_subtree_root]) ?_
      refine WP.bind (h0.parent 0 rfl ?_)
      have h1 : W s g rest c (f.fill (.node i l d r)) := (Z.up f).1 h
      simp only [List.length_cons] at hf
      cases f with
      | L j dj rj => exact ih (i := j) h1 (by omega)
      | R j lj dj => exact ih (i := j) h1 (by omega)

theorem plug_node (i : Info T) (l d r : Tr T) (lc : List (LF T)) : ∃ j l' d' r', plug (.node i l d r) lc = .node j l' d' r' ∧ j.addr = rptr i.addr lc := by
  induction lc generalizing i l d r with
  | nil => exact ⟨_, _, _, _, rfl, rfl⟩
  | cons f c ih => cases f with
    | L j dj rj => exact ih j _ _ _
    | R j lj dj => exact ih j _ _ _

theorem upper_spec {F : Nat} (hF : lc.length < F) (h : W s g rest lc (.node i l d r)) :
    WP (do let r ← subtreeRootLoop F i.addr; parent r) s fun p s' => s' = s ∧ p = slotUp rest := by
  refine WP.bind ?_
  refine (subtreeRootLoop_spec _ h hF).mono fun p s' hp => ?_
  obtain ⟨rfl, rfl⟩ := hp
  obtain ⟨j, l', d', r', e, ej⟩ := plug_node i l d r lc
  have h1 : W s' g rest [] (plug (.node i l d r) lc) := Z.top.1 h
  rw [e] at h1
  rw [← ej]
  refine Z.parent h1 ⟨rfl, ?_⟩
  rw [← slotOf_up]; rfl

theorem get_upper_node_spec (h : W s g rest lc (.node i l d r)) :
    WP (get_upper_node i.addr) s fun p s' => s' = s ∧ p = slotUp rest := by
  have hlen : lc.length < s.next + 1 := by
    have h1 := Z.length_lt h
    have h2 : s.next = g.1 := congrArg Prod.fst (W.nextlen h).symm
    have h3 : g.1 ≤ s.next := Nat.le_of_eq h2.symm
    omega
  exact upper_spec hlen h

theorem length_bagU (rest : List (UF T)) : rest.length ≤ (bagU rest).card := by
  induction rest with
  | nil => simp
  | cons u rest ih => simp only [bagU, Multiset.card_add, Multiset.card_singleton, List.length_cons]; omega

theorem W.depth_lt (h : W s g rest lc t) : rest.length < g.1 := by
  have h1 := W.size_lt (show W s g [] [] _ from W.top.1 h)
  rw [size_bag [], bag_plugU, Multiset.card_add] at h1
  have := length_bagU rest
  omega

theorem H.subLen {S : Slot T} {q : Ptr} {fs : List (Cell T)} {ts : List (Ptr × Bool × Tr T)} {m : Multiset (Cell T)} {k : Nat}
    (h : H s (g.1, k + 1) S q fs ts m) : s.len = k + 1 ∧ H { s with len := k } (g.1, k) S q fs ts m := by
  refine ⟨h.len, ?_⟩
  unfold H at *
  exact ⟨h.root, h.next, rfl, h.nodup, h.cell, h.bound, h.pos⟩

/-- the part of a tree that stays when some nodes are taken out -/
structure Shrunk (t t' : Tr T) (nm : List Label) (dead : Multiset (Entry T)) : Prop where
  ok : OK t'
  bag : bag [] t = bag [] t' + dead
  none : ∀ e ∈ dead, e.value = none
  above : ∀ e ∈ dead, e.name <:+ nm
  below : ∀ e ∈ dead, ∀ y ∈ Dom.bag [] t, IsSubdomain y.name e.name → y ∈ dead
  stop : ∀ e ∈ Dom.bag [] t', IsSubdomain nm e.name → e.value ≠ Option.none ∨ ∃ y ∈ Dom.bag [] t', IsSubdomain y.name e.name ∧ e.name.length < y.name.length

theorem ents_out {i : Info T} {l d r : Tr T} {lc : List (LF T)} {t' : Tr T} {k : Nat} (h : OK (plug (.node i l d r) lc))
    (he : t'.ents = entsL lc ++ (l.ents ++ r.ents) ++ entsR lc) (hr : t'.RB k) (hb : t'.isRed = false) : OK t' := by
  have hsub : List.Sublist t'.ents (plug (.node i l d r) lc).ents := by
    rw [he, plug_ents, Tr.ents]
    exact ((((List.Sublist.refl _).append ((List.Sublist.refl _).append (List.sublist_cons_self _ _)))).append (List.Sublist.refl _))
  refine ⟨⟨⟨k, hr⟩, hb, h.1.2.2.sublist (hsub.map _)⟩, ?_⟩
  have := h.2
  rw [Tr.SGood_iff] at this ⊢
  exact fun e he => this e (hsub.subset he)

theorem removeLoop_spec (fuel : Nat) : ∀ {s : Dom T} {rest : List (UF T)} {lc : List (LF T)} {i : Info T} {l r : Tr T} {k δ : Nat},
    W s (g.1, k) rest lc (.node i l .nil r) → OK (plugU (plug (.node i l .nil r) lc) rest) → k = (plugU (plug (.node i l .nil r) lc) rest).size + δ →
    i.value = none → rest.length < fuel →
    WP (removeLoop fuel i.addr) s fun _ s' => ∃ t' k' dead, Mem s' (g.1, k') t' ∧ k' = t'.size + δ ∧ i.entry (sufU rest) ∈ dead ∧
      Shrunk (plugU (plug (.node i l .nil r) lc) rest) t' (i.labels ++ sufU rest) dead := by
  induction fuel with
  | zero => intro _ _ _ _ _ _ _ _ _ _ _ _ h; omega
  | succ fuel ih =>
    intro s rest lc i l r k δ h hok hk hv hf
    unfold removeLoop
    refine WP.bind ((get_upper_node_spec h).mono fun up s0 hs0 => ?_)
    obtain ⟨rfl, rfl⟩ := hs0
    have hlev := (OK_plugU hok).1
    obtain ⟨n, hrb⟩ := hlev.1.1
    rw [← slotOf_up]
    refine WP.bind ((unlink_spec h h.apart hrb hlev.1.2.1).mono fun _ s1 h1 => ?_)
    obtain ⟨t', n', z1, e1, rb1, b1⟩ := h1
    rw [slotOf_up]
    refine WP.bind (WP.get ?_)
    -- one entry less
    have okt : OK t' := ents_out hlev e1 rb1 b1
    have okw : OK (plugU t' rest) := (OK_plugU hok).2 _ okt
    have hbag : bag [] (plugU (plug (.node i l .nil r) lc) rest) = bag [] (plugU t' rest) + {i.entry (sufU rest)} := by
      rw [bag_whole, bag_plugU, bag_ents _ t', e1, bag_node]
      simp only [bagE_append, bag_nil, ← bag_ents]
      abel
    have hsz : k = (plugU t' rest).size + δ + 1 := by rw [hk, size_bag [], hbag, size_bag []]; simp; omega
    have z1' : H s1 (g.1, (plugU t' rest).size + δ + 1) (slotOf rest) (rptr t'.ptr ([] : List (LF T))) [] [(lptr (slotOf rest).up ([] : List (LF T)), true, t')] (cellsL (slotOf rest).up t'.ptr [] + cellsU rest) := by
      rw [← hsz]; exact z1
    obtain ⟨hl1, z2⟩ := z1'.subLen
    refine WP.bind (WP.lift (a := (plugU t' rest).size + δ) (by rw [hl1, csub_ok (by omega)]; simp) ?_)
    refine WP.bind ⟨(), { s1 with len := (plugU t' rest).size + δ }, rfl, ?_⟩
    have w2 : W { s1 with len := (plugU t' rest).size + δ } (g.1, (plugU t' rest).size + δ) rest [] t' := z2
    generalize ({ s1 with len := (plugU t' rest).size + δ } : Dom T) = s2 at w2
    have hleaf : ∀ y ∈ bag [] (plugU (plug (.node i l .nil r) lc) rest), IsSubdomain y.name (i.labels ++ sufU rest) → y = i.entry (sufU rest) := by
      intro y hy hs
      rcases place_below hok hy hs with h1 | h1
      · exact h1
      · simp at h1
    have hpath : ∀ x ∈ bag [] (plugU t' rest), IsSubdomain (i.labels ++ sufU rest) x.name → x ∈ path rest := by
      intro x hx hs
      rw [bag_plugU, Multiset.mem_add] at hx
      rcases hx with hx | hx
      · have : x ∈ bagE (sufU rest) (l.ents ++ r.ents ++ (entsL lc ++ entsR lc)) := by
          rw [bag_ents, e1] at hx
          simp only [bagE_append, Multiset.mem_add] at hx ⊢
          rcases hx with (hx | hx) | hx
          · exact .inr (.inl hx)
          · exact .inl hx
          · exact .inr (.inr hx)
        exact absurd hs (beside_apart hlev this).symm.not_sub
      · rcases bagU_cases okw hx with h1 | ⟨s, h1, -⟩
        · exact h1
        · exact absurd hs (h1.longer i.labels).symm.not_sub
    have hstop : (∀ x ∈ path rest, x.value ≠ none ∨ ∃ y ∈ bag [] (plugU t' rest), IsSubdomain y.name x.name ∧ x.name.length < y.name.length) → ∃ t'' k' dead, Mem s2 (g.1, k') t'' ∧ k' = t''.size + δ ∧ i.entry (sufU rest) ∈ dead ∧
        Shrunk (plugU (plug (.node i l .nil r) lc) rest) t'' (i.labels ++ sufU rest) dead := by
      intro hwhy
      refine ⟨plugU t' rest, _, {i.entry (sufU rest)}, W.top.1 w2, rfl, by simp, okw, hbag, ?_, ?_, ?_, ?_⟩
      · intro e he; rw [Multiset.mem_singleton.1 he]; exact hv
      · intro e he; rw [Multiset.mem_singleton.1 he]; exact List.suffix_refl _
      · intro e he y hy hs
        rw [Multiset.mem_singleton.1 he] at hs
        rw [hleaf y hy hs]; exact Multiset.mem_singleton_self _
      · intro x hx hs; exact hwhy x (hpath x hx hs)
    cases rest with
    | nil =>
      refine WP.pos (c := slotUp ([] : List (UF T)) = 0) rfl ?_
      exact WP.pure (hstop fun x hx => by simp [path] at hx)
    | cons u rest =>
      refine WP.neg (c := slotUp (u :: rest) = 0) w2.up_nz ?_
      have w3 : W s2 (g.1, (plugU t' (u :: rest)).size + δ) rest u.lc (.node u.i u.l t' u.r) := W.down_iff.2 w2
      have h3 := Z.focus w3
      -- the nodes above the upper node have the upper node below them
      have hup : u.i.entry (sufU rest) ∈ bag [] (plugU t' (u :: rest)) := by
        rw [bag_plugU]; simp [bagU]
      have hhigh : ∀ x ∈ path rest, ∃ y ∈ bag [] (plugU t' (u :: rest)), IsSubdomain y.name x.name ∧ x.name.length < y.name.length := by
        intro x hx
        exact ⟨_, hup, sub_of_suffix ((path_sub hx).trans (List.suffix_append _ _)), path_shorter (i := u.i) (l := u.l) (d := t') (r := u.r) (lc := u.lc) okw hx⟩
      refine WP.bind (h3.value 0 rfl ?_)
      by_cases hv2 : u.i.value.isSome = true
      · refine WP.pos (c := _ = true) hv2 (WP.pure (hstop fun x hx => ?_))
        simp only [path, List.mem_append, List.mem_singleton] at hx
        rcases hx with hx | rfl
        · exact .inr (hhigh x hx)
        · refine .inl fun e => ?_
          have e2 : u.i.value = none := e
          rw [e2] at hv2; cases hv2
      refine WP.neg (c := _ = true) hv2 ?_
      refine WP.bind (h3.down 0 rfl ?_)
      by_cases hd : t'.ptr = 0
      · refine WP.neg (c := (_ : Ptr) ≠ 0) (by simpa [Info.node] using hd) ?_
        have ht : t' = .nil := by
          cases t' with
          | nil => rfl
          | node j _ _ _ => exact absurd hd (Z.nz w2)
        subst ht
        have hv3 : u.i.value = none := by simpa using hv2
        simp only [List.length_cons] at hf
        refine (ih (rest := rest) (lc := u.lc) (i := u.i) (l := u.l) (r := u.r) w3 okw rfl hv3 (by omega)).mono fun _ s3 h4 => ?_
        obtain ⟨t3, k3, dead, m3, hk3, hin, sh⟩ := h4
        have hb3 : bag [] (plugU (plug (.node i l .nil r) lc) (u :: rest)) = bag [] (plugU (plug (.node u.i u.l .nil u.r) u.lc) rest) + {i.entry (sufU (u :: rest))} := hbag
        refine ⟨t3, k3, dead + {i.entry (sufU (u :: rest))}, m3, hk3, by simp, sh.ok, ?_, ?_, ?_, ?_, ?_⟩
        · rw [hbag]
          have := sh.bag
          have e2 : plugU Tr.nil (u :: rest) = plugU (plug (.node u.i u.l .nil u.r) u.lc) rest := rfl
          rw [e2, this]; abel
        · intro e he
          rcases Multiset.mem_add.1 he with he | he
          · exact sh.none e he
          · rw [Multiset.mem_singleton.1 he]; exact hv
        · intro e he
          rcases Multiset.mem_add.1 he with he | he
          · exact (sh.above e he).trans (by simp only [sufU]; exact List.suffix_append _ _)
          · rw [Multiset.mem_singleton.1 he]; exact List.suffix_refl _
        · intro e he y hy hs
          rcases Multiset.mem_add.1 he with he | he
          · rw [hb3, Multiset.mem_add] at hy
            rcases hy with hy | hy
            · exact Multiset.mem_add.2 (.inl (sh.below e he y hy hs))
            · exact Multiset.mem_add.2 (.inr hy)
          · rw [Multiset.mem_singleton.1 he] at hs
            rw [hleaf y hy hs]; simp
        · intro x hx hs
          refine sh.stop x hx ?_
          have hx2 : x ∈ bag [] (plugU Tr.nil (u :: rest)) := by
            have e2 : plugU Tr.nil (u :: rest) = plugU (plug (.node u.i u.l .nil u.r) u.lc) rest := rfl
            rw [e2, sh.bag, Multiset.mem_add]; exact .inl hx
          exact sub_of_suffix (path_sub (hpath x hx2 hs))
      · refine WP.pos (c := (_ : Ptr) ≠ 0) (by simpa [Info.node] using hd) (WP.pure (hstop fun x hx => ?_))
        simp only [path, List.mem_append, List.mem_singleton] at hx
        rcases hx with hx | rfl
        · exact .inr (hhigh x hx)
        · obtain ⟨j, jl, jd, jr, rfl⟩ : ∃ j jl jd jr, t' = .node j jl jd jr := by
            cases t' with
            | nil => exact absurd rfl hd
            | node j jl jd jr => exact ⟨j, jl, jd, jr, rfl⟩
          refine .inr ⟨j.entry (sufU (u :: rest)), ?_, sub_of_suffix (List.suffix_append _ _), ?_⟩
          · rw [bag_plugU, bag_node]; simp
          · exact path_shorter (i := j) (l := jl) (d := jd) (r := jr) (lc := []) okw (by simp [path])

/-- what `remove_node` does to the entries: the node loses its value, and nodes without a value may go, the node itself and then nodes above it -/
def Removed (t t' : Tr T) (e : Entry T) : Prop :=
  ∃ R dead, bag [] t = {e} + R ∧ {{ e with value := none }} + R = bag [] t' + dead ∧ (∀ x ∈ dead, x.value = none) ∧ (∀ x ∈ dead, x.name <:+ e.name) ∧
    (∀ x ∈ dead, ∀ y ∈ ({{ e with value := none }} + R : Multiset (Entry T)), IsSubdomain y.name x.name → y ∈ dead) ∧
    ∀ x ∈ bag [] t', IsSubdomain e.name x.name → x.value ≠ none ∨ ∃ y ∈ bag [] t', IsSubdomain y.name x.name ∧ x.name.length < y.name.length

theorem remove_node_spec {A : Kind} {δ : Nat} (h : InvA A s t δ) {g : Nat × Nat} (hw : W s g rest lc (.node i l d r)) (ht : t = plugU (plug (.node i l d r) lc) rest) :
    WP (remove_node i.addr) s fun old s' => old = i.value ∧ ∃ t', InvA A s' t' δ ∧ Removed t t' (i.entry (sufU rest)) := by
  unfold remove_node
  refine WP.bind ((W.set_value hw none).mono fun old s1 h1 => ?_)
  obtain ⟨rfl, w1⟩ := h1
  subst ht
  have hg : g = (s.next, s.len) := W.nextlen hw
  generalize hi' : ({ i with value := none } : Info T) = i' at w1
  have hlab : i'.labels = i.labels := by rw [← hi']
  have hadr : i'.addr = i.addr := by rw [← hi']
  have oklev := (OK_plugU h.ok).1
  have ok1 : OK (plugU (plug (.node i' l d r) lc) rest) := (OK_plugU h.ok).2 _ (OK_swap oklev (by rw [← hi']) (by rw [hlab]) (by rw [hlab]; exact (OK_node oklev).1) (OK_node oklev).2)
  have hb1 := bag_whole (.node i l d r) lc rest
  have hb2 := bag_whole (.node i' l d r) lc rest
  rw [bag_node] at hb1 hb2
  rw [hlab] at hb2
  generalize hR : bag (i.labels ++ sufU rest) d + bag (sufU rest) l + bag (sufU rest) r + bagE (sufU rest) (entsL lc ++ entsR lc) + bagU rest = R
  have hb1' : bag [] (plugU (plug (.node i l d r) lc) rest) = {i.entry (sufU rest)} + R := by rw [hb1, ← hR]; abel
  have hb2' : bag [] (plugU (plug (.node i' l d r) lc) rest) = {{ i.entry (sufU rest) with value := none }} + R := by
    rw [hb2, ← hR, ← hi']; simp only [Info.entry]; abel
  have hn1 : NamesOK A (plugU (plug (.node i' l d r) lc) rest) := by
    intro e he
    rw [hb2', Multiset.mem_add, Multiset.mem_singleton] at he
    rcases he with rfl | he
    · exact h.names (i.entry (sufU rest)) (by rw [hb1']; simp)
    · exact h.names e (by rw [hb1']; simp [he])
  have hsz : g.2 = (plugU (plug (.node i' l d r) lc) rest).size + δ := by
    rw [hg]; show s.len = _
    rw [h.len, size_bag [], size_bag [], hb1', hb2']; simp
  refine WP.bind ?_
  rw [← hadr]
  refine Z.down w1 ?_
  by_cases hd : d.ptr = 0
  · refine WP.neg (c := (_ : Ptr) ≠ 0) (by simpa using hd) ?_
    have htd : d = .nil := by
      cases d with
      | nil => rfl
      | node j _ _ _ => exact absurd hd (Z.nz (W.down_iff.1 w1))
    subst htd
    refine WP.bind (WP.get ?_)
    have hdep := w1.depth_lt
    have hnx : g.1 ≤ s1.next := Nat.le_of_eq (congrArg Prod.fst (W.nextlen w1))
    refine WP.bind ((removeLoop_spec (g := g) (s1.next + 1) (k := g.2) w1 ok1 hsz (by rw [← hi']) (by omega)).mono fun _ s2 h2 => ?_)
    obtain ⟨t', k', dead, m2, hk2, -, sh⟩ := h2
    refine WP.pure ⟨rfl, t', ⟨?_, sh.ok, ?_, ?_⟩, R, dead, hb1', ?_, sh.none, ?_, ?_, ?_⟩
    · have := W.nextlen m2; rw [← this]; exact m2
    · intro e he; exact hn1 e (by rw [sh.bag]; simp [he])
    · have := W.nextlen m2; rw [show s2.len = k' from (congrArg Prod.snd this).symm, hk2]
    · rw [← hb2', sh.bag]
    · intro e he; have := sh.above e he; rw [hlab] at this; exact this
    · intro x hx y hy; rw [← hb2'] at hy; exact sh.below x hx y hy
    · intro x hx hs; refine sh.stop x hx ?_; rw [hlab]; exact hs
  · refine WP.pos (c := (_ : Ptr) ≠ 0) (by simpa using hd) ?_
    refine WP.pure ⟨rfl, _, ⟨?_, ok1, hn1, ?_⟩, R, 0, hb1', ?_, by simp, by simp, by simp, ?_⟩
    · have := W.nextlen w1; rw [← this]; exact W.top.1 w1
    · have := W.nextlen w1; rw [show s1.len = g.2 from (congrArg Prod.snd this).symm, hsz]
    · rw [← hb2']; simp
    · intro x hx hs
      have hs' : IsSubdomain (i'.labels ++ sufU rest) x.name := by rw [hlab]; exact hs
      obtain ⟨j, jl, jd, jr, rfl⟩ : ∃ j jl jd jr, d = .node j jl jd jr := by
        cases d with
        | nil => exact absurd rfl hd
        | node j jl jd jr => exact ⟨j, jl, jd, jr, rfl⟩
      rcases place_above ok1 hx hs' with rfl | h1
      · refine .inr ⟨j.entry (i'.labels ++ sufU rest), ?_, sub_of_suffix (List.suffix_append _ _), ?_⟩
        · rw [bag_whole, bag_node, bag_node]; simp
        · have := List.length_pos_iff.2 (OK_node (lc := []) (OK_node (OK_plugU ok1).1).2).1
          simp only [Info.entry, List.length_append]; omega
      · exact .inr ⟨i'.entry (sufU rest), entry_mem, sub_of_suffix ((path_sub h1).trans (List.suffix_append _ _)), path_shorter ok1 h1⟩

end
end Dom
end R53
