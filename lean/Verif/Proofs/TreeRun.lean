import Verif.Proofs.TreeMap
/-!
# Histories of operations on a tree
-/
namespace R53
namespace Dom
variable {T : Type}

/-- an entry with a value under a spared name stays at its place -/
def Kept (t t' : Tr T) (ok : List Label → Prop) : Prop :=
  ∀ e ∈ t.nodes [], ∀ ks, SameName e.name (ks ++ [[]]) → e.value.isSome → ok ks → ∃ e' ∈ t'.nodes [], e'.addr = e.addr ∧ e'.name = e.name ∧ e'.value.isSome

theorem Kept.refl (t : Tr T) (ok : List Label → Prop) : Kept t t ok := fun e he _ _ hv _ => ⟨e, he, rfl, rfl, hv⟩

theorem nonul_same {a b : List Label} (h : SameName a b) (hb : ∀ x ∈ b, x.getLast? ≠ some 0) : ∀ x ∈ a, x.getLast? ≠ some 0 := by
  intro x hx h0
  have h1 : lowerLabel x ∈ lowerName b := by
    have : lowerLabel x ∈ lowerName a := List.mem_map_of_mem hx
    rw [show lowerName a = lowerName b from h] at this; exact this
  obtain ⟨y, hy, e⟩ := List.mem_map.1 h1
  have h2 : (lowerLabel y).getLast? = some 0 := by
    rw [e]; unfold lowerLabel; rw [List.getLast?_map, h0]; rfl
  unfold lowerLabel at h2
  rw [List.getLast?_map] at h2
  refine hb y hy ?_
  cases hc : y.getLast? with
  | none => rw [hc] at h2; cases h2
  | some c =>
    rw [hc] at h2
    simp only [Option.map_some, Option.some.injEq] at h2
    have : ∀ c : UInt8, lowerByte c = 0 → c = 0 := by
      refine forall_u8' ?_; decide +kernel
    rw [this c h2]

section
variable {m : Build} {A : Kind} {s : Dom T} {t t' : Tr T} {δ : Nat}

theorem nonul_inserted {ls : List Label} {v : Option T} {p : Ptr} {old : Option (Option T)} (hi : Inserted t t' ls v p old) (hn : NoNul t) (hl : ∀ l ∈ ls, l.getLast? ≠ some 0) :
    NoNul t' := by
  rcases hi with ⟨e, R, hb, rfl, hse, rfl, hb'⟩ | ⟨hno, ho, nm, X, hnm, hb', hX⟩
  · intro x hx
    rcases (mem_of_bag hb').1 hx with rfl | hx
    · exact hn e ((mem_of_bag hb).2 (.inl rfl))
    · exact hn x ((mem_of_bag hb).2 (.inr hx))
  · intro x hx
    rw [mem_nodes, hb', Multiset.mem_add, Multiset.mem_add, Multiset.mem_singleton] at hx
    rcases hx with (hx | rfl) | hx
    · exact hn x hx
    · refine nonul_same hnm fun y hy => ?_
      rcases List.mem_append.1 hy with hy | hy
      · exact hl y hy
      · simp only [List.mem_singleton] at hy; subst hy; simp
    · rcases hX with rfl | ⟨q, nm2, rfl, -, e, he, hsuf, -⟩
      · simp at hx
      · rw [Multiset.mem_singleton] at hx; subst hx
        exact fun y hy => hn e he y (hsuf.subset hy)

theorem nonul_removed {e : Entry T} (hr : Removed t t' e) (hn : NoNul t) : NoNul t' := by
  obtain ⟨R, dead, hb, hb', hd, -⟩ := hr
  intro x hx
  have h1 : x ∈ bag [] t' + dead := Multiset.mem_add.2 (.inl hx)
  rw [← hb', Multiset.mem_add, Multiset.mem_singleton] at h1
  rcases h1 with rfl | h1
  · exact hn e ((mem_of_bag hb).2 (.inl rfl))
  · exact hn x ((mem_of_bag hb).2 (.inr h1))

theorem nonul_swap {e e' : Entry T} {R : Multiset (Entry T)} (hb : bag [] t = {e} + R) (hb' : bag [] t' = {e'} + R) (hnm : e'.name = e.name) (hn : NoNul t) : NoNul t' := by
  intro x hx
  rcases (mem_of_bag hb').1 hx with rfl | hx
  · rw [hnm]; exact hn e ((mem_of_bag hb).2 (.inl rfl))
  · exact hn x ((mem_of_bag hb).2 (.inr hx))

theorem kept_inserted {ls : List Label} {v : Option T} {p : Ptr} {old : Option (Option T)} (hi : Inserted t t' ls v p old) :
    Kept t t' fun ks => lowerName ls = lowerName ks → v.isSome := by
  intro x hx ks hs hv hok
  rcases hi with ⟨e, R, hb, rfl, hse, rfl, hb'⟩ | ⟨hno, ho, nm, X, hnm, hb', hX⟩
  · rcases (mem_of_bag hb).1 hx with rfl | hx
    · exact ⟨_, (mem_of_bag hb').2 (.inl rfl), rfl, rfl, hok (same_root.1 (hse.symm.trans hs))⟩
    · exact ⟨x, (mem_of_bag hb').2 (.inr hx), rfl, rfl, hv⟩
  · refine ⟨x, ?_, rfl, rfl, hv⟩
    rw [mem_nodes, hb', Multiset.mem_add, Multiset.mem_add]; exact .inl (.inl hx)

theorem kept_removed {e : Entry T} (hr : Removed t t' e) : Kept t t' fun ks => ¬ SameName e.name (ks ++ [[]]) := by
  intro x hx ks hs hv hok
  obtain ⟨R, dead, hb, hb', hd, -⟩ := hr
  rcases (mem_of_bag hb).1 hx with rfl | hx
  · exact absurd hs hok
  · have h2 : x ∈ bag [] t' + dead := by rw [← hb']; exact Multiset.mem_add.2 (.inr hx)
    rcases Multiset.mem_add.1 h2 with h2 | h2
    · exact ⟨x, h2, rfl, rfl, hv⟩
    · rw [hd x h2] at hv; cases hv

theorem kept_swap {e e' : Entry T} {R : Multiset (Entry T)} (hb : bag [] t = {e} + R) (hb' : bag [] t' = {e'} + R) (ha : e'.addr = e.addr) (hnm : e'.name = e.name) (hval : e'.value = e.value)
    (ok : List Label → Prop) : Kept t t' ok := by
  intro x hx ks hs hv _
  rcases (mem_of_bag hb).1 hx with rfl | hx
  · exact ⟨e', (mem_of_bag hb').2 (.inl rfl), ha, hnm, by rw [hval]; exact hv⟩
  · exact ⟨x, (mem_of_bag hb').2 (.inr hx), rfl, rfl, hv⟩

/-- a step of a history -/
structure StepA (A : Kind) (op : TOp T) (s : Dom T) (t : Tr T) (δ : Nat) (out : Option T) (s' : Dom T) (t' : Tr T) (δ' : Nat) : Prop where
  inv : InvA A s' t' δ'
  delta : op ≠ .clear → δ' = δ
  map : ∀ M, Agrees t M → op.Fair M → out = (op.spec M).1 ∧ Agrees t' (op.spec M).2
  nonul : NoNul t → op.NoNul → NoNul t'
  kept : Kept t t' op.Spares

/-- the same for ASCII names -/
abbrev Step (op : TOp T) (s : Dom T) (t : Tr T) (δ : Nat) (out : Option T) (s' : Dom T) (t' : Tr T) (δ' : Nat) : Prop := StepA asciiKind op s t δ out s' t' δ'

theorem value_none (h : InvA A s t δ) {M : List Label → Option T} (hM : Agrees t M) {ls : List Label} (hno : ∀ x ∈ t.nodes [], ¬ SameName (ls ++ [[]]) x.name) : M (lowerName ls) = none := by
  cases hm : M (lowerName ls) with
  | none => rfl
  | some w => obtain ⟨x, hx, hs⟩ := hM.2 ls w hm; exact absurd hs.symm (hno x hx)

/-- no change -/
theorem StepA.same (h : InvA A s t δ) {op : TOp T} (hm : ∀ M, Agrees t M → op.Fair M → out = (op.spec M).1 ∧ (op.spec M).2 = M) : StepA A op s t δ out s t δ :=
  ⟨h, fun _ => rfl, fun M hM hf => ⟨(hm M hM hf).1, by rw [(hm M hM hf).2]; exact hM⟩, fun hn _ => hn, Kept.refl _ _⟩

theorem updates_none {M : List Label → Option T} {k0 : List Label} (h : M k0 = none) : (fun k => if k = k0 then none else M k) = M := by
  funext k
  by_cases e : k = k0
  · simp [e, h]
  · simp [e]

theorem InvA.split (h : InvA A s t δ) {e : Entry T} (he : e ∈ t.nodes []) : ∃ ls, ValidName ls ∧ e.name = ls ++ [[]] := by
  obtain ⟨ls, hv, -, e⟩ := h.names e he; exact ⟨ls, hv, e⟩

/-- `find`, then something for the node if the name is there -/
theorem find_then {α : Type} (hA : Kind.OK A m) (h : InvA A s t δ) {ls : List Label} (hv : ValidName ls) (ha : Kind.Fits A m ls) {f : FindResult → St (Dom T) α} {Q : α → Dom T → Prop}
    (hf : ∀ r, Found t (ls ++ [[]]) r → WP (f r) s Q) :
    WPx A m (do let s ← St.get; let r ← St.lift (s.find m (Name.ofLabels ls)); f r) s Q := by
  refine WPx.get ?_
  rcases find_found_any (m := m) hA h hv ha with ⟨r, e, hr⟩ | ⟨h1, h2, h3⟩
  · exact WPx.lift e (.inl (hf r hr))
  · exact .inr ⟨h1, h2, by rw [h3]; rfl⟩

theorem removed_step (h : InvA A s t δ) {e : Entry T} {ls : List Label} (hin : e ∈ t.nodes []) (hse : SameName e.name (ls ++ [[]])) :
    WP (Dom.remove_node e.addr) s fun out s' => ∃ t' δ', StepA A (.removeNode ls) s t δ out s' t' δ' := by
  refine (h.remove_node hin).mono fun old s' hr => ?_
  obtain ⟨rfl, t', h', hr⟩ := hr
  refine ⟨t', δ, h', fun _ => rfl, fun M hM _ => agrees_removed h hse hr hM, fun hn _ => nonul_removed hr hn, fun x hx ks hs hvv hok => ?_⟩
  exact kept_removed hr x hx ks hs hvv fun e1 => hok (same_root.1 (hse.symm.trans e1))

/-- a name the operation may use: one it can look for, and if it puts it into the tree, one of the kind of those there -/
def _root_.R53.TOp.Suits (op : TOp T) (A : Kind) (m : Build) (ls : List Label) : Prop := Kind.Fits A m ls ∧ (op.Inserts → Kind.All A ls)

theorem Kind.All.suits {op : TOp T} {ls : List Label} (h : Kind.All A ls) : op.Suits A m ls := ⟨.inl h, fun _ => h⟩

theorem _root_.R53.TOp.OK.suits {op : TOp T} (h : op.OK m) : ∀ ls ∈ op.names, ValidName ls ∧ op.Suits asciiKind m ls := fun ls hl =>
  ⟨(h ls hl).1, asciiKind_fits fun hm => (h ls hl).2 (.inl hm), fun hi => asciiKind_iff.2 ((h ls hl).2 (.inr hi))⟩

theorem exec_any (hA : Kind.OK A m) (h : InvA A s t δ) {op : TOp T} (hop : ∀ ls ∈ op.names, ValidName ls ∧ op.Suits A m ls) :
    WPx A m (op.exec m) s fun out s' => ∃ t' δ', StepA A op s t δ out s' t' δ' := by
  cases op with
  | insert ls v =>
    obtain ⟨hv, -, ha⟩ := hop ls (by simp [TOp.names])
    have ha := ha trivial
    refine WPx.bind ((insert_any hA h hv ha v).mono fun r s' hr => WP.pure ?_)
    obtain ⟨t', h', hi⟩ := hr
    exact ⟨t', δ, h', fun _ => rfl, fun M hM _ => agrees_inserted h h' hi hM, fun hn ho => nonul_inserted hi hn (ho ls (by simp [TOp.names])), kept_inserted hi⟩
  | removeNode ls =>
    obtain ⟨hv, ha, -⟩ := hop ls (by simp [TOp.names])
    refine find_then hA h hv ha fun r hr => ?_
    cases hr with
    | exact e mem same =>
      refine WP.pos rfl ?_
      exact removed_step h mem same.symm
    | closest e mem sub no deep =>
      refine WP.neg (by simp) (WP.pure ⟨t, δ, StepA.same h fun M hM _ => ?_⟩)
      have := value_none h hM no
      exact ⟨this.symm, updates_none this⟩
    | none no =>
      refine WP.neg (by simp) (WP.pure ⟨t, δ, StepA.same h fun M hM _ => ?_⟩)
      have := value_none h hM fun x hx hs => no x hx (by unfold IsSubdomain; rw [show lowerName _ = lowerName _ from hs]; exact List.suffix_refl _)
      exact ⟨this.symm, updates_none this⟩
  | remove ls =>
    obtain ⟨hv, ha, -⟩ := hop ls (by simp [TOp.names])
    refine find_then hA h hv ha fun r hr => ?_
    cases hr with
    | exact e mem same =>
      refine WP.pos (h.addr_ne mem) ((removed_step h mem same.symm).mono fun out s' hs => ?_)
      obtain ⟨t', δ', hs⟩ := hs
      refine ⟨t', δ', hs.inv, fun _ => hs.delta (by simp), fun M hM _ => hs.map M hM trivial, fun hn ho => hs.nonul hn ho, fun x hx ks hsx hvx hok => hs.kept x hx ks hsx hvx ?_⟩
      intro e1
      exact hok (by rw [e1]; exact List.suffix_refl _)
    | closest e mem sub no deep =>
      obtain ⟨ks, hvk, hks⟩ := h.split mem
      have hse : SameName e.name (ks ++ [[]]) := by rw [hks]; rfl
      have hsub : lowerName ks <:+ lowerName ls := by
        unfold IsSubdomain at sub
        rw [hks, Name.lowerName_append, Name.lowerName_append] at sub
        obtain ⟨w, hw⟩ := sub
        refine ⟨w, ?_⟩
        rw [← List.append_assoc] at hw
        exact List.append_cancel_right hw
      refine WP.pos (h.addr_ne mem) ((removed_step h mem hse).mono fun out s' hs => ?_)
      obtain ⟨t', δ', hs⟩ := hs
      refine ⟨t', δ', hs.inv, fun _ => hs.delta (by simp), fun M hM hfair => ?_, fun hn ho => ?_, fun x hx js hsx hvx hok => ?_⟩
      · have h1 := value_none h hM no
        have hmk : M (lowerName ks) = none := by
          rcases hfair with hf | hf
          · exact absurd h1 hf
          · exact hf _ hsub
        have h2 := hs.map M hM trivial
        simp only [TOp.spec] at h2 ⊢
        rw [updates_none hmk] at h2
        rw [updates_none h1, h1]
        rw [hmk] at h2
        exact h2
      · exact hs.nonul hn fun ls' hls' => by
          simp only [TOp.names, List.mem_singleton] at hls'
          subst hls'
          intro l hl
          exact hn e mem l (by rw [hks]; exact List.mem_append_left _ hl)
      · refine hs.kept x hx js hsx hvx ?_
        intro e1
        exact hok (by rw [← e1]; exact hsub)
    | none no =>
      refine WP.neg (by simp) (WP.pure ⟨t, δ, StepA.same h fun M hM _ => ?_⟩)
      have := value_none h hM fun x hx hs => no x hx (by unfold IsSubdomain; rw [show lowerName _ = lowerName _ from hs]; exact List.suffix_refl _)
      exact ⟨this.symm, updates_none this⟩
  | get ls =>
    obtain ⟨hv, ha, -⟩ := hop ls (by simp [TOp.names])
    refine find_then hA h hv ha fun r hr => ?_
    cases hr with
    | exact e mem same =>
      obtain ⟨n, hn, hval, -⟩ := h.get mem
      refine WP.pos rfl (WP.lift (a := n.value) ?_ ⟨t, δ, StepA.same h fun M hM _ => ⟨?_, rfl⟩⟩)
      · unfold FindResult.get_value; simp [hn]
      · rw [hval]; exact hM.1 e mem ls same.symm
    | closest e mem sub no deep =>
      refine WP.neg (by simp) (WP.pure ⟨t, δ, StepA.same h fun M hM _ => ⟨(value_none h hM no).symm, rfl⟩⟩)
    | none no =>
      refine WP.neg (by simp) (WP.pure ⟨t, δ, StepA.same h fun M hM _ => ⟨?_, rfl⟩⟩)
      exact (value_none h hM fun x hx hs => no x hx (by unfold IsSubdomain; rw [show lowerName _ = lowerName _ from hs]; exact List.suffix_refl _)).symm
  | callback ls b =>
    obtain ⟨hv, ha, -⟩ := hop ls (by simp [TOp.names])
    refine find_then hA h hv ha fun r hr => ?_
    cases hr with
    | exact e mem same =>
      refine WP.pos rfl (WP.bind ((h.set_callback mem b).mono fun _ s' hs => WP.pure ?_))
      obtain ⟨t', R, h', hb, hb'⟩ := hs
      exact ⟨t', δ, h', fun _ => rfl, fun M hM _ => ⟨rfl, agrees_swap hb hb' rfl rfl hM⟩, fun hn _ => nonul_swap hb hb' rfl hn, kept_swap hb hb' rfl rfl rfl _⟩
    | closest e mem sub no deep => exact WP.neg (by simp) (WP.pure ⟨t, δ, StepA.same h fun M hM _ => ⟨rfl, rfl⟩⟩)
    | none no => exact WP.neg (by simp) (WP.pure ⟨t, δ, StepA.same h fun M hM _ => ⟨rfl, rfl⟩⟩)
  | wildcard ls b =>
    obtain ⟨hv, ha, -⟩ := hop ls (by simp [TOp.names])
    refine find_then hA h hv ha fun r hr => ?_
    cases hr with
    | exact e mem same =>
      refine WP.pos rfl (WP.bind ((h.set_wildcard mem b).mono fun _ s' hs => WP.pure ?_))
      obtain ⟨t', R, h', hb, hb'⟩ := hs
      exact ⟨t', δ, h', fun _ => rfl, fun M hM _ => ⟨rfl, agrees_swap hb hb' rfl rfl hM⟩, fun hn _ => nonul_swap hb hb' rfl hn, kept_swap hb hb' rfl rfl rfl _⟩
    | closest e mem sub no deep => exact WP.neg (by simp) (WP.pure ⟨t, δ, StepA.same h fun M hM _ => ⟨rfl, rfl⟩⟩)
    | none no => exact WP.neg (by simp) (WP.pure ⟨t, δ, StepA.same h fun M hM _ => ⟨rfl, rfl⟩⟩)
  | clear =>
    refine .inl (WP.bind ((clear_spec h).mono fun _ s' hs => WP.pure ?_))
    refine ⟨.nil, s.len, hs.1, fun hc => absurd rfl hc, fun M hM _ => ⟨rfl, ?_, ?_⟩, ?_, ?_⟩
    · intro e he; simp [Tr.nodes] at he
    · intro ls v hm; cases hm
    · intro _ _ e he; simp [Tr.nodes] at he
    · intro _ _ _ _ _ hf; exact absurd hf id

theorem exec_spec (h : Inv s t δ) {op : TOp T} (hop : op.OK m) : WP (op.exec m) s fun out s' => ∃ t' δ', Step op s t δ out s' t' δ' :=
  (exec_any (asciiKind_ok _) h hop.suits).all

/-- histories -/
theorem run_kind (hA : A ≠ none) (ops : List (TOp T)) : ∀ {s : Dom T} {t : Tr T} {δ : Nat}, InvA A s t δ → (∀ op ∈ ops, ∀ ls ∈ op.names, ValidName ls ∧ op.Suits A m ls) →
    WP (TOp.run m ops) s fun out s' => ∃ t' δ', InvA A s' t' δ' ∧ (TOp.clear ∉ ops → δ' = δ) ∧
      (∀ M, Agrees t M → TOp.FairRun M ops → out = TOp.specRun M ops ∧ Agrees t' (TOp.specMap M ops)) ∧
      (NoNul t → (∀ op ∈ ops, op.NoNul) → NoNul t') ∧ Kept t t' fun ks => ∀ op ∈ ops, op.Spares ks := by
  induction ops with
  | nil => intro s t δ h _; exact WP.pure ⟨t, δ, h, fun _ => rfl, fun M hM _ => ⟨rfl, hM⟩, fun hn _ => hn, Kept.refl _ _⟩
  | cons op ops ih =>
    intro s t δ h hok
    rw [TOp.run]
    refine WP.bind (((exec_any (.inl hA) h (hok op (by simp))).ok hA).mono fun a s1 h1 => ?_)
    obtain ⟨t1, δ1, st⟩ := h1
    refine WP.bind ((ih st.inv fun o ho => hok o (by simp [ho])).mono fun as s2 h2 => WP.pure ?_)
    obtain ⟨t2, δ2, h2, hd, hm, hn, hk⟩ := h2
    refine ⟨t2, δ2, h2, fun hc => ?_, fun M hM hf => ?_, fun h0 ho => ?_, fun e he ks hs hv hsp => ?_⟩
    · rw [hd fun hx => hc (by simp [hx]), st.delta fun hx => hc (by simp [hx])]
    · obtain ⟨e1, hM1⟩ := st.map M hM hf.1
      obtain ⟨e2, hM2⟩ := hm _ hM1 hf.2
      exact ⟨by rw [TOp.specRun, e1, e2], hM2⟩
    · exact hn (st.nonul h0 (ho op (by simp))) fun o h => ho o (by simp [h])
    · obtain ⟨e1, he1, ha1, hn1, hv1⟩ := st.kept e he ks hs hv (hsp op (by simp))
      obtain ⟨e2, he2, ha2, hn2, hv2⟩ := hk e1 he1 ks (by rw [hn1]; exact hs) hv1 fun o ho => hsp o (by simp [ho])
      exact ⟨e2, he2, ha2.trans ha1, hn2.trans hn1, hv2⟩

theorem run_spec (ops : List (TOp T)) : ∀ {s : Dom T} {t : Tr T} {δ : Nat}, Inv s t δ → (∀ op ∈ ops, op.OK m) →
    WP (TOp.run m ops) s fun out s' => ∃ t' δ', Inv s' t' δ' ∧ (TOp.clear ∉ ops → δ' = δ) ∧
      (∀ M, Agrees t M → TOp.FairRun M ops → out = TOp.specRun M ops ∧ Agrees t' (TOp.specMap M ops)) ∧
      (NoNul t → (∀ op ∈ ops, op.NoNul) → NoNul t') ∧ Kept t t' fun ks => ∀ op ∈ ops, op.Spares ks :=
  fun h hok => run_kind asciiKind_ne ops h fun op ho => (hok op ho).suits

theorem agrees_nil : Agrees (.nil : Tr T) (fun _ => none) := ⟨fun e he => by simp [Tr.nodes] at he, fun ls v h => by cases h⟩

end
end Dom
end R53
