import Verif.Proofs.TreeFree
import Verif.Spec.Values
/-!
# Histories of operations on a tree of any names
-/
namespace R53
namespace Dom
namespace Free
variable {T : Type}

/-- the values stored, as a multiset -/
def vals (b : Multiset (Entry T)) : Multiset T := b.filterMap Entry.value

theorem vals_add (a b : Multiset (Entry T)) : vals (a + b) = vals a + vals b := Multiset.filterMap_add _ _ _
@[simp] theorem vals_zero : vals (0 : Multiset (Entry T)) = 0 := rfl
theorem vals_single (e : Entry T) : vals {e} = (e.value.toList : Multiset T) := by
  unfold vals
  rw [← Multiset.cons_zero]
  cases h : e.value with
  | none => rw [Multiset.filterMap_cons_none _ _ h]; rfl
  | some v => rw [Multiset.filterMap_cons_some _ _ _ h]; rfl
theorem vals_none {b : Multiset (Entry T)} (h : ∀ e ∈ b, e.value = none) : vals b = 0 := by
  refine Multiset.eq_zero_of_forall_notMem fun v hv => ?_
  obtain ⟨e, he, e1⟩ := (Multiset.mem_filterMap _ _).1 hv
  rw [h e he] at e1; cases e1

/-- a step of a history -/
structure Move (m : Build) (op : TOp T) (t : Tr T) (δ : Nat) (out : Option T) (s' : Dom T) (t' : Tr T) (δ' : Nat) : Prop where
  inv : Inv m s' t' δ'
  delta : op ≠ .clear → δ' = δ
  cons : ∃ lost : Multiset T, ((op.given : Multiset T) + vals (bag [] t) = (op.taken out : Multiset T) + vals (bag [] t') + lost) ∧ (op ≠ .clear → lost = 0)
  out : ∀ v, out = some v → ∃ e ∈ t.nodes [], e.value = some v ∧ ∀ ls, SameName e.name (ls ++ [[]]) → op.Asks ls
  src : ∀ e' ∈ t'.nodes [], ∀ v, e'.value = some v → (∃ ls, op = .insert ls (some v) ∧ SameName e'.name (ls ++ [[]])) ∨
    (op ≠ .clear ∧ ∃ e ∈ t.nodes [], e.value = some v ∧ e.name = e'.name)

section
variable {m : Build} {s : Dom T} {t t' : Tr T} {δ : Nat}

/-- no change -/
theorem Move.same (h : Inv m s t δ) {op : TOp T} (hop : op ≠ .clear) (hg : op.given = [] ∧ ∀ o, op.taken o = []) {o : Option T}
    (ho : ∀ v, o = some v → ∃ e ∈ t.nodes [], e.value = some v ∧ ∀ ls, SameName e.name (ls ++ [[]]) → op.Asks ls) : Move m op t δ o s t δ :=
  ⟨h, fun _ => rfl, ⟨0, by rw [hg.1, hg.2]; simp, fun _ => rfl⟩, ho, fun e' he' v hv => .inr ⟨hop, e', he', hv, rfl⟩⟩

/-- no change, and no answer -/
theorem Move.silent (h : Inv m s t δ) {op : TOp T} (hop : op ≠ .clear) (hg : op.given = [] ∧ op.taken none = []) : Move m op t δ none s t δ :=
  ⟨h, fun _ => rfl, ⟨0, by rw [hg.1, hg.2]; simp, fun _ => rfl⟩, (fun _ hv => nomatch hv), fun e' he' v hv => .inr ⟨hop, e', he', hv, rfl⟩⟩

theorem find_then {α : Type} (h : Inv m s t δ) {ls : List Label} (hv : ValidName ls) (ha : Calm m ls) {f : FindResult → St (Dom T) α} {Q : α → Dom T → Prop}
    (hf : ∀ r, Found t (ls ++ [[]]) r → WP (f r) s Q) :
    WP (do let s ← St.get; let r ← St.lift (s.find m (Name.ofLabels ls)); f r) s Q := by
  obtain ⟨r, e, hr⟩ := find_found (m := m) h hv ha
  refine WP.bind (WP.get (WP.bind (WP.lift e (hf r hr))))

theorem taken_eq {op : TOp T} (h : ∀ v, op.taken (some v) = [v]) (h0 : op.taken none = []) (e : Entry T) : ((op.taken e.value : List T) : Multiset T) = vals {e} := by
  rw [vals_single]
  cases e.value with
  | none => rw [h0]; rfl
  | some v => rw [h v]; rfl

theorem removed_move (h : Inv m s t δ) {e : Entry T} {op : TOp T} (hin : e ∈ t.nodes []) (hop : op ≠ .clear) (hg : op.given = [])
    (ht : ∀ v, op.taken (some v) = [v]) (ht0 : op.taken none = []) (hask : ∀ ls, SameName e.name (ls ++ [[]]) → op.Asks ls) :
    WP (Dom.remove_node e.addr) s fun out s' => ∃ t' δ', Move m op t δ out s' t' δ' := by
  refine (h.remove_node hin).mono fun old s' hr => ?_
  obtain ⟨rfl, t', h', R, dead, hb, hb', hd, hn⟩ := hr
  refine ⟨t', δ, h', fun _ => rfl, ⟨0, ?_, fun _ => rfl⟩, fun v hv => ⟨e, hin, hv, hask⟩, fun x hx v hv => .inr ⟨hop, ?_⟩⟩
  · rw [hg, taken_eq ht ht0, hb, vals_add]
    have h1 := congrArg vals hb'
    rw [vals_add, vals_add, vals_none hd, vals_single] at h1
    simp only [Option.toList_none, Multiset.coe_nil, zero_add, add_zero] at h1
    rw [h1]; simp
  · have h1 : x ∈ bag [] t' + dead := Multiset.mem_add.2 (.inl hx)
    rw [← hb', Multiset.mem_add, Multiset.mem_singleton] at h1
    rcases h1 with rfl | h1
    · cases hv
    · exact ⟨x, by rw [mem_nodes, hb]; exact Multiset.mem_add.2 (.inr h1), hv, rfl⟩

theorem swap_move (h' : Inv m s t' δ) {op : TOp T} {e e' : Entry T} {R : Multiset (Entry T)} (hop : op ≠ .clear) (hg : op.given = [] ∧ op.taken none = [])
    (hb : bag [] t = {e} + R) (hb' : bag [] t' = {e'} + R) (hnm : e'.name = e.name) (hv : e'.value = e.value) : Move m op t δ none s t' δ := by
  refine ⟨h', fun _ => rfl, ⟨0, ?_, fun _ => rfl⟩, (fun _ hv => nomatch hv), fun x hx v hxv => .inr ⟨hop, ?_⟩⟩
  · rw [hg.1, hg.2, hb, hb', vals_add, vals_add, vals_single, vals_single, hv]; simp
  · rcases (mem_of_bag hb').1 hx with rfl | hx
    · exact ⟨e, (mem_of_bag hb).2 (.inl rfl), by rw [← hv]; exact hxv, hnm.symm⟩
    · exact ⟨x, (mem_of_bag hb).2 (.inr hx), hxv, rfl⟩

theorem exec_spec (h : Inv m s t δ) {op : TOp T} (hop : op.Legal m) : WP (op.exec m) s fun out s' => ∃ t' δ', Move m op t δ out s' t' δ' := by
  cases op with
  | insert ls v =>
    obtain ⟨hv, ha⟩ := hop ls (by simp [TOp.names])
    refine WP.bind ((insert_spec h hv ha v).mono fun r s' hr => WP.pure ?_)
    obtain ⟨t', h', hi⟩ := hr
    have hg : (((TOp.insert ls v).given : List T) : Multiset T) = (v.toList : Multiset T) := by cases v <;> rfl
    rcases hi with ⟨e, R, hb, -, hse, ho, hb'⟩ | ⟨ho, nm, X, hnm, hb', hX⟩
    · refine ⟨t', δ, h', fun _ => rfl, ⟨0, ?_, fun _ => rfl⟩, fun w hw => ⟨e, (mem_of_bag hb).2 (.inl rfl), ?_, fun ks hk => ?_⟩, fun x hx w hw => ?_⟩
      · rw [hg, ho, Option.join_some, taken_eq (fun _ => rfl) rfl, hb, hb', vals_add, vals_add, vals_single { e with value := v }]
        simp only [add_zero]
        abel
      · rw [ho, Option.join_some] at hw; exact hw
      · exact same_root.1 (hk.symm.trans hse)
      · rcases (mem_of_bag hb').1 hx with rfl | hx
        · exact .inl ⟨ls, by have : v = some w := hw; rw [this], hse⟩
        · exact .inr ⟨by simp, x, (mem_of_bag hb).2 (.inr hx), hw, rfl⟩
    · have hXv : vals X = 0 := by
        rcases hX with rfl | ⟨q, nm2, rfl⟩
        · rfl
        · rw [vals_single]; rfl
      refine ⟨t', δ, h', fun _ => rfl, ⟨0, ?_, fun _ => rfl⟩, fun w hw => ?_, fun x hx w hw => ?_⟩
      · rw [hg, ho, hb', vals_add, vals_add, hXv, vals_single, show (TOp.insert ls v).taken none = [] from rfl]
        simp only [Multiset.coe_nil, zero_add, add_zero]
        abel
      · rw [ho] at hw; cases hw
      · rw [mem_nodes, hb', Multiset.mem_add, Multiset.mem_add, Multiset.mem_singleton] at hx
        rcases hx with (hx | rfl) | hx
        · exact .inr ⟨by simp, x, hx, hw, rfl⟩
        · exact .inl ⟨ls, by have : v = some w := hw; rw [this], hnm⟩
        · rcases hX with rfl | ⟨q, nm2, rfl⟩
          · simp at hx
          · rw [Multiset.mem_singleton] at hx; subst hx; cases hw
  | removeNode ls =>
    obtain ⟨hv, ha⟩ := hop ls (by simp [TOp.names])
    refine find_then h hv ha fun r hr => ?_
    cases hr with
    | exact e mem same =>
      refine WP.pos rfl ?_
      exact removed_move h mem (by simp) rfl (fun _ => rfl) rfl fun ks hk => same_root.1 (hk.symm.trans same.symm)
    | above e mem sub => exact WP.neg (by simp) (WP.pure ⟨t, δ, Move.silent h (by simp) ⟨rfl, rfl⟩⟩)
    | none => exact WP.neg (by simp) (WP.pure ⟨t, δ, Move.silent h (by simp) ⟨rfl, rfl⟩⟩)
  | remove ls =>
    obtain ⟨hv, ha⟩ := hop ls (by simp [TOp.names])
    have hsub : ∀ {e : Entry T}, IsSubdomain (ls ++ [[]]) e.name → ∀ ks, SameName e.name (ks ++ [[]]) → (TOp.remove ls : TOp T).Asks ks := by
      intro e hs ks hk
      have h1 : IsSubdomain (ls ++ [[]]) (ks ++ [[]]) := (sub_congr rfl hk).1 hs
      exact (sub_cancel rfl).1 h1
    refine find_then h hv ha fun r hr => ?_
    cases hr with
    | exact e mem same =>
      refine WP.pos (h.addr_ne mem) ?_
      exact removed_move h mem (by simp) rfl (fun _ => rfl) rfl (hsub (Name.same_sub same))
    | above e mem sub =>
      refine WP.pos (h.addr_ne mem) ?_
      exact removed_move h mem (by simp) rfl (fun _ => rfl) rfl (hsub sub)
    | none => exact WP.neg (by simp) (WP.pure ⟨t, δ, Move.silent h (by simp) ⟨rfl, rfl⟩⟩)
  | get ls =>
    obtain ⟨hv, ha⟩ := hop ls (by simp [TOp.names])
    refine find_then h hv ha fun r hr => ?_
    cases hr with
    | exact e mem same =>
      obtain ⟨n, hn, hval⟩ := h.get mem
      refine WP.pos rfl (WP.lift (a := n.value) ?_ ⟨t, δ, Move.same h (by simp) ⟨rfl, fun o => by cases o <;> rfl⟩ fun v hv => ⟨e, mem, by rw [← hval]; exact hv, fun ks hk => same_root.1 (hk.symm.trans same.symm)⟩⟩)
      unfold FindResult.get_value; simp [hn]
    | above e mem sub => exact WP.neg (by simp) (WP.pure ⟨t, δ, Move.silent h (by simp) ⟨rfl, rfl⟩⟩)
    | none => exact WP.neg (by simp) (WP.pure ⟨t, δ, Move.silent h (by simp) ⟨rfl, rfl⟩⟩)
  | callback ls b =>
    obtain ⟨hv, ha⟩ := hop ls (by simp [TOp.names])
    refine find_then h hv ha fun r hr => ?_
    cases hr with
    | exact e mem same =>
      refine WP.pos rfl (WP.bind ((h.set_callback mem b).mono fun _ s' hs => WP.pure ?_))
      obtain ⟨t', R, h', hb, hb'⟩ := hs
      exact ⟨t', δ, swap_move h' (by simp) ⟨rfl, rfl⟩ hb hb' rfl rfl⟩
    | above e mem sub => exact WP.neg (by simp) (WP.pure ⟨t, δ, Move.silent h (by simp) ⟨rfl, rfl⟩⟩)
    | none => exact WP.neg (by simp) (WP.pure ⟨t, δ, Move.silent h (by simp) ⟨rfl, rfl⟩⟩)
  | wildcard ls b =>
    obtain ⟨hv, ha⟩ := hop ls (by simp [TOp.names])
    refine find_then h hv ha fun r hr => ?_
    cases hr with
    | exact e mem same =>
      refine WP.pos rfl (WP.bind ((h.set_wildcard mem b).mono fun _ s' hs => WP.pure ?_))
      obtain ⟨t', R, h', hb, hb'⟩ := hs
      exact ⟨t', δ, swap_move h' (by simp) ⟨rfl, rfl⟩ hb hb' rfl rfl⟩
    | above e mem sub => exact WP.neg (by simp) (WP.pure ⟨t, δ, Move.silent h (by simp) ⟨rfl, rfl⟩⟩)
    | none => exact WP.neg (by simp) (WP.pure ⟨t, δ, Move.silent h (by simp) ⟨rfl, rfl⟩⟩)
  | clear =>
    refine WP.bind ((clear_spec h).mono fun _ s' hs => WP.pure ?_)
    refine ⟨.nil, s.len, hs, fun hc => absurd rfl hc, ⟨vals (bag [] t), by simp [TOp.given, TOp.taken], fun hc => absurd rfl hc⟩, (fun _ hv => nomatch hv), fun e he => by simp [Tr.nodes] at he⟩

/-- every value stored was given under the name of its node, and not cleared since -/
def Sourced (done : List (TOp T)) (t : Tr T) : Prop :=
  ∀ e ∈ t.nodes [], ∀ v, e.value = some v → ∃ a ls b, done = a ++ .insert ls (some v) :: b ∧ TOp.clear ∉ b ∧ SameName e.name (ls ++ [[]])

theorem run_spec (ops : List (TOp T)) : ∀ {s : Dom T} {t : Tr T} {δ : Nat} {done : List (TOp T)}, Inv m s t δ → Sourced done t → (∀ op ∈ ops, op.Legal m) →
    WP (TOp.run m ops) s fun outs s' => ∃ t' δ', Inv m s' t' δ' ∧ (TOp.clear ∉ ops → δ' = δ) ∧ Sourced (done ++ ops) t' ∧ outs.length = ops.length ∧
      (∃ lost : Multiset T, ((ops.flatMap TOp.given : List T) : Multiset T) + vals (bag [] t) = (TOp.allTaken ops outs : Multiset T) + vals (bag [] t') + lost ∧ (TOp.clear ∉ ops → lost = 0)) ∧
      ∀ pre op post, ops = pre ++ op :: post → ∀ v, outs[pre.length]? = some (some v) → ∃ a ls b, done ++ pre = a ++ .insert ls (some v) :: b ∧ TOp.clear ∉ b ∧ op.Asks ls := by
  induction ops with
  | nil =>
    intro s t δ done h hs _
    exact WP.pure ⟨t, δ, h, fun _ => rfl, by simpa using hs, rfl, ⟨0, by simp [TOp.allTaken], fun _ => rfl⟩, fun pre op post e => by simp at e⟩
  | cons op ops ih =>
    intro s t δ done h hs hok
    rw [TOp.run]
    refine WP.bind ((exec_spec h (hok op (by simp))).mono fun a s1 h1 => ?_)
    obtain ⟨t1, δ1, mv⟩ := h1
    have hs1 : Sourced (done ++ [op]) t1 := by
      intro e he v hv
      rcases mv.src e he v hv with ⟨ls, rfl, hn⟩ | ⟨hc, e0, he0, hv0, hn0⟩
      · exact ⟨done, ls, [], rfl, by simp, hn⟩
      · obtain ⟨a, ls, b, rfl, hb, hn⟩ := hs e0 he0 v hv0
        refine ⟨a, ls, b ++ [op], by simp, ?_, by rw [← hn0]; exact hn⟩
        simp only [List.mem_append, List.mem_singleton, not_or]
        exact ⟨hb, fun e => hc e.symm⟩
    refine WP.bind ((ih mv.inv hs1 fun o ho => hok o (by simp [ho])).mono fun as s2 h2 => WP.pure ?_)
    obtain ⟨t2, δ2, h2, hd, hs2, hlen, ⟨l2, hc2, hl2⟩, hout⟩ := h2
    refine ⟨t2, δ2, h2, fun hc => ?_, by simpa using hs2, by simp [hlen], ?_, ?_⟩
    · rw [hd fun hx => hc (by simp [hx]), mv.delta fun hx => hc (by simp [hx])]
    · obtain ⟨l1, hc1, hl1⟩ := mv.cons
      refine ⟨l1 + l2, ?_, fun hc => ?_⟩
      · simp only [List.flatMap_cons, TOp.allTaken, ← Multiset.coe_add]
        calc ((op.given : Multiset T) + (ops.flatMap TOp.given : List T)) + vals (bag [] t)
            = ((op.given : Multiset T) + vals (bag [] t)) + (ops.flatMap TOp.given : List T) := by abel
          _ = ((op.taken a : Multiset T) + vals (bag [] t1) + l1) + (ops.flatMap TOp.given : List T) := by rw [hc1]
          _ = (op.taken a : Multiset T) + l1 + (((ops.flatMap TOp.given : List T) : Multiset T) + vals (bag [] t1)) := by abel
          _ = _ := by rw [hc2]; abel
      · rw [hl1 fun hx => hc (by simp [hx]), hl2 fun hx => hc (by simp [hx])]; rfl
    · intro pre op' post e v hv
      cases pre with
      | nil =>
        simp only [List.nil_append, List.cons.injEq] at e
        obtain ⟨rfl, rfl⟩ := e
        simp only [List.length_nil, List.getElem?_cons_zero, Option.some.injEq] at hv
        obtain ⟨e0, he0, hv0, hask⟩ := mv.out v hv
        obtain ⟨x, ls, b, e1, hb, hn⟩ := hs e0 he0 v hv0
        exact ⟨x, ls, b, by simpa using e1, hb, hask ls hn⟩
      | cons o pre =>
        simp only [List.cons_append, List.cons.injEq] at e
        obtain ⟨rfl, rfl⟩ := e
        simp only [List.length_cons, List.getElem?_cons_succ] at hv
        obtain ⟨x, ls, b, e1, hb, hn⟩ := hout pre op' post rfl v hv
        exact ⟨x, ls, b, by simpa using e1, hb, hn⟩

end
end Free
end Dom
end R53
