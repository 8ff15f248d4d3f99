import Verif.Props.Nodes
/-!
# C98: domain trees of names that are not ASCII, with overflow checks

The comparison of two octets subtracts them with eight bits. With overflow checks a difference that does not fit is a panic. These are the
guarantees for callers who catch it (a server that answers a failed request and goes on), and the names for which it does not happen.
-/
namespace R53
open Dom

variable {T : Type}

theorem caught_spec (ops : List (TOp T)) : ∀ {s : Dom T} {t : Tr T} {δ : Nat}, InvA none s t δ → (∀ op ∈ ops, ∀ ls ∈ op.names, ValidName ls) →
    (∃ t' δ', InvA none (TOp.caught .debug ops s).2 t' δ') ∧ (TOp.caught .debug ops s).1.length = ops.length ∧
      ∀ M, Agrees t M → TOp.Right M ops (TOp.caught .debug ops s).1 := by
  induction ops with
  | nil => intro s t δ h _; exact ⟨⟨t, δ, h⟩, rfl, fun M _ => trivial⟩
  | cons op ops ih =>
    intro s t δ h hok
    have hv : ∀ ls ∈ op.names, ValidName ls ∧ op.Suits none .debug ls := fun ls hl => ⟨hok op (by simp) ls hl, Kind.All.suits fun G e => by cases e⟩
    have hrest : ∀ op ∈ ops, ∀ ls ∈ op.names, ValidName ls := fun o ho => hok o (by simp [ho])
    rcases exec_any (m := .debug) (.inr rfl) h hv with ⟨out, s', e, t', δ', st⟩ | ⟨-, -, e⟩
    · obtain ⟨h1, h2, h3⟩ := ih st.inv hrest
      simp only [TOp.caught, e, List.length_cons, h2]
      refine ⟨h1, trivial, fun M hM hf => .inr ?_⟩
      obtain ⟨e1, hM1⟩ := st.map M hM hf
      exact ⟨by rw [e1], h3 _ hM1⟩
    · obtain ⟨h1, h2, h3⟩ := ih h hrest
      simp only [TOp.caught, e, List.length_cons, h2]
      exact ⟨h1, trivial, fun M hM _ => .inl ⟨rfl, h3 M hM⟩⟩

/-- With overflow checks and any legal names, every operation of a history either panics or answers what a map of the operations that did not
panic would answer; and the memory is a tree of balanced levels, in the order of signed octets, whatever panicked. -/
theorem c98_caught (ops : List (TOp T)) (hok : ∀ op ∈ ops, ∀ ls ∈ op.names, ValidName ls) :
    TOp.Right (fun _ => none) ops (TOp.caught .debug ops Dom.new).1 ∧ (TOp.caught .debug ops (Dom.new : Dom T)).1.length = ops.length ∧
    ∃ t, Represents (TOp.caught .debug ops (Dom.new : Dom T)).2 t ∧ (∀ x ∈ t.levels, x.SLevel ∧ x.height ≤ 2 * Nat.log2 (x.ents.length + 1)) ∧
      ∀ e ∈ t.nodes [], ∃ ls, ValidName ls ∧ e.name = ls ++ [[]] := by
  obtain ⟨⟨t, δ, h⟩, h2, h3⟩ := caught_spec ops (InvA.new (A := none)) hok
  refine ⟨h3 _ agrees_nil, h2, t, h.represents, fun x hx => ?_, fun e he => ?_⟩
  · have hl : x.SLevel := by
      rcases List.mem_cons.1 hx with rfl | hx
      · exact h.ok.1
      · exact h.ok.2.lower x hx
    exact ⟨hl, hl.tall⟩
  · exact h.split he

/-- an operation that panics changes nothing at all: not a node, not a link, not a counter -/
theorem c98_unchanged (ops : List (TOp T)) (hok : ∀ op ∈ ops, ∀ ls ∈ op.names, ValidName ls) (op : TOp T) (hop : ∀ ls ∈ op.names, ValidName ls) (s : Dom T)
    (hs : (TOp.caught .debug ops Dom.new).2 = s) (hp : (op.exec .debug s).1 = .panic) : (op.exec .debug s).2 = s := by
  subst hs
  obtain ⟨⟨t, δ, h⟩, -, -⟩ := caught_spec ops (InvA.new (A := none)) hok
  rcases exec_any (m := .debug) (.inr rfl) h (fun ls hl => ⟨hop ls hl, Kind.All.suits fun G e => by cases e⟩) with ⟨out, s', e, -⟩ | ⟨-, -, e⟩
  · rw [e] at hp; cases hp
  · rw [e]

/-- so is a search, with or without a callback: it panics, or its answer is right -/
theorem c98_find {P : Type} (ops : List (TOp T)) (hok : ∀ op ∈ ops, ∀ ls ∈ op.names, ValidName ls) (s : Dom T) (hs : (TOp.caught .debug ops Dom.new).2 = s)
    (ls : List Label) (hv : ValidName ls) (cb : Option (Ptr → Name → P → Bool × P)) (c : Chain) (hc : c.nodes = []) (p : P) :
    ∃ t, Represents s t ∧ ((∃ res c' p', find_node_ext .debug s (Name.ofLabels ls) c cb p = .ok (res, c', p') ∧ Answer t (ls ++ [[]]) cb p res c'.nodes p') ∨
      find_node_ext .debug s (Name.ofLabels ls) c cb p = .panic) := by
  subst hs
  obtain ⟨⟨t, δ, h⟩, -, -⟩ := caught_spec ops (InvA.new (A := none)) hok
  refine ⟨t, h.represents, ?_⟩
  rcases find_answer_any (m := .debug) (cb := cb) (.inr rfl) h hv (.inl fun G e => by cases e) hc p with ⟨r, c', p', h1, h2, -⟩ | ⟨h1, -⟩
  · exact .inl ⟨r, c', p', h1, h2⟩
  · exact .inr h1

theorem caught_table (ops : List (TOp T)) : ∀ {s : Dom T} {t : Tr T} {M : Table T}, ShownA none s t M → (∀ op ∈ ops, ∀ ls ∈ op.names, ValidName ls) →
    ∃ M' t', M.CaughtTo ops (TOp.caught .debug ops s).1 M' ∧ ShownA none (TOp.caught .debug ops s).2 t' M' := by
  induction ops with
  | nil => intro s t M h _; exact ⟨M, t, rfl, h⟩
  | cons op ops ih =>
    intro s t M h hok
    have hv : ∀ ls ∈ op.names, ValidName ls ∧ op.Suits none .debug ls := fun ls hl => ⟨hok op (by simp) ls hl, Kind.All.suits fun G e => by cases e⟩
    have hrest : ∀ op ∈ ops, ∀ ls ∈ op.names, ValidName ls := fun o ho => hok o (by simp [ho])
    rcases exec_table_any (m := .debug) (.inr rfl) h hv with ⟨out, s', e, rfl, t', st⟩ | ⟨-, -, e⟩
    · obtain ⟨M', t2, h1, h2⟩ := ih st hrest
      simp only [TOp.caught, e]
      exact ⟨M', t2, .inr ⟨rfl, h1⟩, h2⟩
    · obtain ⟨M', t2, h1, h2⟩ := ih h hrest
      simp only [TOp.caught, e]
      exact ⟨M', t2, .inl ⟨rfl, h1⟩, h2⟩

/-- More exactly: every operation panics, or answers as the table of C83 does, a `remove` of an absent name and nodes without a value included; operations
that panic leave the table as it is, and afterwards `len` and `is_empty` are those of the table. -/
theorem c98_table (ops : List (TOp T)) (hok : ∀ op ∈ ops, ∀ ls ∈ op.names, ValidName ls) :
    ∃ M' : Table T, Table.empty.CaughtTo ops (TOp.caught .debug ops Dom.new).1 M' ∧
      (TOp.caught .debug ops (Dom.new : Dom T)).2.len = M'.nodes.length + M'.lost ∧
      ((TOp.caught .debug ops (Dom.new : Dom T)).2.is_empty = true ↔ M'.nodes = []) ∧ (M'.nodes.map fun x => x.1).Nodup := by
  obtain ⟨M', t, h1, h⟩ := caught_table ops (ShownA.new (T := T) (A := none)) hok
  exact ⟨M', h1, h.counts.1, h.counts.2, h.tab.distinct⟩

/-- no two labels of the names a history puts into the tree overflow when they are compared; in a debug build, nor do those of names it only looks for -/
def TOp.AllNear (m : Build) (ops : List (TOp T)) : Prop :=
  ∀ o1 ∈ ops, (m = .debug ∨ o1.Inserts) → ∀ l1 ∈ o1.names, ∀ a ∈ l1, ∀ o2 ∈ ops, (m = .debug ∨ o2.Inserts) → ∀ l2 ∈ o2.names, ∀ b ∈ l2, Near a b

theorem TOp.AllNear.kind {m : Build} {ops : List (TOp T)} (hn : TOp.AllNear m ops) : ∃ A : Kind, A ≠ none ∧ ∀ op ∈ ops, ∀ ls ∈ op.names, op.Suits A m ls := by
  let G : Label → Prop := fun l => l = [] ∨ ∃ op ∈ ops, (m = .debug ∨ op.Inserts) ∧ ∃ ls ∈ op.names, ∃ a ∈ ls, lowerLabel a = lowerLabel l
  have hG : Gentle G := by
    refine ⟨fun {a b} ha hb => ?_, fun {a b} e ha => ?_, .inl rfl⟩
    · rcases ha with rfl | ⟨o1, ho1, i1, l1, hl1, a1, ha1, e1⟩
      · exact (near_nil b).2
      · rcases hb with rfl | ⟨o2, ho2, i2, l2, hl2, a2, ha2, e2⟩
        · exact (near_nil a).1
        · exact near_lower e1 e2 (hn o1 ho1 i1 l1 hl1 a1 ha1 o2 ho2 i2 l2 hl2 a2 ha2)
    · rcases ha with rfl | ⟨o1, ho1, i1, l1, hl1, a1, ha1, e1⟩
      · left
        have := congrArg List.length e
        simp only [lowerLabel, List.length_map, List.length_nil] at this
        exact List.length_eq_zero_iff.1 this.symm
      · exact .inr ⟨o1, ho1, i1, l1, hl1, a1, ha1, e1.trans e⟩
  have key : ∀ op ∈ ops, (m = .debug ∨ op.Inserts) → ∀ ls ∈ op.names, Kind.All (some ⟨G, hG⟩) ls :=
    fun op ho hi ls hl G' e l hll => by cases e; exact .inr ⟨op, ho, hi, ls, hl, l, hll, rfl⟩
  refine ⟨some ⟨G, hG⟩, by simp, fun op ho ls hl => ⟨?_, fun hi => key op ho (.inr hi) ls hl⟩⟩
  cases m with
  | debug => exact .inl (key op ho (.inl rfl) ls hl)
  | release => exact .inr ⟨by simp, rfl⟩

/-- Names whose labels can be compared: if no two labels of the names a history gives overflow, then in both builds nothing panics and the
answers are those of a map; in a release build this need only be so for the names put into the tree. All ASCII names are of this kind, and so are all names without ASCII octets, such as those of many scripts in UTF-8. -/
theorem c98_near (m : Build) (ops : List (TOp T)) (hok : ∀ op ∈ ops, ∀ ls ∈ op.names, ValidName ls)
    (hn : TOp.AllNear m ops) :
    ∃ outs s, TOp.run m ops Dom.new = (.ok outs, s) ∧ (TOp.FairRun (fun _ => none) ops → outs = TOp.specRun (fun _ => none) ops) := by
  obtain ⟨A, hA, hall⟩ := TOp.AllNear.kind hn
  obtain ⟨outs, s, e, t, δ, -, -, hm, -⟩ := run_kind (m := m) hA ops InvA.new fun op ho ls hl => ⟨hok op ho ls hl, hall op ho ls hl⟩
  exact ⟨outs, s, e, fun hf => (hm _ agrees_nil hf).1⟩

/-- for such names the answers, the number of nodes and the name of every node are those of the table of C83, in both builds -/
theorem c98_near_table (m : Build) (ops : List (TOp T)) (hok : ∀ op ∈ ops, ∀ ls ∈ op.names, ValidName ls) (hn : TOp.AllNear m ops) :
    ∃ s, TOp.run m ops Dom.new = (.ok (Table.empty.answers ops), s) ∧
      s.len = (Table.empty.after ops).nodes.length + (Table.empty.after ops).lost ∧ (s.is_empty = true ↔ (Table.empty.after ops).nodes = []) ∧
      ∃ t, Represents s t ∧ ∀ k d, (k, d) ∈ (Table.empty.after ops).nodes ↔
        ∃ e ∈ t.nodes [], lowerName e.name = k ++ [[]] ∧ d = ⟨e.value, e.cb, e.wc⟩ := by
  obtain ⟨A, hA, hall⟩ := hn.kind
  obtain ⟨o, s, e, rfl, t, h⟩ := run_table_kind (m := m) hA ops ShownA.new fun op ho ls hl => ⟨hok op ho ls hl, hall op ho ls hl⟩
  refine ⟨s, e, h.counts.1, h.counts.2, t, h.inv.represents, fun k d => ?_⟩
  rw [h.tab.mem]
  constructor
  · rintro ⟨e, h1, h2, h3⟩; exact ⟨e, h1, h2, h3.symm⟩
  · rintro ⟨e, h1, h2, h3⟩; exact ⟨e, h1, h2, h3.symm⟩

/-- a tree reached by operations on legal names, and a legal name, no two labels of which overflow when they are compared -/
def NearReached (m : Build) (ops : List (TOp T)) (ls : List Label) (s : Dom T) : Prop :=
  (∀ op ∈ ops, ∀ ls ∈ op.names, ValidName ls) ∧ ValidName ls ∧ TOp.AllNear m (.get ls :: ops) ∧ ∃ outs, TOp.run m ops Dom.new = (.ok outs, s)

theorem NearReached.shown {m : Build} {ops : List (TOp T)} {ls : List Label} {s : Dom T} (h : NearReached m ops ls s) :
    ∃ A t, A ≠ none ∧ Kind.Fits A m ls ∧ ShownA A s t (Table.empty.after ops) := by
  obtain ⟨hok, hv, hn, outs, e⟩ := h
  obtain ⟨A, hA, hall⟩ := hn.kind
  obtain ⟨o, s', e', -, t, h⟩ := run_table_kind (m := m) hA ops ShownA.new fun op ho ls hl => ⟨hok op ho ls hl, hall op (by simp [ho]) ls hl⟩
  rw [e] at e'
  simp only [Prod.mk.injEq, Res.ok.injEq] at e'
  obtain ⟨rfl, rfl⟩ := e'
  exact ⟨A, t, hA, (hall (.get ls) (by simp) ls (by simp [TOp.names])).1, h⟩

/-- for such names `find` gives, in both builds, the node of the longest end of the name that has one (C59, C83) -/
theorem c98_near_find (m : Build) (ops : List (TOp T)) (s : Dom T) (ls : List Label) (h : NearReached m ops ls s) :
    ((Table.empty.after ops).nodes.closest (lowerName ls) = none → s.find m (Name.ofLabels ls) = .ok ⟨0, .NotFound⟩) ∧
    ∀ k, (Table.empty.after ops).nodes.closest (lowerName ls) = some k →
      ∃ p n, s.find m (Name.ofLabels ls) = .ok ⟨p, if k = lowerName ls then .ExactMatch else .PartialMatch⟩ ∧ p ≠ 0 ∧ s.look p = .ok n ∧
        (Table.empty.after ops).nodes.at? k = some ⟨n.value, n.flag.is_callback_enabled, n.flag.is_wildcard⟩ := by
  obtain ⟨A, t, hA, ha, hs⟩ := h.shown
  exact hs.closest hA ls h.2.1 ha

/-- the name put together along the chain is that of the node found, or there is a label that ends with a zero octet on the way (C63) -/
theorem c98_near_chain (m : Build) (ops : List (TOp T)) (s : Dom T) (ls : List Label) (h : NearReached m ops ls s)
    (k : List Label) (hk : (Table.empty.after ops).nodes.closest (lowerName ls) = some k) :
    ∃ r c c' n ks, s.find_node m (Name.ofLabels ls) .new = .ok (r, c) ∧ r.flag = (if k = lowerName ls then .ExactMatch else .PartialMatch) ∧
      c.pop = .ok (c', r.node) ∧ s.look r.node = .ok n ∧ lowerName ks = k ∧ s.find m (Name.ofLabels ks) = .ok ⟨r.node, .ExactMatch⟩ ∧
      ((Table.empty.after ops).nodes.Nul k → s.get_absolute_name c' n.name = .panic) ∧
      (¬ (Table.empty.after ops).nodes.Nul k → s.get_absolute_name c' n.name = .ok (Name.ofLabels ks)) := by
  obtain ⟨A, t, hA, ha, hs⟩ := h.shown
  exact hs.along hA ls h.2.1 ha k hk

/-- the callbacks of a search are those of C66 -/
theorem c98_near_callbacks {P : Type} (m : Build) (ops : List (TOp T)) (s : Dom T) (ls : List Label) (h : NearReached m ops ls s)
    (f : Ptr → Name → P → Bool × P) (p : P) :
    ∃ t, Represents s t ∧
      (Blocked t (ls ++ [[]]) (some f) p → find_node_ext m s (Name.ofLabels ls) .new (some f) p = .panic) ∧
      (¬ Blocked t (ls ++ [[]]) (some f) p → ∃ res c p', find_node_ext m s (Name.ofLabels ls) .new (some f) p = .ok (res, c, p') ∧ Answer t (ls ++ [[]]) (some f) p res c.nodes p') := by
  obtain ⟨A, t, hA, ha, hs⟩ := h.shown
  refine ⟨t, hs.inv.represents, ?_⟩
  rcases find_answer_any (m := m) (cb := some f) (.inl hA) hs.inv h.2.1 ha (c := .new) rfl p with ⟨res, c, p', e, h1, h2⟩ | ⟨e, h1 | ⟨h1, -⟩⟩
  · exact ⟨fun hb => absurd hb h2, fun _ => ⟨res, c, p', e, h1⟩⟩
  · exact ⟨fun _ => e, fun hb => absurd h1 hb⟩
  · exact absurd h1 hA

/-- the levels of the tree are red-black trees in the order of signed octets, of logarithmic height (C61) -/
theorem c98_near_levels (m : Build) (ops : List (TOp T)) (s : Dom T) (ls : List Label) (h : NearReached m ops ls s) :
    ∃ t, Represents s t ∧ ∀ x ∈ t.levels, x.SLevel ∧ x.height ≤ 2 * Nat.log2 (x.ents.length + 1) := by
  obtain ⟨A, t, -, -, hs⟩ := h.shown
  refine ⟨t, hs.inv.represents, fun x hx => ?_⟩
  have hl : x.SLevel := by
    rcases List.mem_cons.1 hx with rfl | hx
    · exact hs.inv.ok.1
    · exact hs.inv.ok.2.lower x hx
  exact ⟨hl, hl.tall⟩

/-- a node with a value stays where it is (C69) -/
theorem c98_near_stable (m : Build) (ops ops' : List (TOp T)) (s : Dom T) (ls : List Label) (hok : ∀ op ∈ ops ++ ops', ∀ ls ∈ op.names, ValidName ls) (hv : ValidName ls)
    (hn : TOp.AllNear m (.get ls :: (ops ++ ops'))) (hs : ∃ outs, TOp.run m ops Dom.new = (.ok outs, s))
    (p : Ptr) (v : T) (hf : s.find m (Name.ofLabels ls) = .ok ⟨p, .ExactMatch⟩) (hval : Dom.FindResult.get_value s ⟨p, .ExactMatch⟩ = .ok (some v)) (hsp : ∀ op ∈ ops', op.Spares ls) :
    ∃ outs s' w, TOp.run m ops' s = (.ok outs, s') ∧ s'.find m (Name.ofLabels ls) = .ok ⟨p, .ExactMatch⟩ ∧ Dom.FindResult.get_value s' ⟨p, .ExactMatch⟩ = .ok (some w) := by
  obtain ⟨A, hA, hall⟩ := hn.kind
  obtain ⟨outs0, e0⟩ := hs
  obtain ⟨o, s1, e', t, δ, h, -⟩ := run_kind (m := m) hA ops InvA.new fun op ho ls hl => ⟨hok op (by simp [ho]) ls hl, hall op (by simp [ho]) ls hl⟩
  rw [e0] at e'
  simp only [Prod.mk.injEq, Res.ok.injEq] at e'
  obtain ⟨rfl, rfl⟩ := e'
  have ha : Kind.Fits A m ls := (hall (.get ls) (by simp) ls (by simp [TOp.names])).1
  obtain ⟨e, he, rfl, hsame⟩ := (find_exact_iff_kind hA h hv ha).1 hf
  obtain ⟨n, hn, hnv, -⟩ := h.get he
  have hev : e.value.isSome := by
    unfold FindResult.get_value at hval
    simp only [hn, Res.bind_ok, Res.pure_eq] at hval
    rw [← hnv]
    simp only [reduceCtorEq, if_false, Res.ok.injEq] at hval
    rw [hval]; rfl
  obtain ⟨outs, s', er, t', δ', h', -, -, -, hk⟩ := run_kind (m := m) hA ops' h fun op ho ls hl => ⟨hok op (by simp [ho]) ls hl, hall op (by simp [ho]) ls hl⟩
  obtain ⟨e', he', ha', hn', hv'⟩ := hk e he ls hsame.symm hev hsp
  obtain ⟨n', hl', hnv', -⟩ := h'.get he'
  obtain ⟨w, hw⟩ := Option.isSome_iff_exists.1 hv'
  refine ⟨outs, s', w, er, (find_exact_iff_kind hA h' hv ha).2 ⟨e', he', ha', by rw [hn']; exact hsame⟩, ?_⟩
  unfold FindResult.get_value
  rw [← ha', hl']
  simp only [reduceCtorEq, if_false, Res.bind_ok, Res.pure_eq]
  rw [hnv', hw]

/-- names without ASCII octets are of this kind -/
theorem c98_upper {a b : Label} (ha : ∀ c ∈ a, 128 ≤ c.toNat) (hb : ∀ c ∈ b, 128 ≤ c.toNat) : Near a b := by
  have h0 : ∀ c : UInt8, 128 ≤ c.toNat → -128 ≤ signed (lowerByte c) ∧ signed (lowerByte c) ≤ -1 := by
    refine forall_u8' ?_; decide +kernel
  have hx : ∀ {a : Label}, (∀ c ∈ a, 128 ≤ c.toNat) → ∀ {p : Label} {x : UInt8} {as : Label}, lowerLabel a = p ++ x :: as → -128 ≤ signed x ∧ signed x ≤ -1 := by
    intro a ha p x as e
    have : x ∈ lowerLabel a := by rw [e]; simp
    obtain ⟨c, hc, rfl⟩ := List.mem_map.1 this
    exact h0 c (ha c hc)
  intro p x y as bs h1 h2
  have := hx ha h1
  have := hx hb h2
  omega

theorem single_of_bag {t : Tr T} {e : Entry T} (h : bag [] t = {e}) : ∃ i, t = .node i .nil .nil .nil ∧ i.labels = e.name := by
  have hs := size_bag [] t
  rw [h] at hs
  cases t with
  | nil => simp [Tr.size] at hs
  | node i l d r =>
    simp only [Tr.size, Multiset.card_singleton] at hs
    have hnil : ∀ x : Tr T, x.size = 0 → x = .nil := by
      intro x hx; cases x with
      | nil => rfl
      | node => simp [Tr.size] at hx
    have hl := hnil l (by omega)
    have hd := hnil d (by omega)
    have hr := hnil r (by omega)
    subst hl hd hr
    refine ⟨i, rfl, ?_⟩
    rw [bag_node] at h
    simp only [bag_nil, add_zero] at h
    have := Multiset.singleton_inj.1 h
    rw [← this]; simp [Info.entry]

/-- and no others: with two labels that cannot be compared, inserting both names panics -/
theorem c98_far (a b : Label) (ha : ValidName [a]) (hb : ValidName [b]) (h : ¬ Near b a) (v w : Option T) :
    (TOp.run .debug [.insert [a] v, .insert [b] w] (Dom.new : Dom T)).1 = .panic := by
  have any : ∀ x : List Label, Kind.All none x := fun x G e => by cases e
  rcases insert_any (m := .debug) (A := none) (.inr rfl) (InvA.new (T := T)) ha (any _) v with ⟨r, s1, e1, t1, i1, ins⟩ | ⟨-, -, e1⟩
  case inr =>
    simp only [TOp.run, TOp.exec, St.bind_apply, e1]
  have hrun : TOp.run .debug [.insert [a] v, .insert [b] w] (Dom.new : Dom T) =
      (do let x ← TOp.run .debug [.insert [b] w]; pure (r.2.join :: x) : St (Dom T) (List (Option T))) s1 := by
    simp only [TOp.run, TOp.exec, St.bind_apply, e1]
    rfl
  rw [hrun]
  have hone : ∃ nm, SameName nm ([a] ++ [[]]) ∧ bag [] t1 = {⟨r.1, nm, v, false, false⟩} := by
    rcases ins with ⟨e, R, hb, -⟩ | ⟨-, -, nm, X, hnm, hb, hX⟩
    · have := congrArg Multiset.card hb; simp at this
    · rcases hX with rfl | ⟨q, nm2, -, -, e, he, -⟩
      · exact ⟨nm, hnm, by rw [hb]; simp⟩
      · simp at he
  obtain ⟨nm, hnm, hb1⟩ := hone
  obtain ⟨i, rfl, hi⟩ := single_of_bag hb1
  simp only at hi
  have hne : i.labels ≠ [] := by
    rw [hi]; intro e0; rw [e0] at hnm; simp [SameName, lowerName] at hnm
  have habs : AbsName none ([b] ++ [[]]) := ⟨[b], hb, any _, rfl⟩
  have hroot : s1.root = i.addr := Hold.root (Z.hold i1.mem)
  obtain ⟨cur, n, g1, g2, g3, -, g5⟩ := round (m := .debug) (A := none) (.inr rfl) (rest := []) (lc := []) i1.mem hne
    (node_labs (rest := []) (lc := []) i1.names) (habs.labs (List.Sublist.refl _)) (LabelSlice.view_of_name hb)
  have hcool : ¬ Cool .debug ([b] ++ [[]]) i.labels := by
    obtain ⟨a', ea, el⟩ : ∃ a', nm = [a', []] ∧ lowerLabel a' = lowerLabel a := by
      unfold SameName lowerName at hnm
      match nm, hnm with
      | [x, y], hnm =>
        simp only [List.map_cons, List.map_nil, List.cons_append, List.nil_append, List.cons.injEq, and_true] at hnm
        have hy : y = [] := by
          have := congrArg List.length hnm.2
          simp only [lowerLabel, List.length_map, List.length_nil] at this
          exact List.length_eq_zero_iff.1 this
        exact ⟨x, by rw [hy], hnm.1⟩
      | [], hnm => simp at hnm
      | [_], hnm => simp at hnm
      | _ :: _ :: _ :: _, hnm => simp at hnm
    have hlen : a'.length = a.length := by have := congrArg List.length el; simpa [lowerLabel] using this
    have ha63 := ha.len63 a (by simp)
    have hb63 := hb.len63 b (by simp)
    have hs := list_spec .debug [[], b] [[], a'] 0 (by simp) (by simp) (.inl ⟨by simp, by simp⟩)
      (by intro l hl; simp only [List.mem_cons, List.not_mem_nil, or_false] at hl; rcases hl with rfl | rfl <;> simp [hb63])
      (by intro l hl; simp only [List.mem_cons, List.not_mem_nil, or_false] at hl; rcases hl with rfl | rfl <;> simp [hlen, ha63])
    have hno : labelOrder (diffOrder true) b a' = none := by
      rcases Decidable.em (labelOrder (diffOrder true) b a' = none) with h0 | h0
      · exact h0
      · exact absurd (near_lower rfl el ((near_iff b a').1 h0)) h
    have ho : listOrder (diffOrder (checks .debug)) [[], b] [[], a'] = none := by
      show listOrder (diffOrder true) [[], b] [[], a'] = none
      simp only [listOrder, labelOrder, hno]
    rw [ho] at hs
    intro hc
    refine hc ?_
    rw [hi, ea]
    exact hs
  have g6 := (g5.resolve_left hcool).2.2
  have hins : Dom.insert .debug (Name.ofLabels [b]) w s1 = (.panic, s1) := by
    unfold Dom.insert
    rw [St.lift_ok_bind (LabelSlice.from_name_ofLabels [b]), St.get_bind, St.bind_apply]
    have : insertLoop .debug (2 * s1.next + 4) 0 0 s1.root (-1) ⟨(Name.ofLabels [b]).raw, (Name.ofLabels [b]).offsets, 0, [b].length⟩ s1 = (.panic, s1) := by
      rw [show 2 * s1.next + 4 = (2 * s1.next + 3) + 1 from rfl]
      unfold insertLoop
      have hd : (Dom.deref i.addr : St (Dom T) (Node T)) s1 = (.ok n, s1) := by simp [Dom.deref, g1]
      rw [hroot, if_neg (show i.addr ≠ 0 from i1.represents.layout.1), St.bind_ok hd, St.lift_ok_bind g3, g6]
      rfl
    rw [this]
  simp only [TOp.run, TOp.exec, St.bind_apply, hins]

/-- a history of legal names whose panics are caught: the names 160 and 150 cannot be compared with the name 48, the others answer as a map of
the operations that went through -/
def DebugSample.ops : List (TOp Nat) := [.insert [[48]] (some 1), .insert [[160]] (some 2), .get [[48]], .get [[160]], .insert [[200]] (some 3), .insert [[150]] (some 4),
  .get [[200]], .get [[48]]]

theorem DebugSample.legal : ∀ op ∈ DebugSample.ops, ∀ ls ∈ op.names, ValidName ls := by
  intro op hop ls hls
  simp only [DebugSample.ops, List.mem_cons, List.not_mem_nil, or_false] at hop
  rcases hop with rfl | rfl | rfl | rfl | rfl | rfl | rfl | rfl <;>
    (simp only [TOp.names, List.mem_cons, List.not_mem_nil, or_false] at hls; subst hls; decide +kernel)

theorem c98_example : (∀ op ∈ DebugSample.ops, ∀ ls ∈ op.names, ValidName ls) ∧
    (TOp.caught .debug DebugSample.ops Dom.new).1 =
      [.ok none, .panic, .ok (some 1), .panic, .ok none, .panic, .ok (some 3), .ok (some 1)] :=
  ⟨DebugSample.legal, by decide +kernel⟩

/-- a history for `c98_table`: the third operation panics, the fourth removes the value of 48 although another name was given (C60), as the table does -/
theorem c98_table_example : (TOp.caught .debug [.insert [[48]] (some 1), .insert [[97], [48]] (some 2), .insert [[160]] (some 3), .remove [[98], [48]], .get [[48]]]
      (Dom.new : Dom Nat)).1 = [.ok none, .ok none, .panic, .ok (some 1), .ok none] ∧
    (TOp.caught .debug [.insert [[48]] (some 1), .insert [[97], [48]] (some 2), .insert [[160]] (some 3), .remove [[98], [48]], .get [[48]]]
      (Dom.new : Dom Nat)).2.len = 2 ∧
    ((Table.empty : Table Nat).after [.insert [[48]] (some 1), .insert [[97], [48]] (some 2), .remove [[98], [48]], .get [[48]]]).nodes.length = 2 := by
  decide +kernel

/-- the premises of `c98_near` are met by names that are not ASCII, and the answers are those of the map -/
theorem c98_near_example : ∃ outs s, TOp.run .debug [.insert [[195, 169], [200]] (some 1), .insert [[195, 168], [200]] (some 2), .get [[195, 137], [200]], .get [[195, 168], [200]]]
      (Dom.new : Dom Nat) = (.ok outs, s) ∧ outs = [none, none, none, some 2] := by
  obtain ⟨outs, s, e, h⟩ := c98_near .debug [.insert [[195, 169], [200]] (some 1), .insert [[195, 168], [200]] (some 2), .get [[195, 137], [200]], .get [[195, 168], [200]]]
    (by
      intro op hop ls hls
      simp only [List.mem_cons, List.not_mem_nil, or_false] at hop
      rcases hop with rfl | rfl | rfl | rfl <;>
        (simp only [TOp.names, List.mem_cons, List.not_mem_nil, or_false] at hls; subst hls; decide +kernel))
    (by
      have up : ∀ op ∈ ([.insert [[195, 169], [200]] (some 1), .insert [[195, 168], [200]] (some 2), .get [[195, 137], [200]], .get [[195, 168], [200]]] : List (TOp Nat)),
          ∀ ls ∈ op.names, ∀ a ∈ ls, ∀ c ∈ a, 128 ≤ c.toNat := by
        intro op hop ls hls
        simp only [List.mem_cons, List.not_mem_nil, or_false] at hop
        rcases hop with rfl | rfl | rfl | rfl <;>
          (simp only [TOp.names, List.mem_cons, List.not_mem_nil, or_false] at hls; subst hls; decide +kernel)
      intro o1 h1 _ l1 g1 a ha o2 h2 _ l2 g2 b hb
      exact c98_upper (up o1 h1 l1 g1 a ha) (up o2 h2 l2 g2 b hb))
  exact ⟨outs, s, e, h ⟨trivial, trivial, trivial, trivial, trivial⟩⟩

/-- in a release build the names only looked for can be any: here such a name is looked for, and asked to be removed, between ASCII names; in a debug
build the same history panics -/
theorem c98_release_example : ∃ s, TOp.run .release [.insert [[48]] (some 1), .get [[160]], .insert [[97], [48]] (some 2), .remove [[160], [49]], .removeNode [[200], [48]], .get [[97], [48]]]
      (Dom.new : Dom Nat) = (.ok [none, none, none, none, none, some 2], s) ∧ s.len = 2 ∧
    (TOp.run .debug [.insert [[48]] (some 1), .get [[160]]] (Dom.new : Dom Nat)).1 = .panic := by
  have hok : ∀ op ∈ ([.insert [[48]] (some 1), .get [[160]], .insert [[97], [48]] (some 2), .remove [[160], [49]], .removeNode [[200], [48]], .get [[97], [48]]] : List (TOp Nat)),
      ∀ ls ∈ op.names, ValidName ls ∧ (op.Inserts → ∀ a ∈ ls, ∀ c ∈ a, c.toNat < 128) := by
    intro op hop ls hls
    simp only [List.mem_cons, List.not_mem_nil, or_false] at hop
    rcases hop with rfl | rfl | rfl | rfl | rfl | rfl <;>
      (simp only [TOp.names, List.mem_cons, List.not_mem_nil, or_false] at hls; subst hls; decide +kernel)
  obtain ⟨s, e, hl, -⟩ := c98_near_table .release _ (fun op ho ls hl => (hok op ho ls hl).1) (by
    intro o1 h1 i1 l1 g1 a ha o2 h2 i2 l2 g2 b hb
    exact near_ascii ((hok o1 h1 l1 g1).2 (i1.resolve_left (by simp)) a ha) ((hok o2 h2 l2 g2).2 (i2.resolve_left (by simp)) b hb))
  exact ⟨s, e, by rw [hl]; decide +kernel, by decide +kernel⟩

/-- names that are not ASCII with a tree for which the premises of `c98_near_find`, `c98_near_chain`, `c98_near_callbacks` and `c98_near_levels` are met: a name
below a stored one -/
theorem c98_near_reached_example : NearReached .debug [.insert [[195, 169], [200]] (some 1), .insert [[195, 168], [200]] (some 2)] [[233], [195, 168], [200]]
      (TOp.run .debug [.insert [[195, 169], [200]] (some 1), .insert [[195, 168], [200]] (some 2)] (Dom.new : Dom Nat)).2 ∧
    (Table.empty.after ([.insert [[195, 169], [200]] (some 1), .insert [[195, 168], [200]] (some 2)] : List (TOp Nat))).nodes.closest (lowerName [[233], [195, 168], [200]]) =
      some [[195, 168], [200]] := by
  refine ⟨⟨?_, by decide +kernel, ?_, [none, none], pair_of (by decide +kernel)⟩, by decide +kernel⟩
  · intro op hop ls hls
    simp only [List.mem_cons, List.not_mem_nil, or_false] at hop
    rcases hop with rfl | rfl <;>
      (simp only [TOp.names, List.mem_cons, List.not_mem_nil, or_false] at hls; subst hls; decide +kernel)
  · have up : ∀ op ∈ ([.get [[233], [195, 168], [200]], .insert [[195, 169], [200]] (some 1), .insert [[195, 168], [200]] (some 2)] : List (TOp Nat)),
        ∀ ls ∈ op.names, ∀ a ∈ ls, ∀ c ∈ a, 128 ≤ c.toNat := by
      intro op hop ls hls
      simp only [List.mem_cons, List.not_mem_nil, or_false] at hop
      rcases hop with rfl | rfl | rfl <;>
        (simp only [TOp.names, List.mem_cons, List.not_mem_nil, or_false] at hls; subst hls; decide +kernel)
    intro o1 h1 _ l1 g1 a ha o2 h2 _ l2 g2 b hb
    exact c98_upper (up o1 h1 l1 g1 a ha) (up o2 h2 l2 g2 b hb)

/-- and for `c98_near_stable`: the other stored name is removed -/
theorem c98_near_stable_example :
    ((TOp.run .debug [.insert [[195, 169], [200]] (some 1), .insert [[195, 168], [200]] (some 2)] (Dom.new : Dom Nat)).2.find .debug (Name.ofLabels [[195, 168], [200]])) =
      .ok ⟨3, .ExactMatch⟩ ∧ ∀ op ∈ ([.removeNode [[195, 169], [200]], .get [[200]]] : List (TOp Nat)), op.Spares [[195, 168], [200]] := by
  refine ⟨by decide +kernel, fun op hop => ?_⟩
  simp only [List.mem_cons, List.not_mem_nil, or_false] at hop
  rcases hop with rfl | rfl
  · show lowerName _ ≠ lowerName _; decide
  · trivial

/-- the premises of `c98_far` are met: the digit 0 and the octet 160 -/
example : ValidName [[48]] ∧ ValidName [[160]] ∧ ¬ Near [160] [48] :=
  ⟨by decide +kernel, by decide +kernel, fun h => absurd (h [] 160 48 [] [] rfl rfl) (by decide +kernel)⟩

end R53
