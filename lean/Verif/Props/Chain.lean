import Verif.Proofs.Chain
import Verif.Props.Values
/-!
# C99: node chains

A chain is a stack of at most 128 nodes; `find_node` pushes the nodes above the name on the way down. Model/Tree describes the chain by the
list of its nodes; here it is the array of the code, with whatever popped nodes leave in it.
-/
namespace R53
open Dom

variable {T : Type}

/-- every history of calls on a new chain is answered as a stack that holds at most 128 nodes answers it (`bottom`: see ChainOp.stack) -/
theorem c99_stack_partial (ops : List ChainOp) : ChainOp.run NodeChain.new ops = ChainOp.stack [] 0 ops :=
  run_stack ops NodeChain.Fit.new rfl

/-- popped nodes stay in the array: `bottom` of a chain without nodes is the null pointer for a new chain, but the old first node for an emptied one -/
theorem c99_bottom_violated (p : Ptr) : ChainOp.run NodeChain.new [.bottom] = .ok [some 0] ∧
    ChainOp.run NodeChain.new [.push p, .pop, .bottom] = .ok [none, some p, some p] := ⟨rfl, rfl⟩

/-- three nodes in, two out, and a fourth one in their place -/
theorem c99_stack_example : ChainOp.run NodeChain.new [.push 5, .push 6, .push 7, .pop, .top, .pop, .push 8, .top, .bottom, .pop, .pop] =
    .ok [none, none, none, some 7, some 6, some 6, none, some 8, some 5, some 8, some 5] ∧ ChainOp.run NodeChain.new [.push 5, .pop, .top] = .panic := by decide +kernel

/-- whatever the state of the tree, the chain and the callback: a search on the array ends as the search of Model/Tree on the list of the nodes below `level_count` does -/
theorem c99_array {P : Type} (m : Build) (s : Dom T) (n : Name) (cb : Option (Ptr → Name → P → Bool × P)) (p : P) (c : NodeChain) (h : c.Fit) :
    (find_node_ext m s n c.live cb p = .panic ∧ searchA m s n c cb p = .panic) ∨ (find_node_ext m s n c.live cb p = .err ∧ searchA m s n c cb p = .err) ∨
    ∃ r c' q, searchA m s n c cb p = .ok (r, c', q) ∧ c'.Fit ∧ find_node_ext m s n c.live cb p = .ok (r, c'.live, q) := by
  have := search_same m s n cb h p
  cases h1 : searchA m s n c cb p with
  | err => cases h2 : find_node_ext m s n c.live cb p <;> rw [h1, h2] at this <;> simp_all [SameEnd]
  | panic => cases h2 : find_node_ext m s n c.live cb p <;> rw [h1, h2] at this <;> simp_all [SameEnd]
  | ok x =>
    cases h2 : find_node_ext m s n c.live cb p with
    | err => rw [h1, h2] at this; exact this.elim
    | panic => rw [h1, h2] at this; exact this.elim
    | ok y =>
      obtain ⟨r, c', q⟩ := x
      obtain ⟨r', d, q'⟩ := y
      rw [h1, h2] at this
      obtain ⟨rfl, hf, rfl, rfl⟩ := this
      exact .inr (.inr ⟨_, _, _, rfl, hf, rfl⟩)

/-- a search on a used chain, after any legal history -/
theorem used {m : Build} {s : Dom T} {t : Tr T} {δ : Nat} (h : Free.Inv m s t δ) {ls : List Label} (hv : ValidName ls) (ha : m = .release ∨ ∀ l ∈ ls, ∀ c ∈ l, c.toNat < 128) :
    ∃ r L, Free.Way t (ls ++ [[]]) r L ∧ L.length ≤ 128 ∧ ∀ c : NodeChain, c.Fit →
      if c.level_count + L.length ≤ 128 then
        ∃ c', searchA m s (Name.ofLabels ls) c (none : Option (Ptr → Name → Unit → Bool × Unit)) () = .ok (r, c', ()) ∧ c'.Fit ∧ c'.stacked = c.stacked ++ addrs L
      else searchA m s (Name.ofLabels ls) c (none : Option (Ptr → Name → Unit → Bool × Unit)) () = .panic := by
  obtain ⟨r, c0, L, e, -, hL, hw⟩ := Free.find_way h hv ha
  have hlen : c0.nodes.length = L.length := by rw [hL]; simp [addrs]
  have key : ∀ c : NodeChain, c.Fit → find_node_ext m s (Name.ofLabels ls) c.live (none : Option (Ptr → Name → Unit → Bool × Unit)) () =
      if c.level_count + L.length ≤ 128 then .ok (r, c0.behind c.live.nodes (c.live.last_compared, c.live.last_compared_result), ()) else .panic := by
    intro c hc
    have hl : c.live.nodes.length = c.level_count := hc.length
    have := search_behind (P := Unit) m s (Name.ofLabels ls) c.live (by rw [hl]; exact hc.count) ()
    rw [e] at this
    simp only [Behind] at this
    rw [this, hl, hlen]
  refine ⟨r, L, hw, ?_, fun c hc => ?_⟩
  · have := key NodeChain.new NodeChain.Fit.new
    rw [show NodeChain.new.live = Chain.new from rfl, e] at this
    by_cases h1 : NodeChain.new.level_count + L.length ≤ 128
    · have e0 : NodeChain.new.level_count = 0 := rfl
      omega
    · rw [if_neg h1] at this; cases this
  · have hk := key c hc
    rcases c99_array m s (Name.ofLabels ls) (none : Option (Ptr → Name → Unit → Bool × Unit)) () c hc with ⟨h1, h2⟩ | ⟨h1, h2⟩ | ⟨r', c', q, h1, h2, h3⟩
    · split
      · rename_i hl; rw [if_pos hl, h1] at hk; cases hk
      · exact h2
    · split
      · rename_i hl; rw [if_pos hl, h1] at hk; cases hk
      · rename_i hl; rw [if_neg hl, h1] at hk; cases hk
    · split
      · rename_i hl
        rw [if_pos hl, h3] at hk
        simp only [Res.ok.injEq, Prod.mk.injEq] at hk
        obtain ⟨rfl, e5, -⟩ := hk
        refine ⟨c', h1, h2, ?_⟩
        have e6 : c'.live.nodes = c.live.nodes ++ c0.nodes := congrArg Chain.nodes e5
        exact e6.trans (by rw [hL]; rfl)
      · rename_i hl; rw [if_neg hl, h3] at hk; cases hk

/-- after any legal history: a search without callback leaves on a new chain nodes that are above the name or it, from the top down, the last one the node found, and
there are none iff nothing is found; on a chain in use the answer is the same and these nodes are pushed on top of those that are there, if 128 hold them all, and
else it panics -/
theorem c99_search_partial (m : Build) (ops : List (TOp T)) (hok : ∀ op ∈ ops, op.Legal m) (ls : List Label) (hv : ValidName ls)
    (ha : m = .release ∨ ∀ l ∈ ls, ∀ c ∈ l, c.toNat < 128) :
    ∃ outs s t r, ∃ L : List (Entry T), TOp.run m ops Dom.new = (.ok outs, s) ∧ Represents s t ∧
      (∀ e ∈ L, e ∈ t.nodes [] ∧ IsSubdomain (ls ++ [[]]) e.name) ∧ (L.Pairwise fun a b => a.name.length < b.name.length) ∧
      (r.flag = .NotFound ↔ L = []) ∧ (∀ e, L.getLast? = some e → r.node = e.addr) ∧ L.length ≤ ls.length + 1 ∧
      ∀ c : NodeChain, c.Fit →
        if c.level_count + L.length ≤ 128 then
          ∃ c', searchA m s (Name.ofLabels ls) c (none : Option (Ptr → Name → Unit → Bool × Unit)) () = .ok (r, c', ()) ∧ c'.Fit ∧ c'.stacked = c.stacked ++ L.map Entry.addr
        else searchA m s (Name.ofLabels ls) c (none : Option (Ptr → Name → Unit → Bool × Unit)) () = .panic := by
  obtain ⟨outs, s, e, t, δ, h, -⟩ := Free.run_spec (m := m) (done := []) ops Free.Inv.new (fun _ h => nomatch h) hok
  obtain ⟨r, L, hw, hlen, hu⟩ := used h hv ha
  refine ⟨outs, s, t, r, L, e, h.represents, hw.mem, hw.sorted, hw.none, fun x hx => ?_, ?_, hu⟩
  · rw [hw.last, addrs, List.getLast?_map, hx]; rfl
  · have hb : ∀ x ∈ L, x.name.length ≤ ls.length + 1 := by
      intro x hx
      have h1 := List.IsSuffix.length_le (hw.mem x hx).2
      rw [Name.lowerName_length, Name.lowerName_length] at h1
      simpa using h1
    have hpos : ∀ x ∈ L, 0 < x.name.length := by
      intro x hx
      obtain ⟨ks, -, -, hks⟩ := h.names x (hw.mem x hx).1
      rw [hks]; simp
    have : ∀ (L : List (Entry T)) (lo : Nat), (L.Pairwise fun a b => a.name.length < b.name.length) → (∀ x ∈ L, lo < x.name.length ∧ x.name.length ≤ ls.length + 1) → lo ≤ ls.length + 1 → L.length + lo ≤ ls.length + 1 := by
      intro L
      induction L with
      | nil => intro lo _ _ h; simpa using h
      | cons a L ih =>
        intro lo hp hx _
        rw [List.pairwise_cons] at hp
        have ha := hx a (by simp)
        have := ih a.name.length hp.2 (fun x hm => ⟨hp.1 x hm, (hx x (by simp [hm])).2⟩) ha.2
        simp only [List.length_cons]; omega
    have := this L 0 hw.sorted (fun x hx => ⟨hpos x hx, hb x hx⟩) (by omega)
    simpa using this

/-- nothing takes the nodes of earlier searches off a chain: `k` searches for one name on the same chain succeed iff `k` times the nodes of the first fit in 128 -/
theorem c99_again (m : Build) (ops : List (TOp T)) (hok : ∀ op ∈ ops, op.Legal m) (ls : List Label) (hv : ValidName ls)
    (ha : m = .release ∨ ∀ l ∈ ls, ∀ c ∈ l, c.toNat < 128) :
    ∃ outs s r c, TOp.run m ops Dom.new = (.ok outs, s) ∧ searchA m s (Name.ofLabels ls) NodeChain.new (none : Option (Ptr → Name → Unit → Bool × Unit)) () = .ok (r, c, ()) ∧
      (c.level_count = 0 ↔ r.flag = .NotFound) ∧
      ∀ k, ((∃ d, s.searchAgain m (Name.ofLabels ls) k NodeChain.new = .ok d) ↔ k * c.level_count ≤ 128) ∧ (¬ k * c.level_count ≤ 128 → s.searchAgain m (Name.ofLabels ls) k NodeChain.new = .panic) := by
  obtain ⟨outs, s, e, t, δ, h, -⟩ := Free.run_spec (m := m) (done := []) ops Free.Inv.new (fun _ h => nomatch h) hok
  obtain ⟨r, L, hw, hlen, hu⟩ := used h hv ha
  have h0 := hu NodeChain.new NodeChain.Fit.new
  have e0 : NodeChain.new.level_count = 0 := rfl
  rw [if_pos (by omega)] at h0
  obtain ⟨c, hc, hcf, hcs⟩ := h0
  have hcl : c.level_count = L.length := by
    rw [← hcf.length, hcs]; simp [NodeChain.stacked, e0, addrs]
  have key : ∀ k (d : NodeChain), d.Fit → if d.level_count + k * L.length ≤ 128 then ∃ d', s.searchAgain m (Name.ofLabels ls) k d = .ok d' else s.searchAgain m (Name.ofLabels ls) k d = .panic := by
    intro k
    induction k with
    | zero =>
      intro d hd
      have := hd.count
      rw [if_pos (by omega)]; exact ⟨d, rfl⟩
    | succ k ih =>
      intro d hd
      have hm : (k + 1) * L.length = k * L.length + L.length := Nat.succ_mul _ _
      have h1 := hu d hd
      rw [searchAgain]
      by_cases hl : d.level_count + L.length ≤ 128
      · rw [if_pos hl] at h1
        obtain ⟨d', e1, hf, es⟩ := h1
        have hdl : d'.level_count = d.level_count + L.length := by
          rw [← hf.length, es, List.length_append, hd.length]; simp [addrs]
        have h2 := ih d' hf
        rw [e1, Res.bind_ok]
        rw [hdl] at h2
        rw [show d.level_count + (k + 1) * L.length = d.level_count + L.length + k * L.length by omega]
        exact h2
      · rw [if_neg hl] at h1
        rw [h1, if_neg (by omega)]; rfl
  refine ⟨outs, s, r, c, e, hc, ?_, fun k => ?_⟩
  · rw [hcl, hw.none, List.length_eq_zero_iff]
  · have := key k NodeChain.new NodeChain.Fit.new
    rw [e0, Nat.zero_add] at this
    rw [hcl]
    by_cases hl : k * L.length ≤ 128
    · rw [if_pos hl] at this
      exact ⟨⟨fun _ => hl, fun _ => this⟩, fun hn => absurd hl hn⟩
    · rw [if_neg hl] at this
      exact ⟨⟨fun ⟨d, hd⟩ => (by rw [this] at hd; cases hd), fun hn => absurd hn hl⟩, fun _ => this⟩

namespace ChainSample
def ops : List (TOp Nat) := [.insert TreeSample.com (some 1), .insert TreeSample.acom (some 2), .callback TreeSample.com true]
theorem legal : ∀ op ∈ ops, op.Legal .release := by
  intro op hop ls hls
  refine ⟨?_, .inl rfl⟩
  simp only [ops, List.mem_cons, List.not_mem_nil, or_false] at hop
  rcases hop with rfl | rfl | rfl <;>
    (simp only [TOp.names, List.mem_cons, List.not_mem_nil, or_false] at hls; subst hls; decide +kernel)
def tree : Dom Nat := (TOp.run .release ops Dom.new).2
/-- a callback that never stops the search and counts -/
def count : Ptr → Name → Nat → Bool × Nat := fun _ _ k => (false, k + 1)
end ChainSample

/-- the premises are met: a search for `a.com` finds it below `com` -/
theorem c99_example : (∀ op ∈ ChainSample.ops, op.Legal .release) ∧
    (match searchA .release ChainSample.tree (Name.ofLabels TreeSample.acom) NodeChain.new (none : Option (Ptr → Name → Unit → Bool × Unit)) () with
      | .ok (r, c, _) => decide (r.flag = .ExactMatch ∧ c.stacked = [1, 2]) | _ => false) = true := ⟨ChainSample.legal, by decide +kernel⟩

/-- the name has two nodes: the 65th search for it on the same chain panics -/
theorem c99_reuse_violated : (∀ op ∈ ChainSample.ops, op.Legal .release) ∧ (∃ d, ChainSample.tree.searchAgain .release (Name.ofLabels TreeSample.acom) 64 NodeChain.new = .ok d) ∧
    ChainSample.tree.searchAgain .release (Name.ofLabels TreeSample.acom) 65 NodeChain.new = .panic := by
  obtain ⟨outs, s, r, c, e, h1, -, h2⟩ := c99_again .release ChainSample.ops ChainSample.legal TreeSample.acom (by decide +kernel) (.inl rfl)
  have es : ChainSample.tree = s := by unfold ChainSample.tree; rw [e]
  subst es
  have hc : c.level_count = 2 := by
    have : (match searchA .release ChainSample.tree (Name.ofLabels TreeSample.acom) NodeChain.new (none : Option (Ptr → Name → Unit → Bool × Unit)) () with
      | .ok (_, c, _) => decide (c.level_count = 2) | _ => false) = true := by decide +kernel
    rw [h1] at this; exact of_decide_eq_true this
  rw [hc] at h2
  exact ⟨ChainSample.legal, (h2 64).1.2 (by omega), (h2 65).2 (by omega)⟩

/-- and a search with a callback panics the second time on the same chain: the name of the node is put together with the nodes of the first search -/
theorem c99_callback_violated : (∀ op ∈ ChainSample.ops, op.Legal .release) ∧
    (match searchA .release ChainSample.tree (Name.ofLabels TreeSample.acom) NodeChain.new (some ChainSample.count) 0 with
      | .ok (_, c, k) => decide (k = 1 ∧ searchA .release ChainSample.tree (Name.ofLabels TreeSample.acom) c (some ChainSample.count) k = .panic) | _ => false) = true :=
  ⟨ChainSample.legal, by decide +kernel⟩

end R53
