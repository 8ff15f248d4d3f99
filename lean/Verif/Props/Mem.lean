import Verif.Proofs.TreeMem
import Verif.Props.Values
/-!
# C93: the memory of a domain tree

`drop` is `clear` (tree.rs:61-65), so what `clear` leaves allocated is leaked.
-/
namespace R53
open Dom

variable {T : Type}

/-- after every history of operations on ASCII names, the nodes allocated are those in the tree and those that removals took out of it -/
theorem c93_allocated (m : Build) (ops : List (TOp T)) (s : Dom T) (h : TreeReached m ops s) :
    s.Allocated ((Table.empty.after ops).nodes.length + Table.empty.takenOut ops) := by
  obtain ⟨hok, outs, e⟩ := h
  have := run_owns (c := 0) ops ShownA.new hok Owns.new e
  rw [Nat.zero_add] at this
  exact this.count

/-- exactly what is leaked: dropping the tree leaves as many nodes allocated as removals took out of it -/
theorem c93_drop (m : Build) (ops : List (TOp T)) (s : Dom T) (h : TreeReached m ops s) :
    ∃ s', Dom.clear s = (.ok (), s') ∧ s'.Allocated (Table.empty.takenOut ops) := by
  obtain ⟨hok, outs, e⟩ := h
  have ho := run_owns (c := 0) ops ShownA.new hok Owns.new e
  obtain ⟨_, s1, e1, -, t, hs⟩ := run_table (m := m) ops ShownA.new hok
  rw [e] at e1
  cases e1
  rw [Nat.zero_add, hs.tab.length hs.inv] at ho
  obtain ⟨_, s', e', -⟩ := clear_spec hs.inv
  exact ⟨s', e', (clear_owns hs.inv.mem ho e').count⟩

/-- for names of any octets, in every history that does not panic: if nothing was removed, dropping the tree frees all memory; otherwise
some number of nodes beside those of the tree is allocated, and stays so -/
theorem c93_free_partial (m : Build) (ops : List (TOp T)) (hok : ∀ op ∈ ops, op.Legal m) :
    ∃ outs s t k s', TOp.run m ops Dom.new = (.ok outs, s) ∧ Represents s t ∧ s.Allocated ((t.nodes []).length + k) ∧
      Dom.clear s = (.ok (), s') ∧ s'.Allocated k ∧ ((∀ op ∈ ops, ¬ op.Removes) → ∀ p, s'.heap p = none) := by
  obtain ⟨outs, s, e, -⟩ := Free.run_spec (m := m) (done := []) ops Free.Inv.new (fun _ h => nomatch h) hok
  obtain ⟨t, δ, k, h, ho, hk⟩ := Free.run_owns (c := 0) ops Free.Inv.new hok Owns.new e
  obtain ⟨_, s', e', -⟩ := Free.clear_spec h
  have hc := (clear_owns h.mem ho e').count
  refine ⟨outs, s, t, k, s', e, h.represents, ?_, e', hc, fun hn p => ?_⟩
  · have := ho.count
    rw [size_bag []] at this
    exact this
  · obtain ⟨l, -, hl, hp⟩ := hc
    rw [hk hn] at hl
    rw [List.length_eq_zero_iff.1 hl] at hp
    exact Classical.byContradiction fun h => nomatch (hp p).2 h

/-- the premises are met by a history that makes five nodes, two of them where names branch off, and takes one out -/
theorem c93_example : (∃ s : Dom Nat, TreeReached .release TreeSample.ops s) ∧ (Table.empty.after TreeSample.ops).nodes.length = 4 ∧
    (Table.empty : Table Nat).takenOut TreeSample.ops = 1 := by
  refine ⟨⟨(TOp.run .release TreeSample.ops Dom.new).2, TreeSample.ok, [none, none, none, none, some 4, some 1, none, some 4, none, some 2, none, some 3], pair_of (by decide +kernel)⟩, by decide +kernel, by decide +kernel⟩

/-- VIOLATION: a name is inserted and removed; the tree is empty, and dropping it leaves its node allocated -/
theorem c93_violated : ∃ s s' : Dom Nat, TreeReached .release [.insert TreeSample.com (some 1), .removeNode TreeSample.com] s ∧ s.is_empty = true ∧
    Dom.clear s = (.ok (), s') ∧ s'.Allocated 1 := by
  have h : TreeReached .release [.insert TreeSample.com (some 1), .removeNode TreeSample.com]
      (TOp.run .release [.insert TreeSample.com (some 1), .removeNode TreeSample.com] (Dom.new : Dom Nat)).2 := by
    refine ⟨?_, [none, some 1], pair_of (by decide +kernel)⟩
    intro op hop ls hls
    simp only [List.mem_cons, List.not_mem_nil, or_false] at hop
    rcases hop with rfl | rfl <;> (simp only [TOp.names, List.mem_singleton] at hls; subst hls; exact ⟨by decide +kernel, by decide +kernel⟩)
  obtain ⟨s', e, ha⟩ := c93_drop _ _ _ h
  have hn : (Table.empty : Table Nat).takenOut [.insert TreeSample.com (some 1), .removeNode TreeSample.com] = 1 := by decide +kernel
  rw [hn] at ha
  exact ⟨_, s', h, by decide +kernel, e, ha⟩

end R53
