import Verif.Props.Nodes
import Verif.Props.Values
/-!
# Cases that meet the premises of C61, C62, C63, C68 and C85
-/
namespace R53
open Dom
open Name (ofLabels)

/-- C61, C62, C63: the history of `c58_map_example` (a node that is split, a name in capitals, removals) reaches a tree of four nodes; no `clear` and no zero octet in it -/
theorem c61_example : ∃ s : Dom Nat, TreeReached .release TreeSample.ops s ∧ TOp.clear ∉ TreeSample.ops ∧ (∀ op ∈ TreeSample.ops, op.NoNul) ∧
    ValidName TreeSample.acom ∧ s.len = 4 ∧ s.is_empty = false := by
  refine ⟨(TOp.run .release TreeSample.ops Dom.new).2, ⟨TreeSample.ok, [none, none, none, none, some 4, some 1, none, some 4, none, some 2, none, some 3], pair_of (by decide +kernel)⟩, by simp [TreeSample.ops], ?_, by decide, by decide +kernel, by decide +kernel⟩
  · have h1 : ∀ ls ∈ [TreeSample.com, TreeSample.acom, TreeSample.Acom, TreeSample.bacom, TreeSample.cacom, TreeSample.net], ∀ l ∈ ls, l.getLast? ≠ some 0 := by decide
    intro op hop ls hls
    simp only [TreeSample.ops, List.mem_cons, List.not_mem_nil, or_false] at hop
    refine h1 ls ?_
    rcases hop with rfl | rfl | rfl | rfl | rfl | rfl | rfl | rfl | rfl | rfl | rfl | rfl <;> (simp only [TOp.names, List.mem_singleton] at hls; subst hls; decide)

/-- C68: histories also with `remove` of a name whose parent is stored (which C58 has to leave out) -/
theorem c68_example : (∀ op ∈ [TOp.insert TreeSample.com (some 1), .remove TreeSample.acom, .get TreeSample.com], op.OK .debug) ∧
    (TOp.run .debug [.insert TreeSample.com (some 1), .remove TreeSample.acom, .get TreeSample.com] (Dom.new : Dom Nat)).1 = .ok [none, some 1, none] := by
  refine ⟨fun op hop ls hls => ?_, by decide +kernel⟩
  simp only [List.mem_cons, List.not_mem_nil, or_false] at hop
  rcases hop with rfl | rfl | rfl <;> (simp only [TOp.names, List.mem_singleton] at hls; subst hls; exact ⟨by decide, fun _ => by decide⟩)

/-- C85: a search in a tree of names that are not ASCII -/
theorem c85_example : (∀ op ∈ ValueSample.ops, op.Legal .release) ∧ ValidName [[204]] ∧
    ((TOp.run .release ValueSample.ops Dom.new).2.find .release (ofLabels [[204]])) = .ok ⟨3, .ExactMatch⟩ := by
  exact ⟨ValueSample.legal, by decide, by decide +kernel⟩

end R53
