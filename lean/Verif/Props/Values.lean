import Verif.Proofs.TreeValues
import Verif.Props.Tree
/-!
# C85, C86: domain trees of any names

The claims C58 to C69 and C83 are about ASCII names, because the comparison of labels is wrong for octets of 128 and more. In a release
build such a tree is out of order, and a search may miss a name; these are the guarantees that still hold then.
-/
namespace R53
open Dom

variable {T : Type}

/-- no history of legal operations panics or touches freed memory; each leaves a well-formed tree of legal names whose levels are balanced,
and without `clear` the tree knows its size -/
theorem c85_tree (m : Build) (ops : List (TOp T)) (hok : ∀ op ∈ ops, op.Legal m) :
    ∃ outs s t, TOp.run m ops Dom.new = (.ok outs, s) ∧ outs.length = ops.length ∧ Represents s t ∧ t.Balanced ∧
      (∀ x ∈ t.levels, x.height ≤ 2 * Nat.log2 (x.ents.length + 1)) ∧
      (∀ e ∈ t.nodes [], ∃ ls, ValidName ls ∧ e.name = ls ++ [[]]) ∧ (TOp.clear ∉ ops → s.len = (t.nodes []).length) := by
  obtain ⟨outs, s, e, t, δ, h, hd, -, hl, -⟩ := Free.run_spec (m := m) (done := []) ops Free.Inv.new (fun _ h => nomatch h) hok
  have lv : ∀ x ∈ t.levels, Free.Level x := by
    intro x hx
    rcases List.mem_cons.1 hx with rfl | hx
    · exact h.ok.1
    · exact h.ok.2.lower x hx
  refine ⟨outs, s, t, e, hl, h.represents, lv, fun x hx => (lv x hx).tall, fun e he => ?_, fun hc => ?_⟩
  · obtain ⟨ls, h1, -, h2⟩ := h.names e he
    exact ⟨ls, h1, h2⟩
  · rw [h.len, hd hc, size_bag []]; rfl

/-- a search always ends and answers a node of the name, a node above it, or nothing -/
theorem c85_find (m : Build) (ops : List (TOp T)) (hok : ∀ op ∈ ops, op.Legal m) (ls : List Label) (hv : ValidName ls)
    (ha : m = .release ∨ ∀ l ∈ ls, ∀ c ∈ l, c.toNat < 128) :
    ∃ outs s t r, TOp.run m ops Dom.new = (.ok outs, s) ∧ Represents s t ∧ s.find m (Name.ofLabels ls) = .ok r ∧ Dom.Sound t ls r := by
  obtain ⟨outs, s, e, t, δ, h, -⟩ := Free.run_spec (m := m) (done := []) ops Free.Inv.new (fun _ h => nomatch h) hok
  obtain ⟨r, e', hr⟩ := Free.find_found h hv ha
  refine ⟨outs, s, t, r, e, h.represents, e', ?_⟩
  cases hr with
  | exact e mem same => exact ⟨e, mem, rfl, same.symm⟩
  | above e mem sub => exact ⟨e, mem, rfl, sub⟩
  | none => rfl

/-- no value is lost or copied: the values given to the tree are those handed back, those stored in it and, after a `clear`, those dropped by it -/
theorem c86_values (m : Build) (ops : List (TOp T)) (hok : ∀ op ∈ ops, op.Legal m) :
    ∃ outs s t lost, TOp.run m ops Dom.new = (.ok outs, s) ∧ Represents s t ∧
      (ops.flatMap TOp.given).Perm (TOp.allTaken ops outs ++ t.values ++ lost) ∧ (TOp.clear ∉ ops → lost = []) := by
  obtain ⟨outs, s, e, t, δ, h, -, -, -, ⟨lost, hc, hl⟩, -⟩ := Free.run_spec (m := m) (done := []) ops Free.Inv.new (fun _ h => nomatch h) hok
  obtain ⟨lost, rfl⟩ := Quot.exists_rep lost
  refine ⟨outs, s, t, lost, e, h.represents, ?_, fun hc => by simpa using hl hc⟩
  rw [← Multiset.coe_eq_coe, ← Multiset.coe_add, ← Multiset.coe_add]
  simpa [bag, Tr.nodes, Tr.values, Free.vals] using hc

/-- every answer with a value gives a value that was inserted before under a name the operation asks for, and not cleared since -/
theorem c86_source (m : Build) (ops : List (TOp T)) (hok : ∀ op ∈ ops, op.Legal m) (outs : List (Option T)) (s : Dom T)
    (h : TOp.run m ops Dom.new = (.ok outs, s)) (pre post : List (TOp T)) (op : TOp T) (e : ops = pre ++ op :: post) (v : T)
    (hv : outs[pre.length]? = some (some v)) : ∃ a ls b, pre = a ++ .insert ls (some v) :: b ∧ TOp.clear ∉ b ∧ op.Asks ls := by
  obtain ⟨outs', s', h', t, δ, -, -, -, -, -, hs⟩ := Free.run_spec (m := m) (done := []) ops Free.Inv.new (fun _ h => nomatch h) hok
  rw [h] at h'
  cases h'
  exact hs pre op post e v hv

/-- a history of legal names that are not ASCII, in a release build -/
def ValueSample.ops : List (TOp Nat) := [.insert [[243]] (some 0), .insert [[204]] (some 1), .insert [[72]] (some 2), .removeNode [[243]],
  .insert [[204]] (some 4), .removeNode [[72]], .insert [[204]] (some 6), .insert [[11]] (some 7), .insert [[222]] (some 8), .removeNode [[72]]]

theorem ValueSample.legal : ∀ op ∈ ValueSample.ops, op.Legal .release := by
  intro op hop ls hls
  refine ⟨?_, .inl rfl⟩
  simp only [ValueSample.ops, List.mem_cons, List.not_mem_nil, or_false] at hop
  rcases hop with rfl | rfl | rfl | rfl | rfl | rfl | rfl | rfl | rfl | rfl <;>
    (simp only [TOp.names, List.mem_cons, List.not_mem_nil, or_false] at hls; subst hls; decide +kernel)

/-- the premises of C85 and C86 are met; VIOLATION of C58 for names that are not ASCII: the first `removeNode` of the name 72 finds
nothing although the name was inserted, and the second hands out the value -/
theorem c86_lost_violated : (∀ op ∈ ValueSample.ops, op.Legal .release) ∧
    (TOp.run .release ValueSample.ops Dom.new).1 = .ok [none, none, none, some 0, some 1, none, some 4, none, none, some 2] ∧
    ValueSample.ops[5]? = ValueSample.ops[9]? :=
  ⟨ValueSample.legal, by decide +kernel, rfl⟩

/-- VIOLATION of C58 for names that are not ASCII: the value 4 replaces the value 2 of the name 0 and is found; after operations on other
names the same search answers the value 2 again -/
theorem c86_stale_violated :
    (TOp.run .release [.insert [[200]] (some 0), .insert [[127]] (some 1), .insert [[0]] (some 2), .removeNode [[200]], .insert [[0]] (some 4), .get [[0]],
      .removeNode [[127]], .insert [[40]] (some 6), .insert [[160]] (some 8), .get [[0]]] (Dom.new : Dom Nat)).1 =
      .ok [none, none, none, some 0, none, some 4, some 1, none, none, some 2] := by
  decide +kernel

end R53
