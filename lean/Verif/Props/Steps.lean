import Verif.Proofs.TreeRounds
import Verif.Props.Values
/-!
# C92: a search visits few nodes

The loops of the model (`Dom.findLoop`, `Dom.insertLoop`) take the number of tests of their condition they may make as an argument and panic
when it is used up; `Dom.find_node_ext` and `Dom.insert` give them more than the number of nodes ever made. Here the same loops are given a
number that grows with the logarithm of the number of nodes only. `Dom.insertIn` and `Dom.remove_nodeIn` (Model/Limit) are `insert` and
`remove_node` with such a limit on every loop: the search, the repair of the colours after a change, the way to the node that takes the
place of a removed one, the way up to the top of a level and the removal of nodes left without a purpose above.
-/
namespace R53
open Dom

variable {T : Type}

/-- after any legal history a search, with or without a callback, ends as it does within `1 + (labels of the name) · 2 · log2 (nodes + 1)` tests of its loop condition -/
theorem c92_find (m : Build) (ops : List (TOp T)) (hok : ∀ op ∈ ops, op.Legal m) (ls : List Label) (hv : ValidName ls)
    (ha : m = .release ∨ ∀ l ∈ ls, ∀ c ∈ l, c.toNat < 128) :
    ∃ outs s t slice, TOp.run m ops Dom.new = (.ok outs, s) ∧ Represents s t ∧ (∃ r, s.find m (Name.ofLabels ls) = .ok r) ∧
      LabelSlice.from_name (Name.ofLabels ls) = .ok slice ∧
      ∀ (P : Type) (cb : Option (Ptr → Name → P → Bool × P)) (p : P) (chain : Chain) (n : Nat),
        1 + (ls.length + 1) * (2 * Nat.log2 ((t.nodes []).length + 1)) ≤ n →
        findLoop m s cb n s.root slice ⟨0, .NotFound⟩ chain p = s.find_node_ext m (Name.ofLabels ls) chain cb p := by
  obtain ⟨outs, s, e, t, δ, h, hd, -, hl, -⟩ := Free.run_spec (m := m) (done := []) ops Free.Inv.new (fun _ h => nomatch h) hok
  obtain ⟨r, hr, -⟩ := Free.find_found h hv ha
  have lv : ∀ x ∈ t.levels, x.height ≤ 2 * Nat.log2 (x.ents.length + 1) := by
    intro x hx
    rcases List.mem_cons.1 hx with rfl | hx
    · exact Free.Level.tall h.ok.1
    · exact Free.Level.tall (h.ok.2.lower x hx)
  refine ⟨outs, s, t, _, e, h.represents, ⟨r, hr⟩, LabelSlice.from_name_ofLabels ls, fun P cb p chain n hn => ?_⟩
  unfold find_node_ext
  rw [LabelSlice.from_name_ofLabels ls, Res.bind_ok]
  have hsz := W.size_lt h.mem
  simp only at hsz
  have e1 : (t.nodes []).length = t.size := by rw [size_bag []]; rfl
  have h1 := Tr.steps_log lv (k := ls.length + 1) (by omega)
  have h2 := t.steps_size (ls.length + 1)
  have hc := hv.count
  rw [e1] at hn
  rw [h.represents.root]
  exact findLoop_enough t h.represents.layout (by simp only; omega) (by simp only [Nat.sub_zero]; omega) (by simp only [Nat.sub_zero]; omega)

/-- after any legal history the place for a new name is found within `4 + (labels of the name) · 2 · log2 (nodes + 1)` tests of the loop condition -/
theorem c92_insert (m : Build) (ops : List (TOp T)) (hok : ∀ op ∈ ops, op.Legal m) (ls : List Label) (hv : ValidName ls)
    (ha : m = .release ∨ ∀ l ∈ ls, ∀ c ∈ l, c.toNat < 128) (v : Option T) :
    ∃ outs s t slice, TOp.run m ops Dom.new = (.ok outs, s) ∧ Represents s t ∧ LabelSlice.from_name (Name.ofLabels ls) = .ok slice ∧
      ∀ n, 4 + (ls.length + 1) * (2 * Nat.log2 ((t.nodes []).length + 1)) ≤ n →
        (do
          match ← insertLoop m n 0 0 s.root (-1) slice with
          | .found p => do
            let old ← set_value p v
            pure (p, some old)
          | .free par up order slice => do
            let node ← insertAt (Name.ofLabels ls) v par up order slice
            pure (node, none)) s = Dom.insert m (Name.ofLabels ls) v s ∧ ∃ r s', Dom.insert m (Name.ofLabels ls) v s = (.ok r, s') := by
  obtain ⟨outs, s, e, t, δ, h, hd, -, hl, -⟩ := Free.run_spec (m := m) (done := []) ops Free.Inv.new (fun _ h => nomatch h) hok
  have lv : ∀ x ∈ t.levels, x.height ≤ 2 * Nat.log2 (x.ents.length + 1) := by
    intro x hx
    rcases List.mem_cons.1 hx with rfl | hx
    · exact Free.Level.tall h.ok.1
    · exact Free.Level.tall (h.ok.2.lower x hx)
  refine ⟨outs, s, t, _, e, h.represents, LabelSlice.from_name_ofLabels ls, fun n hn => ⟨?_, ?_⟩⟩
  · have hsz := W.size_lt h.mem
    simp only at hsz
    have e1 : (t.nodes []).length = t.size := by rw [size_bag []]; rfl
    have h1 := Tr.steps_log lv (k := ls.length + 1) (by omega)
    have h2 := t.steps_size (ls.length + 1)
    rw [e1] at hn
    have habs : Free.AnyName m (ls ++ [[]]) := ⟨ls, hv, ha, rfl⟩
    have hat : Free.At (ls ++ [[]]) (ls ++ [[]]) ([] : List (UF T)) [] t := ⟨h.ok, by simp [sufU], by simp⟩
    obtain ⟨r, s', e2, -⟩ := Free.insertLoop_spec (m := m) (tgt := ls ++ [[]]) (full := ls ++ [[]]) (order := -1) (t.steps (ls.length + 1) + 4) h.mem hat h.names
      (habs.labs (List.Sublist.refl _)) (LabelSlice.view_of_name hv) (by simp) trivial (by simp)
    have e3 : ∀ k, t.steps (ls.length + 1) + 4 ≤ k → insertLoop m k 0 0 s.root (-1) ⟨(Name.ofLabels ls).raw, (Name.ofLabels ls).offsets, 0, ls.length⟩ s = (.ok r, s') :=
      fun k hk => insertLoop_more hk (by rw [h.represents.root]; exact e2)
    unfold Dom.insert
    rw [LabelSlice.from_name_ofLabels ls, St.lift_ok_bind rfl, St.get_bind, St.bind_ok (e3 n (by omega)), St.bind_ok (e3 _ (by omega))]
    cases r <;> rfl
  · obtain ⟨r, s', e2, -⟩ := Free.insert_spec h hv ha v
    exact ⟨r, s', e2⟩

/-- after any legal history every loop of `insert` ends within `4 + (labels of the name) · 2 · log2 (nodes + 2)` rounds -/
theorem c92_insert_rounds (m : Build) (ops : List (TOp T)) (hok : ∀ op ∈ ops, op.Legal m) (ls : List Label) (hv : ValidName ls)
    (ha : m = .release ∨ ∀ l ∈ ls, ∀ c ∈ l, c.toNat < 128) (v : Option T) :
    ∃ outs s t, TOp.run m ops Dom.new = (.ok outs, s) ∧ Represents s t ∧ (∃ r s', Dom.insert m (Name.ofLabels ls) v s = (.ok r, s')) ∧
      ∀ n, 4 + (ls.length + 1) * (2 * Nat.log2 ((t.nodes []).length + 2)) ≤ n →
        Dom.insertIn n m (Name.ofLabels ls) v s = Dom.insert m (Name.ofLabels ls) v s := by
  obtain ⟨outs, s, e, t, δ, h, hd, -, hl, -⟩ := Free.run_spec (m := m) (done := []) ops Free.Inv.new (fun _ h => nomatch h) hok
  have lv : ∀ x ∈ t.levels, x.height ≤ 2 * Nat.log2 (x.ents.length + 1) := by
    intro x hx
    rcases List.mem_cons.1 hx with rfl | hx
    · exact Free.Level.tall h.ok.1
    · exact Free.Level.tall (h.ok.2.lower x hx)
  obtain ⟨r, s', e2, -⟩ := Free.insert_spec h hv ha v
  refine ⟨outs, s, t, e, h.represents, ⟨r, s', e2⟩, fun n hn => ?_⟩
  have e1 : (t.nodes []).length = t.size := by rw [size_bag []]; rfl
  have h1 := Tr.steps_log lv (k := ls.length + 1) (by omega)
  rw [e1] at hn
  have h2 : Nat.log2 (t.size + 1) ≤ Nat.log2 (t.size + 2) := Free.log_mono (by omega)
  have h3 : (ls.length + 1) * (2 * Nat.log2 (t.size + 1)) ≤ (ls.length + 1) * (2 * Nat.log2 (t.size + 2)) := Nat.mul_le_mul_left _ (by omega)
  have h4 : 2 * Nat.log2 (t.size + 2) ≤ (ls.length + 1) * (2 * Nat.log2 (t.size + 2)) := Nat.le_mul_of_pos_left _ (by omega)
  obtain ⟨x, s2, e3⟩ := Free.insertIn_ok h hv ha v (n := n) (by omega) (by omega)
  exact ((insert_agree n m _ v).result e2 e3).symm

/-- after any legal history `remove_node` of a node takes out at most as many nodes as its name has labels, and for each of them every loop ends
within `1 + 2 · log2 (nodes + 1)` rounds -/
theorem c92_remove_rounds (m : Build) (ops : List (TOp T)) (hok : ∀ op ∈ ops, op.Legal m) :
    ∃ outs s t, TOp.run m ops Dom.new = (.ok outs, s) ∧ Represents s t ∧ ∀ e ∈ t.nodes [],
      (∃ r s', Dom.remove_node e.addr s = (.ok r, s')) ∧ ∀ levels n, e.name.length ≤ levels → 1 + 2 * Nat.log2 ((t.nodes []).length + 1) ≤ n →
        Dom.remove_nodeIn levels n e.addr s = Dom.remove_node e.addr s := by
  obtain ⟨outs, s, e, t, δ, h, -⟩ := Free.run_spec (m := m) (done := []) ops Free.Inv.new (fun _ h => nomatch h) hok
  refine ⟨outs, s, t, e, h.represents, fun x hx => ?_⟩
  obtain ⟨r, s', e2, -⟩ := h.remove_node hx
  refine ⟨⟨r, s', e2⟩, fun levels n hl hn => ?_⟩
  have e1 : (t.nodes []).length = t.size := by rw [size_bag []]; rfl
  rw [e1] at hn
  obtain ⟨y, s2, e3⟩ := Free.remove_nodeIn_ok h hx hl (n := n) (by omega)
  exact ((remove_node_agree levels n _).result e2 e3).symm

theorem remove_of_find {m : Build} {n : Name} {s : Dom T} {r : FindResult} (h : s.find m n = .ok r) :
    Dom.remove m n s = (if r.node ≠ 0 then Dom.remove_node r.node else pure none : St (Dom T) (Option T)) s := by
  unfold Dom.remove
  exact (St.get_bind _ s).trans (St.lift_ok_bind h _ s)

theorem sub_of_same {a b : List Label} (h : SameName a b) : IsSubdomain a b := by
  have e : lowerName a = lowerName b := h
  unfold IsSubdomain
  rw [e]; exact List.suffix_refl _

/-- the same for `remove` of a name: the node the search answers is taken out within these limits -/
theorem c92_remove_name (m : Build) (ops : List (TOp T)) (hok : ∀ op ∈ ops, op.Legal m) (ls : List Label) (hv : ValidName ls)
    (ha : m = .release ∨ ∀ l ∈ ls, ∀ c ∈ l, c.toNat < 128) :
    ∃ outs s t r, TOp.run m ops Dom.new = (.ok outs, s) ∧ Represents s t ∧ s.find m (Name.ofLabels ls) = .ok r ∧ (∃ x s', Dom.remove m (Name.ofLabels ls) s = (.ok x, s')) ∧
      ∀ n, 1 + 2 * Nat.log2 ((t.nodes []).length + 1) ≤ n →
        Dom.remove m (Name.ofLabels ls) s = (if r.node ≠ 0 then Dom.remove_nodeIn (ls.length + 1) n r.node else pure none : St (Dom T) (Option T)) s := by
  obtain ⟨outs, s, e, t, δ, h, -⟩ := Free.run_spec (m := m) (done := []) ops Free.Inv.new (fun _ h => nomatch h) hok
  obtain ⟨r, hr, hf⟩ := Free.find_found h hv ha
  have e1 : (t.nodes []).length = t.size := by rw [size_bag []]; rfl
  have e0 := remove_of_find hr
  have node : ∀ x ∈ t.nodes [], IsSubdomain (ls ++ [[]]) x.name → (∃ y s', Dom.remove_node x.addr s = (.ok y, s')) ∧
      ∀ n, 1 + 2 * Nat.log2 (t.size + 1) ≤ n → Dom.remove_node x.addr s = Dom.remove_nodeIn (ls.length + 1) n x.addr s := by
    intro x hx hs
    obtain ⟨y, s', e2, -⟩ := h.remove_node hx
    refine ⟨⟨y, s', e2⟩, fun n hn => ?_⟩
    have hlen : x.name.length ≤ (ls ++ [[]]).length := by
      have h1 := List.IsSuffix.length_le hs
      rwa [Name.lowerName_length, Name.lowerName_length] at h1
    obtain ⟨z, s2, e3⟩ := Free.remove_nodeIn_ok h hx (levels := ls.length + 1) (n := n) (by simpa using hlen) (by omega)
    exact (remove_node_agree (ls.length + 1) n _).result e2 e3
  rw [← e1] at node
  refine ⟨outs, s, t, r, e, h.represents, hr, ?_, fun n hn => ?_⟩
  · rw [e0]
    cases hf with
    | exact x hx same =>
      rw [if_pos (h.addr_ne hx)]
      exact (node x hx (sub_of_same same)).1
    | above x hx sub => rw [if_pos (h.addr_ne hx)]; exact (node x hx sub).1
    | none => rw [if_neg (fun e => e rfl)]; exact ⟨_, _, rfl⟩
  · rw [e0]
    cases hf with
    | exact x hx same =>
      rw [if_pos (h.addr_ne hx), if_pos (h.addr_ne hx)]
      exact (node x hx (sub_of_same same)).2 n hn
    | above x hx sub => rw [if_pos (h.addr_ne hx), if_pos (h.addr_ne hx)]; exact (node x hx sub).2 n hn
    | none => rw [if_neg (fun e => e rfl), if_neg (fun e => e rfl)]

namespace StepSample
/-- forty names of one label each, given in order -/
def ops : List (TOp Nat) := (List.range 40).map fun i => .insert [[UInt8.ofNat (48 + i)]] (some i)
theorem legal : ∀ op ∈ ops, op.Legal .debug := by
  intro op hop ls hls
  simp only [ops, List.mem_map, List.mem_range] at hop
  obtain ⟨i, hi, rfl⟩ := hop
  simp only [TOp.names, List.mem_singleton] at hls
  subst hls
  revert i
  decide +kernel
/-- the premises are met: with the root there are 41 nodes, and 21 tests of the loop condition suffice for a name of one label -/
theorem c92_example : (∀ op ∈ ops, op.Legal .debug) ∧ (TOp.run .debug ops Dom.new).2.len = 41 ∧ 1 + 2 * (2 * Nat.log2 (41 + 1)) = 21 ∧
    (∃ r, (TOp.run .debug ops Dom.new).2.find .debug (Name.ofLabels [[80]]) = .ok r ∧ r.flag = .ExactMatch) := by
  refine ⟨legal, by decide +kernel, by decide +kernel, ?_⟩
  cases h : (TOp.run .debug ops Dom.new).2.find .debug (Name.ofLabels [[80]]) with
  | ok r => exact ⟨r, rfl, by
      have : (match (TOp.run .debug ops Dom.new).2.find .debug (Name.ofLabels [[80]]) with | .ok r => decide (r.flag = .ExactMatch) | _ => false) = true := by decide +kernel
      rw [h] at this; exact of_decide_eq_true this⟩
  | err => exact absurd h (by decide +kernel)
  | panic => exact absurd h (by decide +kernel)
/-- the limits play a role: with five rounds for each loop the place for another name is not found, and with seven a node deep in the tree is not taken out; with the 24 and 11 of
the theorems they are -/
theorem c92_rounds_example : let s := (TOp.run .debug ops Dom.new).2
    (Dom.insertIn 5 .debug (Name.ofLabels [[122]]) (some 7) s).1 = .panic ∧ 4 + 2 * (2 * Nat.log2 (41 + 2)) = 24 ∧
    (Dom.insertIn 24 .debug (Name.ofLabels [[122]]) (some 7) s).1 = .ok (42, none) ∧
    (Dom.remove_nodeIn 2 7 41 s).1 = .panic ∧ 1 + 2 * Nat.log2 (41 + 1) = 11 ∧ (Dom.remove_nodeIn 2 11 41 s).1 = .ok (some 39) := by
  decide +kernel
end StepSample

end R53
