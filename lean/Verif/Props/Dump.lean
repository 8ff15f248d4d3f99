import Verif.Proofs.Dump
import Verif.Proofs.Show
import Verif.Props.Values
/-!
# C87 to C89: printing a domain tree, writing through a search result, comparing nodes
-/
namespace R53
open Dom

variable {T : Type}

/-- the tree that is printed: every history of legal operations leaves one -/
theorem dumped (m : Build) (ops : List (TOp T)) (hok : ∀ op ∈ ops, op.Legal m) :
    ∃ outs s t, TOp.run m ops Dom.new = (.ok outs, s) ∧ Represents s t ∧ t.Runs ∧ ∀ depth,
      s.dump depth = .ok (blanks depth ++ ascii "tree has " ++ decimal s.len ++ ascii " node(s)\n" ++ t.drawn "" true depth) := by
  obtain ⟨outs, s, e, t, δ, h, -⟩ := Free.run_spec (m := m) (done := []) ops Free.Inv.new (fun _ h => nomatch h) hok
  have := W.size_lt h.mem
  exact ⟨outs, s, t, e, h.represents, h.runs, dump_text h.represents h.runs (by simp only at this; omega)⟩

/-- after every history `dump` ends and prints the line with `len` and the drawing of the tree in memory -/
theorem c87_dump (m : Build) (ops : List (TOp T)) (hok : ∀ op ∈ ops, op.Legal m) :
    ∃ outs s t, TOp.run m ops Dom.new = (.ok outs, s) ∧ Represents s t ∧ ∀ depth,
      s.dump depth = .ok (blanks depth ++ ascii "tree has " ++ decimal s.len ++ ascii " node(s)\n" ++ t.drawn "" true depth) := by
  obtain ⟨outs, s, t, e, h, -, hd⟩ := dumped m ops hok
  exact ⟨outs, s, t, e, h, hd⟩

/-- the tree can be told from what is printed: the same text is the same `len`, shape, labels, colours and nodes without a value -/
theorem c87_faithful (m k : Build) (ops ops' : List (TOp T)) (hok : ∀ op ∈ ops, op.Legal m) (hok' : ∀ op ∈ ops', op.Legal k) :
    ∃ outs s t outs' s' t', TOp.run m ops Dom.new = (.ok outs, s) ∧ Represents s t ∧ TOp.run k ops' Dom.new = (.ok outs', s') ∧ Represents s' t' ∧
      ∀ depth, s.dump depth = s'.dump depth → s.len = s'.len ∧ t.sketch = t'.sketch := by
  obtain ⟨outs, s, t, e, h, hr, hd⟩ := dumped m ops hok
  obtain ⟨outs', s', t', e', h', hr', hd'⟩ := dumped k ops' hok'
  refine ⟨outs, s, t, outs', s', t', e, h, e', h', fun depth he => ?_⟩
  rw [hd depth, hd' depth] at he
  have he := Res.ok.inj he
  simp only [List.append_assoc] at he
  have he := List.append_cancel_left (List.append_cancel_left he)
  have dark : ∀ n, ∀ c ∈ decimal n, Dark c := by
    intro n c hc
    have h1 := (decimal_digits n).2 c hc
    have : ∀ c : UInt8, isAsciiDigit c = true → Dark c := by unfold Dark; apply forall_u8'; decide +kernel
    exact this c h1
  rw [show ascii " node(s)\n" = 32 :: (ascii " node(s)\n").tail from rfl, List.cons_append, List.cons_append] at he
  obtain ⟨h1, -, h2⟩ := dark_cut (dark s.len) (dark s'.len) (by unfold Dark; decide) (by unfold Dark; decide) he
  have h2 := List.append_cancel_left h2
  refine ⟨decimal_inj h1, ?_⟩
  exact (drawn_cut t t' "" true depth (.inl rfl) hr hr' [] [] (by simpa using h2)).1

/-- the chain of every search prints: the number of nodes, the last comparison if there was one, and the labels of the nodes, all of them
nodes of the tree -/
theorem c87_chain {P : Type} (m : Build) (ops : List (TOp T)) (hok : ∀ op ∈ ops, op.Legal m) (n : Name) (cb : Option (Ptr → Name → P → Bool × P)) (p : P) :
    ∃ outs s t, TOp.run m ops Dom.new = (.ok outs, s) ∧ Represents s t ∧ ∀ r c q, s.find_node_ext m n .new cb p = .ok (r, c, q) →
      ∃ L : List (Info T), c.nodes = L.map Info.addr ∧ (∀ i ∈ L, i ∈ t.infos) ∧
        Chain.to_string s c = .ok (ascii "level: " ++ decimal L.length ++
          if c.last_compared = 0 then ascii ", last_compared is nil"
          else ascii ", last_compared_relation " ++ c.last_compared_result.debug ++ ascii " nodes:[" ++
            (L.flatMap fun i => joinDots (i.labels.map present) ++ ascii ",") ++ ascii " ]") := by
  obtain ⟨outs, s, t, e, h, hr, -⟩ := dumped m ops hok
  refine ⟨outs, s, t, e, h, fun r c q hf => ?_⟩
  unfold Dom.find_node_ext at hf
  obtain ⟨sl, -, hf⟩ := Res.bind_eq_ok.1 hf
  rw [h.root] at hf
  obtain ⟨L, h1, h2⟩ := findLoop_chain m s cb t.infos (s.next + 1) t 0 true sl _ .new p r c q h.layout (fun _ h => h) ⟨[], rfl, by simp⟩ hf
  refine ⟨L, h1, h2, ?_⟩
  unfold Chain.to_string
  rw [h1, chainText_eq L fun i hi => Tr.info_at h.layout hr i (h2 i hi), List.length_map]
  split <;> simp

namespace DumpSample
/-- three names below the root -/
def ops : List (TOp Nat) := [.insert [[97], [99]] (some 1), .insert [[98], [99]] (some 2), .insert [[200]] (some 3)]
theorem legal : ∀ op ∈ ops, op.Legal .release := by
  intro op hop ls hls
  refine ⟨?_, .inl rfl⟩
  simp only [ops, List.mem_cons, List.not_mem_nil, or_false] at hop
  rcases hop with rfl | rfl | rfl <;>
    (simp only [TOp.names, List.mem_cons, List.not_mem_nil, or_false] at hls; subst hls; decide +kernel)
end DumpSample

/-- what is printed, for a small tree -/
theorem c87_example : (∀ op ∈ DumpSample.ops, op.Legal .release) ∧
    (TOp.run .release DumpSample.ops Dom.new).2.dump 0 = .ok (ascii ("tree has 5 node(s)\n. (Black)[invisible] [subtreeroot]\n     begin down from c\n\n" ++
      "     c (Black)[invisible] [subtreeroot]\n          begin down from a\n\n          a (Black) [subtreeroot]\n               NULL\n" ++
      "               right>b (Red)\n                    NULL\n                    NULL\n          end down from a\n          NULL\n" ++
      "          right>\\200 (Red)\n               NULL\n               NULL\n     end down from c\n     NULL\n     NULL\n")) :=
  ⟨DumpSample.legal, by decide +kernel⟩

/-- writing through the result of a search: the value of the node found becomes the new one, and no other node changes; nothing happens if
nothing was found or the node has no value -/
theorem c88_write (m : Build) (ops : List (TOp T)) (hok : ∀ op ∈ ops, op.Legal m) (ls : List Label) (hv : ValidName ls)
    (ha : m = .release ∨ ∀ l ∈ ls, ∀ c ∈ l, c.toNat < 128) (v : T) :
    ∃ outs s t r b s', TOp.run m ops Dom.new = (.ok outs, s) ∧ Represents s t ∧ s.find m (Name.ofLabels ls) = .ok r ∧ Dom.write r v s = (.ok b, s') ∧
      ((r.flag = .NotFound ∧ b = false ∧ s' = s) ∨
       (r.flag ≠ .NotFound ∧ ∃ (e : Entry T) (R : List (Entry T)) (t' : Tr T), Represents s' t' ∧ (t.nodes []).Perm (e :: R) ∧ e.addr = r.node ∧
          b = e.value.isSome ∧ (t'.nodes []).Perm ((if b then { e with value := some v } else e) :: R) ∧ s'.len = s.len)) := by
  obtain ⟨outs, s, e, t, δ, h, -⟩ := Free.run_spec (m := m) (done := []) ops Free.Inv.new (fun _ h => nomatch h) hok
  obtain ⟨r, e', hr⟩ := Free.find_found h hv ha
  have main : ∀ (x : Entry T) (f : FindFlag), x ∈ t.nodes [] → f ≠ .NotFound → r = ⟨x.addr, f⟩ → ∃ b s', Dom.write r v s = (.ok b, s') ∧
      ∃ (e : Entry T) (R : List (Entry T)) (t' : Tr T), Represents s' t' ∧ (t.nodes []).Perm (e :: R) ∧ e.addr = r.node ∧
          b = e.value.isSome ∧ (t'.nodes []).Perm ((if b then { e with value := some v } else e) :: R) ∧ s'.len = s.len := by
    intro x f hx hf hrf
    subst hrf
    obtain ⟨b, s', ew, hb, t', R, h', b1, b2⟩ := h.write hx hf v
    obtain ⟨R, rfl⟩ := Quot.exists_rep R
    refine ⟨b, s', ew, x, R, t', h'.represents, ?_, rfl, hb, ?_, ?_⟩
    · exact Multiset.coe_eq_coe.1 b1
    · rw [hb]; exact Multiset.coe_eq_coe.1 b2
    · rw [h'.len, h.len, size_bag [], size_bag [], b1, b2]; simp
  cases hr with
  | exact x mem same =>
    obtain ⟨b, s', ew, g⟩ := main x _ mem (by simp) rfl
    exact ⟨outs, s, t, _, b, s', e, h.represents, e', ew, .inr ⟨by simp, g⟩⟩
  | above x mem sub =>
    obtain ⟨b, s', ew, g⟩ := main x _ mem (by simp) rfl
    exact ⟨outs, s, t, _, b, s', e, h.represents, e', ew, .inr ⟨by simp, g⟩⟩
  | none => exact ⟨outs, s, t, _, false, s, e, h.represents, e', rfl, .inl ⟨rfl, rfl, rfl⟩⟩

/-- a value is written and found; a search for a name below finds, and writes to, the node above -/
theorem c88_write_example : ∃ s s' : Dom Nat, TreeReached .debug [.insert TreeSample.com (some 1)] s ∧
    s.find .debug (Name.ofLabels TreeSample.acom) = .ok ⟨1, .PartialMatch⟩ ∧ Dom.write ⟨1, .PartialMatch⟩ 5 s = (.ok true, s') ∧
    (TOp.run .debug [.get TreeSample.com] s').1 = .ok [some 5] := by
  refine ⟨(TOp.run .debug [.insert TreeSample.com (some 1)] Dom.new).2, (Dom.write ⟨1, .PartialMatch⟩ 5 (TOp.run .debug [.insert TreeSample.com (some 1)] Dom.new).2).2,
    ⟨?_, [none], pair_of (by decide +kernel)⟩, by decide +kernel, pair_of (by decide +kernel), by decide +kernel⟩
  intro op hop ls hls
  simp only [List.mem_singleton] at hop; subst hop
  simp only [TOp.names, List.mem_singleton] at hls; subst hls
  exact ⟨by decide +kernel, by decide +kernel⟩

theorem free_good {t : Tr T} (h : t.SGood) : Free.Good t := by
  induction t with
  | nil => trivial
  | node i l d r ihl ihd ihr =>
    obtain ⟨h0, h1, h2, h3, h4⟩ := h
    exact ⟨h0, ihl h1, ihr h2, ⟨h3.1, h3.2.1⟩, ihd h4⟩

theorem info_name {t : Tr T} (suf : List Label) : ∀ i ∈ t.infos, ∃ e ∈ t.nodes suf, e.addr = i.addr ∧ ∃ k, e.name = i.labels ++ k := by
  induction t generalizing suf with
  | nil => intro i hi; cases hi
  | node j l d r ihl ihd ihr =>
    intro i hi
    simp only [Tr.infos, List.mem_cons, List.mem_append] at hi
    rcases hi with rfl | (hi | hi) | hi
    · exact ⟨i.entry suf, by simp [Tr.nodes], rfl, suf, rfl⟩
    · obtain ⟨e, h1, h2⟩ := ihl suf i hi; exact ⟨e, by simp [Tr.nodes, h1], h2⟩
    · obtain ⟨e, h1, h2⟩ := ihd (j.labels ++ suf) i hi; exact ⟨e, by simp [Tr.nodes, h1], h2⟩
    · obtain ⟨e, h1, h2⟩ := ihr suf i hi; exact ⟨e, by simp [Tr.nodes, h1], h2⟩

/-- comparing two nodes of a tree of ASCII names compares their labels (what their level adds to the name above). Missing: names with octets
above 127, as C09; and the order is not that of the names (`c89_violated`). -/
theorem c89_cmp_partial (m : Build) (ops : List (TOp T)) (s : Dom T) (h : TreeReached m ops s) :
    ∃ t, Represents s t ∧ ∀ i ∈ t.infos, ∀ j ∈ t.infos, s.ptrCmp m i.addr j.addr = .ok (canonicalCmp i.labels j.labels) := by
  obtain ⟨t, δ, h, -⟩ := h.inv
  have hr : t.Runs := t.runs_of [] (.inl rfl) (free_good h.ok.2) fun e he => ⟨h.addr_ne he, by
    obtain ⟨ls, hv, -, e⟩ := h.names e he
    exact ⟨ls, hv, e⟩⟩
  have asc : ∀ i ∈ t.infos, ∀ l ∈ i.labels, ∀ c ∈ l, c.toNat < 128 := by
    intro i hi l hl
    obtain ⟨e, h1, -, k, h3⟩ := info_name [] i hi
    obtain ⟨ls, hv, ha, e4⟩ := h.names e h1
    rw [h3] at e4
    have : l ∈ ls ++ [[]] := by rw [← e4]; simp [hl]
    rcases List.mem_append.1 this with h5 | h5
    · exact asciiKind_iff.1 ha l h5
    · rw [List.mem_singleton] at h5; subst h5; intro c hc; cases hc
  refine ⟨t, h.represents, fun i hi j hj => ?_⟩
  obtain ⟨n, a1, a2, a3⟩ := Tr.info_at h.represents.layout hr i hi
  obtain ⟨k, b1, b2, b3⟩ := Tr.info_at h.represents.layout hr j hj
  unfold Dom.ptrCmp
  rw [a1, Res.bind_ok, b1, Res.bind_ok, a2, b2]
  exact LabelSequence.c80_cmp_partial m _ _ a3 b3 (asc i hi) (asc j hj)

/-- what comparing two nodes answers after any legal history, octets above 127 included: the order of the labels their level adds, octets compared by the sign of their
difference in eight bits (C09) -/
theorem c89_exact (m : Build) (ops : List (TOp T)) (hok : ∀ op ∈ ops, op.Legal m) :
    ∃ outs s t, TOp.run m ops Dom.new = (.ok outs, s) ∧ Represents s t ∧ ∀ i ∈ t.infos, ∀ j ∈ t.infos,
      s.ptrCmp m i.addr j.addr = match nameOrder (diffOrder (decide (m = .debug))) i.labels j.labels with
        | none => .panic
        | some o => .ok o := by
  obtain ⟨outs, s, t, e, h, hr, -⟩ := dumped m ops hok
  refine ⟨outs, s, t, e, h, fun i hi j hj => ?_⟩
  obtain ⟨n, a1, a2, a3⟩ := Tr.info_at h.layout hr i hi
  obtain ⟨k, b1, b2, b3⟩ := Tr.info_at h.layout hr j hj
  unfold Dom.ptrCmp
  rw [a1, Res.bind_ok, b1, Res.bind_ok, a2, b2]
  exact LabelSequence.c80_cmp_exact m _ _ a3 b3

/-- VIOLATION: the order of node pointers does not agree with their equality: the nodes of `a.com.` and `a.net.` compare as equal and are
not the same -/
theorem c89_violated : ∃ s : Dom Nat, TreeReached .release [.insert [[99]] (some 1), .insert [[97], [99]] (some 2), .insert [[100]] (some 3), .insert [[97], [100]] (some 4)] s ∧
    ∃ p q, s.find .release (Name.ofLabels [[97], [99]]) = .ok ⟨p, .ExactMatch⟩ ∧ s.find .release (Name.ofLabels [[97], [100]]) = .ok ⟨q, .ExactMatch⟩ ∧
      p ≠ q ∧ s.ptrCmp .release p q = .ok .eq := by
  refine ⟨(TOp.run .release [.insert [[99]] (some 1), .insert [[97], [99]] (some 2), .insert [[100]] (some 3), .insert [[97], [100]] (some 4)] Dom.new).2,
    ⟨?_, [none, none, none, none], pair_of (by decide +kernel)⟩, 2, 5, by decide +kernel, by decide +kernel, by decide, by decide +kernel⟩
  intro op hop ls hls
  simp only [List.mem_cons, List.not_mem_nil, or_false] at hop
  rcases hop with rfl | rfl | rfl | rfl <;>
    (simp only [TOp.names, List.mem_cons, List.not_mem_nil, or_false] at hls; subst hls; exact ⟨by decide +kernel, by decide +kernel⟩)

end R53
