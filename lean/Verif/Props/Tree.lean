import Verif.Proofs.TreeShape
/-!
# C58–C66, C68, C69: the domain tree
-/
namespace R53
open Dom

variable {T P : Type}

/-- a tree a program can have: after a history of operations on names that are legal and ASCII -/
def TreeReached (m : Build) (ops : List (TOp T)) (s : Dom T) : Prop := (∀ op ∈ ops, op.OK m) ∧ ∃ outs, TOp.run m ops Dom.new = (.ok outs, s)

theorem TreeReached.inv {m : Build} {ops : List (TOp T)} {s : Dom T} (h : TreeReached m ops s) : ∃ t δ, Inv s t δ ∧ (TOp.clear ∉ ops → δ = 0) ∧
    (TOp.FairRun (fun _ => none) ops → Agrees t (TOp.specMap (fun _ => none) ops)) ∧ ((∀ op ∈ ops, op.NoNul) → NoNul t) := by
  obtain ⟨hok, outs, e⟩ := h
  obtain ⟨o, s', e', t, δ, h1, h2, h3, h4, -⟩ := run_spec (m := m) ops Inv.new hok
  rw [e] at e'
  simp only [Prod.mk.injEq, Res.ok.injEq] at e'
  obtain ⟨rfl, rfl⟩ := e'
  exact ⟨t, δ, h1, h2, fun hf => (h3 _ agrees_nil hf).2, h4 fun e he => by simp [Tr.nodes] at he⟩

theorem pair_of {α β : Type} {a : α × β} {x : α} (h : a.1 = x) : a = (x, a.2) := by subst h; rfl

/-! sample names -/
namespace TreeSample
def com : List Label := [[99, 111, 109]]
def acom : List Label := [[97], [99, 111, 109]]
def Acom : List Label := [[65], [99, 111, 109]]
def bacom : List Label := [[98], [97], [99, 111, 109]]
def cacom : List Label := [[99], [97], [99, 111, 109]]
def net : List Label := [[110, 101, 116]]
def nulcom : List Label := [[97, 0], [99, 111, 109]]
def bnulcom : List Label := [[98], [97, 0], [99, 111, 109]]
/-- a history with a node that is split, a name in capitals, removals and lookups -/
def ops : List (TOp Nat) := [.insert bacom (some 1), .insert cacom (some 2), .insert net (some 3), .insert Acom (some 4), .get acom, .removeNode bacom, .get bacom, .remove acom, .get acom, .get cacom,
  .callback net true, .get net]
theorem ok {m : Build} : ∀ op ∈ ops, op.OK m := by
  have h1 : ∀ ls ∈ [com, acom, Acom, bacom, cacom, net], ValidName ls ∧ ∀ l ∈ ls, ∀ c ∈ l, c.toNat < 128 := by decide +kernel
  intro op hop ls hls
  simp only [ops, List.mem_cons, List.not_mem_nil, or_false] at hop
  have h2 := h1 ls ?_
  · exact ⟨h2.1, fun _ => h2.2⟩
  rcases hop with rfl | rfl | rfl | rfl | rfl | rfl | rfl | rfl | rfl | rfl | rfl | rfl <;> (simp only [TOp.names, List.mem_singleton] at hls; subst hls; decide)
theorem fair : TOp.FairRun (fun _ => none) ops := by
  simp only [ops, TOp.FairRun, TOp.Fair, true_and, and_true]
  exact .inl (by decide +kernel)
theorem result : TOp.specRun (fun _ => none) ops = [none, none, none, none, some 4, some 1, none, some 4, none, some 2, none, some 3] := by decide +kernel
end TreeSample

/-! ## C58 -/

/-- every history answers as the map does -/
theorem c58_map_partial (m : Build) (ops : List (TOp T)) (hok : ∀ op ∈ ops, op.OK m) (hf : TOp.FairRun (fun _ => none) ops) :
    ∃ s, TOp.run m ops Dom.new = (.ok (TOp.specRun (fun _ => none) ops), s) := by
  obtain ⟨o, s, e, t, δ, -, -, h3, -⟩ := run_spec (m := m) ops Inv.new hok
  rw [(h3 _ agrees_nil hf).1] at e
  exact ⟨s, e⟩

/-- a case with a split node -/
theorem c58_map_example : ∃ s, TOp.run .release TreeSample.ops Dom.new =
    (.ok [none, none, none, none, some 4, some 1, none, some 4, none, some 2, none, some 3], s) := by
  rw [← TreeSample.result]; exact c58_map_partial .release _ TreeSample.ok TreeSample.fair

/-- octets from 128 on are compared as signed numbers with wrap around: with such labels a name that was inserted is not found again (release build) -/
theorem c58_nonascii_violated : (TOp.run .release [.insert [[232]] (some 1), .insert [[119]] (some 2), .insert [[197]] (some 3), .insert [[20]] (some 4), .insert [[52]] (some 5),
    .insert [[50]] (some 6), .insert [[32]] (some 7), .insert [[34]] (some 8), .get [[119]]] (Dom.new : Dom Nat)).1 = .ok [none, none, none, none, none, none, none, none, none] := by
  decide +kernel

/-- `insert` on a name that was never inserted can answer `Some(None)` instead of `None`: the name of a split node is there already -/
theorem c58_insert_answer_violated : ∃ s : Dom Nat, TreeReached .release [.insert TreeSample.bacom (some 1), .insert TreeSample.cacom (some 2)] s ∧
    ((insert .release (Name.ofLabels TreeSample.acom) (some 3)) s).1 = .ok (2, some none) := by
  refine ⟨(TOp.run .release [.insert TreeSample.bacom (some 1), .insert TreeSample.cacom (some 2)] Dom.new).2, ⟨?_, [none, none], pair_of (by decide +kernel)⟩, by decide +kernel⟩
  intro op hop
  exact TreeSample.ok op (by simp only [TreeSample.ops, List.mem_cons, List.not_mem_nil, or_false] at hop ⊢; rcases hop with rfl | rfl <;> simp)

/-! ## C68: memory safety and termination -/

/-- no history fails: no null or freed node is used, no loop runs forever, no check fails, also with `remove` of any name -/
theorem c68_safe_partial (m : Build) (ops : List (TOp T)) (hok : ∀ op ∈ ops, op.OK m) : ∃ outs s, TOp.run m ops Dom.new = (.ok outs, s) := by
  obtain ⟨o, s, e, -⟩ := run_spec (m := m) ops Inv.new hok
  exact ⟨o, s, e⟩

/-- with octets from 128 on the comparison overflows in a debug build -/
theorem c68_nonascii_violated : (TOp.run .debug [.insert [[48]] (some 1), .insert [[160]] (some 2)] (Dom.new : Dom Nat)).1 = .panic := by
  decide +kernel

/-- and both builds answer the same -/
theorem c68_builds (ops : List (TOp T)) (hok : ∀ op ∈ ops, op.OK .debug) (hf : TOp.FairRun (fun _ => none) ops) :
    (TOp.run .debug ops Dom.new).1 = (TOp.run .release ops Dom.new).1 := by
  obtain ⟨s, h⟩ := c58_map_partial .debug ops hok hf
  obtain ⟨s', h'⟩ := c58_map_partial .release ops (fun op ho => (hok op ho).mono _) hf
  rw [h, h']

/-! ## C59 -/

section
variable {m : Build} {s : Dom T} {t : Tr T} {δ : Nat}

theorem find_exact_iff_kind {A : Kind} (hA : A ≠ none) (h : InvA A s t δ) {ls : List Label} (hv : ValidName ls) (ha : Kind.Fits A m ls) {p : Ptr} :
    s.find m (Name.ofLabels ls) = .ok ⟨p, .ExactMatch⟩ ↔ ∃ e ∈ t.nodes [], e.addr = p ∧ SameName (ls ++ [[]]) e.name := by
  obtain ⟨r, hfe, hr⟩ := find_found_kind (m := m) hA h hv ha
  rw [hfe]
  constructor
  · intro e1
    simp only [Res.ok.injEq] at e1
    subst e1
    clear hfe
    cases hr with
    | exact e mem same => exact ⟨e, mem, rfl, same⟩
  · rintro ⟨x, hx, rfl, hs⟩
    cases hr with
    | exact e mem same => rw [h.no_dup mem hx (same.symm.trans hs)]
    | closest e mem sub no deep => exact absurd hs (no x hx)
    | none no => exact absurd (Name.same_sub hs) (no x hx)

theorem find_exact_iff (h : Inv s t δ) {ls : List Label} (hv : ValidName ls) (ha : m = .debug → Name.Ascii ls) {p : Ptr} :
    s.find m (Name.ofLabels ls) = .ok ⟨p, .ExactMatch⟩ ↔ ∃ e ∈ t.nodes [], e.addr = p ∧ SameName (ls ++ [[]]) e.name :=
  find_exact_iff_kind asciiKind_ne h hv (asciiKind_fits ha)

/-- the names above a legal name are legal -/
theorem valid_suffix {ks ls : List Label} (hv : ValidName ls) (ha : m = .debug → Name.Ascii ls) (h : ks <:+ ls) : ValidName ks ∧ (m = .debug → Name.Ascii ks) :=
  ⟨hv.sublist h.sublist, fun hm l hl => ha hm l (h.subset hl)⟩

theorem lower_suffix {ks ls : List Label} (h : ks <:+ ls) : lowerName (ks ++ [[]]) <:+ lowerName (ls ++ [[]]) := by
  obtain ⟨w, rfl⟩ := h
  exact ⟨lowerName w, by simp [lowerName]⟩

theorem sub_suffix {ls nm : List Label} (h : IsSubdomain (ls ++ [[]]) nm) (hne : nm ≠ []) : ∃ ks, ks <:+ ls ∧ SameName (ks ++ [[]]) nm := by
  obtain ⟨w, hw⟩ := h
  have hl : nm.length ≤ (ls ++ [[]]).length := by
    have := congrArg List.length hw
    simp only [List.length_append, Name.lowerName_length] at this ⊢; omega
  have hpos := List.length_pos_iff.2 hne
  refine ⟨ls.drop (ls.length + 1 - nm.length), List.drop_suffix _ _, ?_⟩
  have e1 : ls.drop (ls.length + 1 - nm.length) ++ [[]] = (ls ++ [[]]).drop (ls.length + 1 - nm.length) := by
    rw [List.drop_append_of_le_length (by omega)]
  unfold SameName
  rw [e1]
  have e2 : lowerName ((ls ++ [[]]).drop (ls.length + 1 - nm.length)) = (lowerName (ls ++ [[]])).drop (ls.length + 1 - nm.length) := by
    unfold lowerName; rw [List.map_drop]
  rw [e2, ← hw]
  have : w.length = ls.length + 1 - nm.length := by
    have := congrArg List.length hw
    simp only [List.length_append, Name.lowerName_length, List.length_singleton] at this hl; omega
  rw [← this, List.drop_left]

end

/-- the closest encloser: if no node has the name, `find` gives the node of the longest suffix that has one (in a release build for names
of any octets) -/
theorem c59_closest (m : Build) (ops : List (TOp T)) (s : Dom T) (h : TreeReached m ops s) (ls : List Label) (hv : ValidName ls) (ha : m = .debug → Name.Ascii ls) :
    ∃ r, s.find m (Name.ofLabels ls) = .ok r ∧
      (r.flag = .PartialMatch → ∃ ks, ks <:+ ls ∧ ks ≠ ls ∧ s.find m (Name.ofLabels ks) = .ok ⟨r.node, .ExactMatch⟩ ∧
        ∀ js, js <:+ ls → ks.length < js.length → ∀ p, s.find m (Name.ofLabels js) ≠ .ok ⟨p, .ExactMatch⟩) ∧
      (r.flag = .NotFound → r.node = 0 ∧ ∀ js, js <:+ ls → ∀ p, s.find m (Name.ofLabels js) ≠ .ok ⟨p, .ExactMatch⟩) := by
  obtain ⟨t, δ, h, -⟩ := h.inv
  obtain ⟨r, hfe, hr⟩ := find_found_kind (m := m) asciiKind_ne h hv (asciiKind_fits ha)
  refine ⟨r, hfe, ?_⟩
  clear hfe
  cases hr with
  | exact e mem same => exact ⟨fun h => by simp at h, fun h => by simp at h⟩
  | none no =>
    refine ⟨fun h => by simp at h, fun _ => ⟨rfl, fun js hjs p hp => ?_⟩⟩
    obtain ⟨hv', ha'⟩ := valid_suffix hv ha hjs
    obtain ⟨x, hx, -, hs⟩ := (find_exact_iff h hv' ha').1 hp
    refine no x hx ?_
    unfold IsSubdomain
    rw [← show lowerName _ = lowerName _ from hs]
    exact lower_suffix hjs
  | closest e mem sub no deep =>
    refine ⟨fun _ => ?_, fun h => by simp at h⟩
    obtain ⟨ks', -, hks'⟩ := h.split mem
    obtain ⟨ks, hks, hs⟩ := sub_suffix sub (by rw [hks']; simp)
    obtain ⟨hv', ha'⟩ := valid_suffix hv ha hks
    refine ⟨ks, hks, fun e1 => no e mem (e1 ▸ hs), (find_exact_iff h hv' ha').2 ⟨e, mem, rfl, hs⟩, fun js hjs hl p hp => ?_⟩
    obtain ⟨hv2, ha2⟩ := valid_suffix hv ha hjs
    obtain ⟨x, hx, -, hsx⟩ := (find_exact_iff h hv2 ha2).1 hp
    have h1 : IsSubdomain (ls ++ [[]]) x.name := by
      unfold IsSubdomain
      rw [← show lowerName _ = lowerName _ from hsx]
      exact lower_suffix hjs
    have h2 := (deep x hx h1).length_le
    have h3 := congrArg List.length (show lowerName _ = lowerName _ from hsx)
    have h4 := congrArg List.length (show lowerName _ = lowerName _ from hs)
    simp only [Name.lowerName_length, List.length_append, List.length_singleton] at h2 h3 h4
    omega

/-- "b.a.com" is found at "com" as long as "a.com" is not there -/
theorem c59_closest_example : ∃ s : Dom Nat, TreeReached .debug [.insert TreeSample.com (some 1)] s ∧
    s.find .debug (Name.ofLabels TreeSample.bacom) = .ok ⟨1, .PartialMatch⟩ ∧ s.find .debug (Name.ofLabels TreeSample.com) = .ok ⟨1, .ExactMatch⟩ ∧
    s.find .debug (Name.ofLabels TreeSample.net) = .ok ⟨0, .NotFound⟩ := by
  refine ⟨(TOp.run .debug [.insert TreeSample.com (some 1)] Dom.new).2, ⟨?_, [none], pair_of (by decide +kernel)⟩, by decide +kernel, by decide +kernel, by decide +kernel⟩
  intro op hop ls hls
  simp only [List.mem_singleton] at hop; subst hop
  simp only [TOp.names, List.mem_singleton] at hls; subst hls
  exact ⟨by decide +kernel, by decide +kernel⟩

/-! ## C60 -/

/-- `remove` of a name that is not there takes the value of its closest ancestor -/
theorem c60_violated (m : Build) (v : T) : ∃ s, TOp.run m [.insert TreeSample.com (some v), .remove TreeSample.acom, .get TreeSample.com] Dom.new = (.ok [none, some v, none], s) := by
  cases m <;> exact ⟨_, pair_of (by with_unfolding_all rfl)⟩

/-- `remove` of a name that is stored, or that has no stored ancestor, removes that name only -/
theorem c60_remove_partial (m : Build) (ops : List (TOp T)) (hok : ∀ op ∈ ops, op.OK m) (hf : TOp.FairRun (fun _ => none) ops) (ls ks : List Label)
    (hl : ValidName ls ∧ (m = .debug → ∀ l ∈ ls, ∀ c ∈ l, c.toNat < 128)) (hk : ValidName ks ∧ (m = .debug → ∀ l ∈ ks, ∀ c ∈ l, c.toNat < 128))
    (h : TOp.specMap (fun _ => none) ops (lowerName ls) ≠ none ∨ ∀ k, k <:+ lowerName ls → TOp.specMap (fun _ => none) ops k = none) :
    ∃ s, TOp.run m (ops ++ [.remove ls, .get ks]) Dom.new = (.ok (TOp.specRun (fun _ => none) ops ++ [TOp.specMap (fun _ => none) ops (lowerName ls),
      if lowerName ks = lowerName ls then none else TOp.specMap (fun _ => none) ops (lowerName ks)]), s) := by
  have hspec : ∀ (ops : List (TOp T)) (M : List Label → Option T), TOp.specRun M (ops ++ [.remove ls, .get ks]) = TOp.specRun M ops ++ [TOp.specMap M ops (lowerName ls),
      if lowerName ks = lowerName ls then none else TOp.specMap M ops (lowerName ks)] := by
    intro ops
    induction ops with
    | nil => intro M; rfl
    | cons op ops ih => intro M; rw [List.cons_append, TOp.specRun, ih]; rfl
  have hfair : ∀ (ops : List (TOp T)) (M : List Label → Option T), TOp.FairRun M ops →
      (TOp.specMap M ops (lowerName ls) ≠ none ∨ ∀ k, k <:+ lowerName ls → TOp.specMap M ops k = none) → TOp.FairRun M (ops ++ [.remove ls, .get ks]) := by
    intro ops
    induction ops with
    | nil => intro M _ h; exact ⟨h, trivial, trivial⟩
    | cons op ops ih => intro M hf h; exact ⟨hf.1, ih _ hf.2 h⟩
  have h1 := c58_map_partial m (ops ++ [.remove ls, .get ks]) ?_ (hfair ops _ hf h)
  · rw [hspec] at h1; exact h1
  · intro op hop
    rcases List.mem_append.1 hop with hop | hop
    · exact hok op hop
    · simp only [List.mem_cons, List.not_mem_nil, or_false] at hop
      rcases hop with rfl | rfl
      · intro x hx; simp only [TOp.names, List.mem_singleton] at hx; subst hx; exact ⟨hl.1, fun h => hl.2 (h.resolve_right id)⟩
      · intro x hx; simp only [TOp.names, List.mem_singleton] at hx; subst hx; exact ⟨hk.1, fun h => hk.2 (h.resolve_right id)⟩

/-- the condition is met by a stored name with a stored ancestor -/
theorem c60_remove_example : TOp.specMap (fun _ => none) [TOp.insert TreeSample.com (some 1), .insert TreeSample.Acom (some 2)] (lowerName TreeSample.acom) ≠ none ∧
    TOp.FairRun (fun _ => none) [TOp.insert TreeSample.com (some 1), .insert TreeSample.Acom (some 2)] := by
  refine ⟨by decide +kernel, trivial, trivial, trivial⟩

/-! ## C61, C62 -/

/-- after any history the memory is a tree of levels; each level is a red-black tree, sorted by the most significant labels, of logarithmic height -/
theorem c61_levels (m : Build) (ops : List (TOp T)) (s : Dom T) (h : TreeReached m ops s) :
    ∃ t, Represents s t ∧ ∀ x ∈ t.levels, x.Level ∧ x.height ≤ 2 * Nat.log2 (x.ents.length + 1) := by
  obtain ⟨t, δ, h, -⟩ := h.inv
  refine ⟨t, h.represents, fun x hx => ?_⟩
  have hl : x.SLevel := by
    rcases List.mem_cons.1 hx with rfl | hx
    · exact h.ok.1
    · exact h.ok.2.lower x hx
  exact ⟨h.level x hx, hl.tall⟩

/-- `len` is the number of nodes as long as there is no `clear`, and it is 0 exactly for an empty tree -/
theorem c62_len_partial (m : Build) (ops : List (TOp T)) (s : Dom T) (h : TreeReached m ops s) (hc : TOp.clear ∉ ops) :
    ∃ t, Represents s t ∧ s.len = (t.nodes []).length ∧ (s.len = 0 ↔ s.is_empty = true) := by
  obtain ⟨t, δ, h, hd, -⟩ := h.inv
  have hl : s.len = t.size := by rw [h.len, hd hc]; rfl
  refine ⟨t, h.represents, ?_, ?_⟩
  · rw [hl, size_bag []]; rfl
  · rw [hl, is_empty, decide_eq_true_eq, h.represents.root]
    cases t with
    | nil => simp [Tr.size, Tr.ptr]
    | node i l d r =>
      have := h.represents.layout.1
      simp [Tr.size, Tr.ptr, this]

/-- after `clear`, `len` still counts the old nodes -/
theorem c62_violated (m : Build) (v : T) : ∃ s, TOp.run m [.insert TreeSample.com (some v), .clear] Dom.new = (.ok [none, none], s) ∧ s.is_empty = true ∧ s.len = 1 := by
  cases m <;> exact ⟨_, rfl, rfl, rfl⟩

/-! ## C63 -/

/-- the chain after a search gives the full name of the node found, or panics -/
theorem chain_name_kind {m : Build} {A : Kind} {s : Dom T} {t : Tr T} {δ : Nat} (hA : A ≠ none) (h : InvA A s t δ) {ls : List Label} (hv : ValidName ls) (ha : Kind.Fits A m ls) :
    ∃ r c, s.find_node m (Name.ofLabels ls) .new = .ok (r, c) ∧ Found t (ls ++ [[]]) r ∧
      (r.flag ≠ .NotFound → ∃ c' n ks, c.pop = .ok (c', r.node) ∧ s.look r.node = .ok n ∧
        ∃ e ∈ t.nodes [], e.addr = r.node ∧ e.name = ks ++ [[]] ∧
          (Sealed t e → s.get_absolute_name c' n.name = .panic) ∧ (¬ Sealed t e → s.get_absolute_name c' n.name = .ok (Name.ofLabels ks))) := by
  obtain ⟨r, c, p, e, hp⟩ := find_post_none_kind (P := Unit) (m := m) hA h hv ha (c := .new) rfl ()
  obtain ⟨r', e', hr⟩ := find_found_kind (m := m) hA h hv ha
  have e1 : s.find_node m (Name.ofLabels ls) .new = .ok (r, c) := by unfold find_node; rw [e]; rfl
  have : r' = r := by unfold find at e'; rw [e1] at e'; simpa using e'.symm
  subst this
  refine ⟨r', c, e1, hr, ?_⟩
  clear e e' e1 hr
  have key : ∀ {rest : List (UF T)} {lc : List (LF T)} {i : Info T} {l d r : Tr T}, W s (s.next, s.len) rest lc (.node i l d r) → plugU (plug (.node i l d r) lc) rest = t →
      c.nodes = addrs (path rest) ++ [i.addr] →
      (∀ x ∈ t.nodes [], x.name <:+ i.labels ++ sufU rest → x.name.length < (i.labels ++ sufU rest).length → x ∈ path rest) →
      ∃ c' n ks, c.pop = .ok (c', i.addr) ∧ s.look i.addr = .ok n ∧
        ∃ e ∈ t.nodes [], e.addr = i.addr ∧ e.name = ks ++ [[]] ∧
          (Sealed t e → s.get_absolute_name c' n.name = .panic) ∧ (¬ Sealed t e → s.get_absolute_name c' n.name = .ok (Name.ofLabels ks)) := by
    intro rest lc i l d r w whole ch hab
    have hsl := sealed_iff (t0 := t) (u := ⟨i, l, r, lc⟩) (rest := rest) (fun v hv => by
      rcases List.mem_cons.1 hv with rfl | hv
      · exact (OK_node (OK_plugU (whole ▸ h.ok)).1).1
      · exact rest_ne (whole ▸ h.ok) v hv) (fun x hx => bagU_whole whole (path_mem hx)) hab
    subst whole
    obtain ⟨ks, -, hks⟩ := h.split (entry_mem (i := i) (l := l) (d := d) (r := r) (lc := lc) (rest := rest))
    have hx := get_absolute_name_exact w h.ok h.names (c := { c with nodes := addrs (path rest) }) rfl
    have h2 : i.labels ++ sufU rest = ks ++ [[]] := hks
    rw [← hsl, h2, List.dropLast_concat] at hx
    refine ⟨{ c with nodes := addrs (path rest) }, _, ks, ?_, w.lookup, _, entry_mem, rfl, hks, hx⟩
    unfold Chain.pop; simp [ch]
  cases hp with
  | exact rest lc i l d r L w whole pe cbs safe ch nm all =>
    refine fun _ => key w whole ch fun x hx h1 h2 => ?_
    rcases all x hx ((sub_congr nm rfl).2 (sub_of_suffix h1)) with h3 | h3
    · rw [h3] at h2; simp [Info.entry] at h2
    · exact h3
  | miss rest lc t' as L w at_ whole pe cbs safe ch all =>
    cases rest with
    | nil => intro hne; exact absurd rfl hne
    | cons u rest =>
      intro _
      refine key (i := u.i) (l := u.l) (d := plug t' lc) (r := u.r) (lc := u.lc) (rest := rest) (W.down_iff.2 (Z.top.1 w)) whole ?_ fun x hx h1 h2 => ?_
      · rw [ch]; simp [path, addrs, Info.entry]
      · have h3 := all x hx ((sub_congr at_.name rfl).2 (sub_trans (sub_append _ _) (sub_of_suffix h1)))
        simp only [path, List.mem_append, List.mem_singleton] at h3
        rcases h3 with h3 | h3
        · exact h3
        · rw [h3] at h2; simp [Info.entry] at h2
  | stop rest u d as L w at_ whole pe cbs safe ch => rw [callbacks_none] at cbs; cases cbs

theorem chain_name {m : Build} {s : Dom T} {t : Tr T} {δ : Nat} (h : Inv s t δ) {ls : List Label} (hv : ValidName ls) (ha : m = .debug → Name.Ascii ls) :
    ∃ r c, s.find_node m (Name.ofLabels ls) .new = .ok (r, c) ∧ Found t (ls ++ [[]]) r ∧
      (r.flag ≠ .NotFound → ∃ c' n ks, c.pop = .ok (c', r.node) ∧ s.look r.node = .ok n ∧
        ∃ e ∈ t.nodes [], e.addr = r.node ∧ e.name = ks ++ [[]] ∧
          (Sealed t e → s.get_absolute_name c' n.name = .panic) ∧ (¬ Sealed t e → s.get_absolute_name c' n.name = .ok (Name.ofLabels ks))) :=
  chain_name_kind asciiKind_ne h hv (asciiKind_fits ha)

/-- if no label inserted ends with a zero octet: the names along the chain, put together, are the name of the node found, which `find` finds
again; for an exact match it is the name asked for, up to case -/
theorem c63_chain_partial (m : Build) (ops : List (TOp T)) (s : Dom T) (h : TreeReached m ops s) (hn : ∀ op ∈ ops, op.NoNul) (ls : List Label) (hv : ValidName ls)
    (ha : m = .debug → Name.Ascii ls) :
    ∃ r c, s.find_node m (Name.ofLabels ls) .new = .ok (r, c) ∧
      (r.flag ≠ .NotFound → ∃ c' n ks, c.pop = .ok (c', r.node) ∧ s.look r.node = .ok n ∧ s.get_absolute_name c' n.name = .ok (Name.ofLabels ks) ∧
        s.find m (Name.ofLabels ks) = .ok ⟨r.node, .ExactMatch⟩ ∧ (r.flag = .ExactMatch → SameName ks ls)) := by
  obtain ⟨t, δ, h, -, -, hz⟩ := h.inv
  obtain ⟨r, c, e, hr, hk⟩ := chain_name (m := m) h hv ha
  refine ⟨r, c, e, fun hne => ?_⟩
  obtain ⟨c', n, ks, h1, h2, x, hx, hxa, hxn, -, h3⟩ := hk hne
  have h3 := h3 (not_sealed (hz hn) hx)
  obtain ⟨ks', hvk, hak, hks'⟩ := h.names x hx
  have hkk : ks' = ks := List.append_cancel_right (hks'.symm.trans hxn)
  subst hkk
  have hfind := (find_exact_iff (m := m) h hvk fun _ => asciiKind_iff.1 hak).2 ⟨x, hx, hxa, by rw [hxn]; rfl⟩
  refine ⟨c', n, ks', h1, h2, h3, hfind, fun hf => ?_⟩
  clear e hk h1 h2 h3 hne hfind
  cases hr with
  | exact e mem same =>
    have : x = e := by
      have hnd := h.represents.nodup
      exact List.inj_on_of_nodup_map hnd hx mem hxa
    subst this
    rw [hxn] at same
    exact (same_root.1 same).symm
  | closest e mem sub no deep => simp at hf
  | none no => simp at hf

/-- with a label that ends with a zero octet, the name along the chain cannot be put together: the program panics -/
theorem c63_violated : ∃ s : Dom Nat, TreeReached .release [.insert TreeSample.com (some 1), .insert TreeSample.nulcom (some 2), .insert TreeSample.bnulcom (some 3)] s ∧
    (do let (_, c) ← s.find_node .release (Name.ofLabels TreeSample.bnulcom) .new
        let (c', p) ← c.pop
        let n ← s.look p
        s.get_absolute_name c' n.name : Res Name) = .panic := by
  refine ⟨(TOp.run .release [.insert TreeSample.com (some 1), .insert TreeSample.nulcom (some 2), .insert TreeSample.bnulcom (some 3)] Dom.new).2, ⟨?_, [none, none, none], pair_of (by decide +kernel)⟩, by decide +kernel⟩
  intro op hop ls hls
  simp only [List.mem_cons, List.not_mem_nil, or_false] at hop
  rcases hop with rfl | rfl | rfl <;> (simp only [TOp.names, List.mem_singleton] at hls; subst hls; exact ⟨by decide +kernel, by decide +kernel⟩)

/-! ## C64 -/

/-- `clear` frees every node once and leaves a tree in which nothing is found -/
theorem c64_clear_partial (m : Build) (ops : List (TOp T)) (s : Dom T) (h : TreeReached m ops s) :
    ∃ t s', Represents s t ∧ Dom.clear s = (.ok (), s') ∧ s'.is_empty = true ∧ (∀ p, s'.heap p = if p ∈ addrs (t.nodes []) then none else s.heap p) ∧
      ∀ ls, ValidName ls → Name.Ascii ls → s'.find m (Name.ofLabels ls) = .ok ⟨0, .NotFound⟩ := by
  obtain ⟨t, δ, h, -⟩ := h.inv
  obtain ⟨_, s', e, h1, h2, h3⟩ := clear_spec h
  refine ⟨t, s', h.represents, e, ?_, fun p => ?_, fun ls hv ha => ?_⟩
  · have := h1.represents.root
    simp [is_empty, this, Tr.ptr]
  · rw [h3]; simp [addrs]
  · obtain ⟨r, e, hr⟩ := find_found (m := m) h1 hv ha
    rw [e]
    clear e
    cases hr with
    | exact e mem same => simp [Tr.nodes] at mem
    | closest e mem sub no deep => simp [Tr.nodes] at mem
    | none no => rfl

/-- the top level is one node: all names end in the root label -/
theorem top_single {s : Dom T} {i : Info T} {l d r : Tr T} {δ : Nat} (h : Inv s (.node i l d r) δ) : l = .nil ∧ r = .nil := by
  have hlast : ∀ e ∈ (Tr.node i l d r).ents, lastL e.1.labels = [] := by
    intro e he
    have h1 : e.1.entry [] ∈ bag [] (Tr.node i l d r) := by
      rw [bag_ents]
      obtain ⟨a, b, hab⟩ := List.append_of_mem he
      rw [hab, bagE_append, bagE_cons]
      simp
    obtain ⟨ls, -, hls⟩ := h.split h1
    have h2 : e.1.labels = ls ++ [[]] := by simpa [Info.entry] using hls
    rw [h2, lastL, List.getLastD_concat]
  have hlen : (Tr.node i l d r).ents.length ≤ 1 := by
    have hp := h.ok.1.2.2
    generalize (Tr.node i l d r).ents = es at hlast hp
    match es, hlast, hp with
    | [], _, _ => simp
    | [_], _, _ => simp
    | a :: b :: es, hlast, hp =>
      simp only [List.map_cons, List.pairwise_cons] at hp
      have := hp.1 _ List.mem_cons_self
      rw [hlast a (by simp), hlast b (by simp)] at this
      exact absurd this (by decide)
  simp only [Tr.ents, List.length_append, List.length_cons] at hlen
  constructor
  · cases l with
    | nil => rfl
    | node => simp only [Tr.ents, List.length_append, List.length_cons] at hlen; omega
  · cases r with
    | nil => rfl
    | node => simp only [Tr.ents, List.length_append, List.length_cons] at hlen; omega

/-- `clone` of a tree that is not empty: the original answers as before, and the clone is a single node, the topmost one, whatever else
is stored (its `len` still counts everything) -/
theorem c64_clone_partial (m : Build) (ops : List (TOp T)) (s : Dom T) (h : TreeReached m ops s) (hne : s.is_empty = false) :
    ∃ c s', Dom.clone s = (.ok c, s') ∧ s'.root = s.root ∧ s'.len = s.len ∧ (∀ ls, ValidName ls → Name.Ascii ls → s'.find m (Name.ofLabels ls) = s.find m (Name.ofLabels ls)) ∧
      c.len = s.len ∧ c.root = s.next ∧ c.next = s.next + 1 ∧ ∃ n, s.look s.root = .ok n ∧ c.look c.root = .ok ⟨.default, 0, 0, 0, 0, n.name, n.value⟩ := by
  obtain ⟨t, δ, h, -⟩ := h.inv
  cases t with
  | nil => simp [is_empty, h.represents.root, Tr.ptr] at hne
  | node i l d r =>
    obtain ⟨rfl, rfl⟩ := top_single h
    have hroot : s.root = i.addr := h.represents.root
    have hlay := h.represents.layout.2.1
    have h0 : Hold s i.addr (s.next, s.len) (cells 0 true (.node i .nil d .nil)) :=
      Eq.mp (congrArg (Hold s i.addr _) (by simp [slotOf, Slot.cells, cellsU, cellsL, lptr, Slot.up])) (Z.hold h.mem)
    have e1 : s.look s.root = .ok ⟨mkFlag i.red true i.cb i.wc, 0, 0, 0, d.ptr, .ofLabels i.labels, i.value⟩ := by
      unfold look; rw [hroot, hlay]; rfl
    have e2 : Dom.clone s = (.ok { s.set s.next ⟨.default, 0, 0, 0, 0, .ofLabels i.labels, i.value⟩ with next := s.next + 1, root := s.next, len := s.len },
        { s.set s.next ⟨.default, 0, 0, 0, 0, .ofLabels i.labels, i.value⟩ with next := s.next + 1 }) := by
      unfold Dom.clone
      rw [St.get_bind, deep_clone]
      have e3 : (deref s.root : St (Dom T) (Node T)) s = (.ok ⟨mkFlag i.red true i.cb i.wc, 0, 0, 0, d.ptr, .ofLabels i.labels, i.value⟩, s) := by
        unfold deref; rw [hroot, hlay]; rfl
      rw [St.bind_ok (a := s.next) (s' := { s.set s.next ⟨.default, 0, 0, 0, 0, .ofLabels i.labels, i.value⟩ with next := s.next + 1 })]
      · rfl
      · rw [St.bind_ok e3]
        rfl
    have hinv : Inv { s.set s.next ⟨.default, 0, 0, 0, 0, .ofLabels i.labels, i.value⟩ with next := s.next + 1 } (.node i .nil d .nil) δ := by
      refine ⟨?_, h.ok, h.names, h.len⟩
      have : Hold { s.set s.next (⟨.default, 0, 0, 0, 0, .ofLabels i.labels, i.value⟩ : Node T) with next := s.next + 1 } i.addr (s.next + 1, s.len) (cells 0 true (.node i .nil d .nil)) := by
        refine ⟨hroot, rfl, rfl, h0.nodup, fun c hc => ?_, fun c hc => ⟨(h0.bound c hc).1, Nat.lt_succ_of_lt (h0.bound c hc).2⟩, Nat.succ_pos _⟩
        have h1 : c.1 ≠ s.next := Nat.ne_of_lt (h0.bound c hc).2
        show (if c.1 = s.next then _ else s.heap c.1) = _
        rw [if_neg h1]; exact h0.cell c hc
      exact Eq.mp (congrArg (Hold _ i.addr _) (by simp [slotOf, Slot.cells, cellsU, cellsL, lptr, Slot.up, listOf, treesOf])) this
    refine ⟨_, _, e2, rfl, rfl, fun ls hv ha => ?_, rfl, rfl, rfl, _, e1, ?_⟩
    · obtain ⟨r1, e1, hr1⟩ := find_found (m := m) h hv ha
      obtain ⟨r2, e2, hr2⟩ := find_found (m := m) hinv hv ha
      rw [e1, e2]
      have : ∀ {r1 r2}, Found (Tr.node i .nil d .nil) (ls ++ [[]]) r1 → Found (Tr.node i .nil d .nil) (ls ++ [[]]) r2 → r1 = r2 := by
        intro r1 r2 hr1 hr2
        cases hr1 with
        | exact a ma sa =>
          cases hr2 with
          | exact b mb sb => rw [h.no_dup ma mb (sa.symm.trans sb)]
          | closest b mb sb nb db => exact absurd sa (nb a ma)
          | none nb => exact absurd (Name.same_sub sa) (nb a ma)
        | closest a ma sa na da =>
          cases hr2 with
          | exact b mb sb => exact absurd sb (na b mb)
          | closest b mb sb nb db =>
            have h1 := da b mb sb
            have h2 := db a ma sa
            rw [h.no_dup ma mb (h2.eq_of_length (Nat.le_antisymm h2.length_le h1.length_le))]
          | none nb => exact absurd sa (nb a ma)
        | none na =>
          cases hr2 with
          | exact b mb sb => exact absurd (Name.same_sub sb) (na b mb)
          | closest b mb sb nb db => exact absurd sb (na b mb)
          | none nb => rfl
      rw [this hr2 hr1]
    · unfold look
      show (match (if s.next = s.next then _ else s.heap s.next : Option (Node T)) with | some n => Res.ok n | none => .panic) = _
      rw [if_pos rfl]

/-- the clone of {com, net} finds neither, though its `len` is that of the original -/
theorem c64_clone_violated : ∃ s : Dom Nat, TreeReached .release [.insert TreeSample.com (some 1), .insert TreeSample.net (some 2)] s ∧
    s.find .release (Name.ofLabels TreeSample.com) = .ok ⟨1, .ExactMatch⟩ ∧ s.find .release (Name.ofLabels TreeSample.net) = .ok ⟨3, .ExactMatch⟩ ∧
    (do let c ← (Dom.clone s).1
        let a ← c.find .release (Name.ofLabels TreeSample.com)
        let b ← c.find .release (Name.ofLabels TreeSample.net)
        pure (a, b, c.len) : Res _) = .ok (⟨4, .PartialMatch⟩, ⟨4, .PartialMatch⟩, 3) := by
  refine ⟨(TOp.run .release [.insert TreeSample.com (some 1), .insert TreeSample.net (some 2)] Dom.new).2, ⟨?_, [none, none], pair_of (by decide +kernel)⟩,
    by decide +kernel, by decide +kernel, by decide +kernel⟩
  intro op hop ls hls
  simp only [List.mem_cons, List.not_mem_nil, or_false] at hop
  rcases hop with rfl | rfl <;> (simp only [TOp.names, List.mem_singleton] at hls; subst hls; exact ⟨by decide +kernel, by decide +kernel⟩)

/-- cloning an empty tree uses a null pointer -/
theorem c64_clone_empty_violated : ((Dom.clone (Dom.new : Dom T)).1) = .panic := rfl

/-- removing a name from a clone uses a null pointer: the nodes of a clone are not marked as the root of their level -/
theorem c64_clone_remove_violated : ∃ s : Dom Nat, TreeReached .release [.insert TreeSample.com (some 1)] s ∧
    (do let c ← (Dom.clone s).1
        (Dom.remove .release (Name.ofLabels TreeSample.com) c).1 : Res _) = .panic := by
  refine ⟨(TOp.run .release [.insert TreeSample.com (some 1)] Dom.new).2, ⟨?_, [none], pair_of (by decide +kernel)⟩, by decide +kernel⟩
  intro op hop ls hls
  simp only [List.mem_singleton] at hop; subst hop
  simp only [TOp.names, List.mem_singleton] at hls; subst hls
  exact ⟨by decide +kernel, by decide +kernel⟩

/-- `remove` unlinks a node but never frees it -/
theorem c64_leak (m : Build) (v : T) : ∃ s, TOp.run m [.insert TreeSample.com (some v), .removeNode TreeSample.com] Dom.new = (.ok [none, some v], s) ∧ s.is_empty = true ∧ (s.heap 1).isSome := by
  cases m <;> exact ⟨_, pair_of (by with_unfolding_all rfl), by with_unfolding_all rfl, by with_unfolding_all rfl⟩

/-! ## C65 -/

namespace NodeFlag

theorem enable_eq (b : UInt16) (i : Nat) (m : UInt16) (hm : m.toBitVec = BitVec.twoPow 16 i) (hi : i < 16) : decide (b &&& m ≠ 0) = b.toBitVec.getLsbD i := by
  have h0 : (b &&& m = 0) ↔ (b.toBitVec &&& BitVec.twoPow 16 i = 0#16) := by
    rw [← hm, ← UInt16.toBitVec_inj]; rfl
  rw [BitVec.and_twoPow] at h0
  cases hb : b.toBitVec.getLsbD i with
  | false => rw [hb] at h0; simp at h0; simp [h0]
  | true =>
    rw [hb] at h0
    have : ¬ BitVec.twoPow 16 i = 0#16 := by
      intro e
      have h1 := congrArg (fun x => x.getLsbD i) e
      simp [hi] at h1
    simp only [if_true, this, iff_false] at h0
    simp [h0]

/-- the bits of the flag by their meaning -/
structure Bits where
  black : Bool
  sub : Bool
  callback : Bool
  wildcard : Bool
deriving DecidableEq

/-- what the getters say -/
def bitsOf (f : NodeFlag) : Bits := ⟨f.is_black, f.is_subtree_root, f.is_callback_enabled, f.is_wildcard⟩

theorem bitsOf_eq (f : NodeFlag) : f.bitsOf = ⟨f.bits.toBitVec.getLsbD 0, f.bits.toBitVec.getLsbD 1, f.bits.toBitVec.getLsbD 2, f.bits.toBitVec.getLsbD 3⟩ := by
  unfold bitsOf is_black is_subtree_root is_callback_enabled is_wildcard is_enable
  rw [enable_eq _ 0 _ (by decide) (by omega), enable_eq _ 1 _ (by decide) (by omega), enable_eq _ 2 _ (by decide) (by omega), enable_eq _ 3 _ (by decide) (by omega)]

theorem bits_enable (f : NodeFlag) (m : UInt16) (i j : Nat) (hm : m.toBitVec = BitVec.twoPow 16 i) (hi : i < 16) :
    (f.enable m).bits.toBitVec.getLsbD j = (f.bits.toBitVec.getLsbD j || decide (i = j)) := by
  show (f.bits ||| m).toBitVec.getLsbD j = _
  rw [UInt16.toBitVec_or, BitVec.getLsbD_or, hm, BitVec.getLsbD_twoPow]
  simp [hi]

theorem bits_disable (f : NodeFlag) (m : UInt16) (i j : Nat) (hm : m.toBitVec = BitVec.twoPow 16 i) (hi : i < 16) (hj : j < 16) :
    (f.disable m).bits.toBitVec.getLsbD j = (f.bits.toBitVec.getLsbD j && decide (i ≠ j)) := by
  show (f.bits &&& ~~~m).toBitVec.getLsbD j = _
  rw [UInt16.toBitVec_and, BitVec.getLsbD_and, UInt16.toBitVec_not, BitVec.getLsbD_not, hm, BitVec.getLsbD_twoPow]
  simp [hi, hj]

end NodeFlag

open NodeFlag in
/-- setting one flag gives it the value asked for and leaves the other three as they were, whatever the sixteen bits are; the colour getters
agree, and a new node has none set -/
theorem c65_independent (f : NodeFlag) (c : Color) (b : Bool) :
    (f.set_color c).bitsOf = { f.bitsOf with black := decide (c = .Black) } ∧ (f.set_subtree_root b).bitsOf = { f.bitsOf with sub := b } ∧
    (f.set_callback b).bitsOf = { f.bitsOf with callback := b } ∧ (f.set_wildcard b).bitsOf = { f.bitsOf with wildcard := b } ∧
    (f.set_color c).get_color = c ∧ f.is_red = (!f.is_black) ∧ (f.get_color = .Black ↔ f.is_black = true) ∧ NodeFlag.default.bitsOf = ⟨false, false, false, false⟩ := by
  have h0 : (f.set_color c).bitsOf = { f.bitsOf with black := decide (c = .Black) } := by
    rw [bitsOf_eq, bitsOf_eq]
    cases c
    · show Bits.mk ((f.disable COLOR_MASK).bits.toBitVec.getLsbD 0) ((f.disable COLOR_MASK).bits.toBitVec.getLsbD 1) ((f.disable COLOR_MASK).bits.toBitVec.getLsbD 2)
        ((f.disable COLOR_MASK).bits.toBitVec.getLsbD 3) = _
      simp only [bits_disable f COLOR_MASK 0 _ (by decide) (by decide) (show (0 : Nat) < 16 by decide), bits_disable f COLOR_MASK 0 _ (by decide) (by decide) (show (1 : Nat) < 16 by decide),
        bits_disable f COLOR_MASK 0 _ (by decide) (by decide) (show (2 : Nat) < 16 by decide), bits_disable f COLOR_MASK 0 _ (by decide) (by decide) (show (3 : Nat) < 16 by decide)]
      simp
    · show Bits.mk ((f.enable COLOR_MASK).bits.toBitVec.getLsbD 0) ((f.enable COLOR_MASK).bits.toBitVec.getLsbD 1) ((f.enable COLOR_MASK).bits.toBitVec.getLsbD 2)
        ((f.enable COLOR_MASK).bits.toBitVec.getLsbD 3) = _
      simp only [bits_enable f COLOR_MASK 0 _ (by decide) (by decide)]
      simp
  have hset : ∀ (mask : UInt16) (i : Nat), mask.toBitVec = BitVec.twoPow 16 i → i < 16 → ∀ j < 16,
      (f.set b mask).bits.toBitVec.getLsbD j = if i = j then b else f.bits.toBitVec.getLsbD j := by
    intro mask i hm hi j hj
    unfold NodeFlag.set
    cases b
    · rw [if_neg (by simp), bits_disable f mask i j hm hi hj]
      by_cases e : i = j <;> simp [e]
    · rw [if_pos rfl, bits_enable f mask i j hm hi]
      by_cases e : i = j <;> simp [e]
  refine ⟨h0, ?_, ?_, ?_, ?_, rfl, ?_, by decide⟩
  · rw [bitsOf_eq, bitsOf_eq, NodeFlag.set_subtree_root, hset _ 1 (by decide) (by decide) 0 (by decide), hset _ 1 (by decide) (by decide) 1 (by decide), hset _ 1 (by decide) (by decide) 2 (by decide),
      hset _ 1 (by decide) (by decide) 3 (by decide)]
    rfl
  · rw [bitsOf_eq, bitsOf_eq, NodeFlag.set_callback, hset _ 2 (by decide) (by decide) 0 (by decide), hset _ 2 (by decide) (by decide) 1 (by decide), hset _ 2 (by decide) (by decide) 2 (by decide),
      hset _ 2 (by decide) (by decide) 3 (by decide)]
    rfl
  · rw [bitsOf_eq, bitsOf_eq, NodeFlag.set_wildcard, hset _ 3 (by decide) (by decide) 0 (by decide), hset _ 3 (by decide) (by decide) 1 (by decide), hset _ 3 (by decide) (by decide) 2 (by decide),
      hset _ 3 (by decide) (by decide) 3 (by decide)]
    rfl
  · have h1 : (f.set_color c).is_black = decide (c = .Black) := congrArg Bits.black h0
    unfold NodeFlag.get_color
    unfold NodeFlag.is_black at h1
    rw [h1]
    cases c <;> rfl
  · unfold NodeFlag.get_color NodeFlag.is_black
    cases f.is_enable COLOR_MASK <;> simp

/-! ## C66 -/

/-- a search with a callback, in any tree: the callback is asked for the nodes above the name that want it, from the top down, until it says stop, and the
answer and the chain are as `Answer` says; unless it comes to such a node that is below another one with a label that ends with a zero octet in
between, then the program panics -/
theorem c66_exact (m : Build) (ops : List (TOp T)) (s : Dom T) (h : TreeReached m ops s) (ls : List Label) (hv : ValidName ls)
    (ha : m = .debug → Name.Ascii ls) (f : Ptr → Name → P → Bool × P) (p : P) :
    ∃ t, Represents s t ∧
      (Blocked t (ls ++ [[]]) (some f) p → find_node_ext m s (Name.ofLabels ls) .new (some f) p = .panic) ∧
      (¬ Blocked t (ls ++ [[]]) (some f) p → ∃ res c p', find_node_ext m s (Name.ofLabels ls) .new (some f) p = .ok (res, c, p') ∧ Answer t (ls ++ [[]]) (some f) p res c.nodes p') := by
  obtain ⟨t, δ, h, -, -, -⟩ := h.inv
  refine ⟨t, h.represents, ?_⟩
  rcases find_answer_any (m := m) (cb := some f) (asciiKind_ok _) h hv (asciiKind_fits ha) (c := .new) rfl p with ⟨res, c, p', e, ha, hb⟩ | ⟨e, hb | ⟨hb, -⟩⟩
  · exact ⟨fun hb' => absurd hb' hb, fun _ => ⟨res, c, p', e, ha⟩⟩
  · exact ⟨fun _ => e, fun hb' => absurd hb hb'⟩
  · exact absurd hb asciiKind_ne

/-- in a tree whose names have no label that ends with a zero octet that never happens -/
theorem c66_callbacks_partial (m : Build) (ops : List (TOp T)) (s : Dom T) (h : TreeReached m ops s) (hn : ∀ op ∈ ops, op.NoNul) (ls : List Label) (hv : ValidName ls)
    (ha : m = .debug → Name.Ascii ls) (f : Ptr → Name → P → Bool × P) (p : P) :
    ∃ t res c p', Represents s t ∧ find_node_ext m s (Name.ofLabels ls) .new (some f) p = .ok (res, c, p') ∧ Answer t (ls ++ [[]]) (some f) p res c.nodes p' := by
  obtain ⟨t, δ, h, -, -, hz⟩ := h.inv
  rcases find_answer_any (m := m) (cb := some f) (asciiKind_ok _) h hv (asciiKind_fits ha) (c := .new) rfl p with ⟨res, c, p', e, ha, -⟩ | ⟨-, hb | ⟨hb, -⟩⟩
  · exact ⟨t, res, c, p', h.represents, e, ha⟩
  · exact absurd hb (not_blocked (hz hn) p)
  · exact absurd hb asciiKind_ne

/-- a callback that stops at "com" -/
theorem c66_callbacks_example : ∃ s : Dom Nat, TreeReached .debug [.insert TreeSample.com (some 1), .insert TreeSample.acom (some 2), .callback TreeSample.com true] s ∧
    (find_node_ext .debug s (Name.ofLabels TreeSample.bacom) .new (some fun p n (l : List (Ptr × Name)) => (true, l ++ [(p, n)])) []).bind (fun r => .ok (r.1, r.2.1.nodes, r.2.2)) =
      .ok (⟨1, .PartialMatch⟩, [], [(1, Name.ofLabels TreeSample.com)]) := by
  refine ⟨(TOp.run .debug [.insert TreeSample.com (some 1), .insert TreeSample.acom (some 2), .callback TreeSample.com true] Dom.new).2, ⟨?_, [none, none, none], pair_of (by decide +kernel)⟩,
    by decide +kernel⟩
  intro op hop ls hls
  simp only [List.mem_cons, List.not_mem_nil, or_false] at hop
  rcases hop with rfl | rfl | rfl <;> (simp only [TOp.names, List.mem_singleton] at hls; subst hls; exact ⟨by decide +kernel, by decide +kernel⟩)

/-- with a label that ends with a zero octet on the way the search panics -/
theorem c66_violated : ∃ s : Dom Nat, TreeReached .release [.insert TreeSample.com (some 1), .insert TreeSample.nulcom (some 2), .insert TreeSample.bnulcom (some 3), .callback TreeSample.bnulcom true] s ∧
    (find_node_ext .release s (Name.ofLabels ([120] :: TreeSample.bnulcom)) .new (some fun _ _ (_ : Unit) => (false, ())) ()) = .panic := by
  refine ⟨(TOp.run .release [.insert TreeSample.com (some 1), .insert TreeSample.nulcom (some 2), .insert TreeSample.bnulcom (some 3), .callback TreeSample.bnulcom true] Dom.new).2,
    ⟨?_, [none, none, none, none], pair_of (by decide +kernel)⟩, by decide +kernel⟩
  intro op hop ls hls
  simp only [List.mem_cons, List.not_mem_nil, or_false] at hop
  rcases hop with rfl | rfl | rfl | rfl <;> (simp only [TOp.names, List.mem_singleton] at hls; subst hls; exact ⟨by decide +kernel, by decide +kernel⟩)

/-! ## C69 -/

/-- a node with a value stays where it is, whatever else happens to the tree: a `NodePtr` got by `find` is found again after any operations
that leave a value under that name -/
theorem c69_stable (m : Build) (ops ops' : List (TOp T)) (s : Dom T) (h : TreeReached m ops s) (hok : ∀ op ∈ ops', op.OK m) (ls : List Label) (hv : ValidName ls) (ha : m = .debug → Name.Ascii ls)
    (p : Ptr) (v : T) (hf : s.find m (Name.ofLabels ls) = .ok ⟨p, .ExactMatch⟩) (hval : Dom.FindResult.get_value s ⟨p, .ExactMatch⟩ = .ok (some v)) (hsp : ∀ op ∈ ops', op.Spares ls) :
    ∃ outs s' w, TOp.run m ops' s = (.ok outs, s') ∧ s'.find m (Name.ofLabels ls) = .ok ⟨p, .ExactMatch⟩ ∧ Dom.FindResult.get_value s' ⟨p, .ExactMatch⟩ = .ok (some w) := by
  obtain ⟨t, δ, h, -⟩ := h.inv
  obtain ⟨e, he, rfl, hs⟩ := (find_exact_iff h hv ha).1 hf
  obtain ⟨n, hn, hnv, -⟩ := h.get he
  have hev : e.value.isSome := by
    unfold FindResult.get_value at hval
    simp only [hn, Res.bind_ok, Res.pure_eq] at hval
    rw [← hnv]
    simp only [reduceCtorEq, if_false, Res.ok.injEq] at hval
    rw [hval]; rfl
  obtain ⟨outs, s', er, t', δ', h', -, -, -, hk⟩ := run_spec (m := m) ops' h hok
  obtain ⟨e', he', ha', hn', hv'⟩ := hk e he ls hs.symm hev hsp
  obtain ⟨n', hl', hnv', -⟩ := h'.get he'
  obtain ⟨w, hw⟩ := Option.isSome_iff_exists.1 hv'
  refine ⟨outs, s', w, er, (find_exact_iff h' hv ha).2 ⟨e', he', ha', by rw [hn']; exact hs⟩, ?_⟩
  unfold FindResult.get_value
  rw [← ha', hl']
  simp only [reduceCtorEq, if_false, Res.bind_ok, Res.pure_eq]
  rw [hnv', hw]

/-- the hypotheses are met: "a.com" is kept while "b.a.com" comes and goes -/
theorem c69_stable_example : (∀ op ∈ [TOp.insert TreeSample.bacom (some 5), .removeNode TreeSample.bacom, .insert TreeSample.net none], op.Spares TreeSample.acom) := by
  intro op hop
  simp only [List.mem_cons, List.not_mem_nil, or_false] at hop
  rcases hop with rfl | rfl | rfl
  · intro e; exact absurd e (by decide)
  · show lowerName _ ≠ lowerName _; decide
  · intro e; exact absurd e (by decide)

end R53
