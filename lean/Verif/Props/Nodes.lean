import Verif.Proofs.TreeNodes
import Verif.Props.Tree
/-!
# C83: the nodes of a domain tree, for every history
-/
namespace R53
open Dom

variable {T : Type}

theorem TreeReached.shown {m : Build} {ops : List (TOp T)} {s : Dom T} (h : TreeReached m ops s) : ∃ t, Shown s t (Table.empty.after ops) := by
  obtain ⟨hok, outs, e⟩ := h
  obtain ⟨o, s', e', -, t, h1⟩ := run_table (m := m) ops ShownA.new hok
  rw [e] at e'
  simp only [Prod.mk.injEq, Res.ok.injEq] at e'
  obtain ⟨rfl, rfl⟩ := e'
  exact ⟨t, h1⟩

/-! the vocabulary of the table -/

/-- `meet` is the longest common end -/
theorem c83_meet (a b k : List Label) : meet a b = k ↔ k <:+ a ∧ k <:+ b ∧ ∀ j, j <:+ a → j <:+ b → j.length ≤ k.length := by
  constructor
  · rintro rfl
    exact ⟨meet_left a b, meet_right a b, fun j h1 h2 => (meet_max h1 h2).length_le⟩
  · rintro ⟨h1, h2, h3⟩
    exact ((meet_max h1 h2).eq_of_length_le (h3 _ (meet_left a b) (meet_right a b))).symm

/-- `closest` is the longest end of a name that has a node -/
theorem c83_closest (N : Nodes T) (n k : List Label) : N.closest n = some k ↔ k <:+ n ∧ N.at? k ≠ none ∧ ∀ j, j <:+ n → N.at? j ≠ none → j.length ≤ k.length := by
  induction n with
  | nil =>
    unfold Nodes.closest
    by_cases h : (N.at? []).isSome = true
    · rw [if_pos h]
      constructor
      · rintro e; cases e
        exact ⟨List.suffix_refl _, Option.isSome_iff_ne_none.1 h, fun j hj _ => hj.length_le⟩
      · rintro ⟨h1, -⟩; rw [List.suffix_nil.1 h1]
    · rw [if_neg h]
      constructor
      · intro e; cases e
      · rintro ⟨h1, h2, -⟩
        rw [List.suffix_nil.1 h1] at h2
        exact absurd (Option.isSome_iff_ne_none.2 h2) h
  | cons l a ih =>
    unfold Nodes.closest
    by_cases h : (N.at? (l :: a)).isSome = true
    · rw [if_pos h]
      constructor
      · rintro e; cases e
        exact ⟨List.suffix_refl _, Option.isSome_iff_ne_none.1 h, fun j hj _ => hj.length_le⟩
      · rintro ⟨h1, -, h3⟩
        rw [h1.eq_of_length_le (h3 _ (List.suffix_refl _) (Option.isSome_iff_ne_none.1 h))]
    · rw [if_neg h, ih]
      constructor
      · rintro ⟨h1, h2, h3⟩
        refine ⟨h1.trans (List.suffix_cons _ _), h2, fun j hj hn => ?_⟩
        rcases List.suffix_cons_iff.1 hj with rfl | hj
        · exact absurd (Option.isSome_iff_ne_none.2 hn) h
        · exact h3 j hj hn
      · rintro ⟨h1, h2, h3⟩
        rcases List.suffix_cons_iff.1 h1 with rfl | h1
        · exact absurd (Option.isSome_iff_ne_none.2 h2) h
        · exact ⟨h1, h2, fun j hj => h3 j (hj.trans (List.suffix_cons _ _))⟩

theorem Dom.ShownA.counts {A : Kind} {s : Dom T} {t : Tr T} {M : Table T} (h : ShownA A s t M) :
    s.len = M.nodes.length + M.lost ∧ (s.is_empty = true ↔ M.nodes = []) := by
  constructor
  · rw [h.inv.len, h.tab.length h.inv]
  · rw [is_empty, decide_eq_true_eq, h.inv.represents.root, ← List.length_eq_zero_iff, h.tab.length h.inv]
    cases t with
    | nil => simp [Tr.size, Tr.ptr]
    | node i l d r =>
      have := h.inv.represents.layout.1
      simp [Tr.size, Tr.ptr, this]

/-- every history answers as the table does, and afterwards `len` and `is_empty` are those of the table; no name is twice in the table -/
theorem c83_history (m : Build) (ops : List (TOp T)) (hok : ∀ op ∈ ops, op.OK m) :
    ∃ s, TOp.run m ops Dom.new = (.ok (Table.empty.answers ops), s) ∧
      s.len = (Table.empty.after ops).nodes.length + (Table.empty.after ops).lost ∧
      (s.is_empty = true ↔ (Table.empty.after ops).nodes = []) ∧
      ((Table.empty.after ops).nodes.map fun x => x.1).Nodup := by
  obtain ⟨o, s, e, rfl, t, h⟩ := run_table (m := m) ops ShownA.new hok
  exact ⟨s, e, h.counts.1, h.counts.2, h.tab.distinct⟩

theorem Dom.ShownA.closest_found {A : Kind} {m : Build} {s : Dom T} {t : Tr T} {M : Table T} (h : ShownA A s t M) (ls : List Label) {r : FindResult} (hfe : s.find m (Name.ofLabels ls) = .ok r)
    (hr : Found t (ls ++ [[]]) r) :
    (M.nodes.closest (lowerName ls) = none → s.find m (Name.ofLabels ls) = .ok ⟨0, .NotFound⟩) ∧
    ∀ k, M.nodes.closest (lowerName ls) = some k →
      ∃ p n, s.find m (Name.ofLabels ls) = .ok ⟨p, if k = lowerName ls then .ExactMatch else .PartialMatch⟩ ∧ p ≠ 0 ∧ s.look p = .ok n ∧
        M.nodes.at? k = some ⟨n.value, n.flag.is_callback_enabled, n.flag.is_wildcard⟩ := by
  have hI := h.inv
  rw [hfe]
  have hhit : ∀ e ∈ t.nodes [], IsSubdomain (ls ++ [[]]) e.name → (∀ x ∈ t.nodes [], IsSubdomain (ls ++ [[]]) x.name → IsSubdomain e.name x.name) →
      ∃ ks, lowerName e.name = lowerName ks ++ [[]] ∧ M.nodes.closest (lowerName ls) = some (lowerName ks) ∧
        ∃ n, s.look e.addr = .ok n ∧ M.nodes.at? (lowerName ks) = some ⟨n.value, n.flag.is_callback_enabled, n.flag.is_wildcard⟩ := by
    intro e mem hsub deep
    obtain ⟨ks, -, -, -, hk⟩ := hI.key mem
    obtain ⟨n, h1, h2, h3, h4⟩ := hI.get mem
    refine ⟨ks, hk, ?_, n, h1, ?_⟩
    · refine h.tab.closest_some ((h.tab.mem _ _).2 ⟨e, mem, hk, rfl⟩) ?_ fun i c hi hm => ?_
      · unfold IsSubdomain at hsub; rw [hk, lowerName_root] at hsub; exact suf_root.1 hsub
      · obtain ⟨x, hx, hxk, -⟩ := (h.tab.mem _ _).1 hm
        have h1 := deep x hx (by unfold IsSubdomain; rw [hxk, lowerName_root]; exact suf_root.2 hi)
        unfold IsSubdomain at h1
        rw [hxk, hk] at h1; exact suf_root.1 h1
    · rw [h.tab.at_some mem hk, h2, h3, h4]; rfl
  cases hr with
  | exact e mem same =>
    obtain ⟨ks, hk, hc, n, h1, h2⟩ := hhit e mem (Name.same_sub same) fun x hx hs => by
      unfold IsSubdomain at hs ⊢
      rw [← show lowerName _ = lowerName e.name from same]; exact hs
    have hks : lowerName ks = lowerName ls := List.append_cancel_right (hk.symm.trans (same_key same))
    rw [hc]
    refine ⟨fun e => by simp at e, fun k hk => ?_⟩
    simp only [Option.some.injEq] at hk; subst hk
    exact ⟨e.addr, n, by rw [if_pos hks], hI.addr_ne mem, h1, h2⟩
  | closest e mem sub no deep =>
    obtain ⟨ks, hk, hc, n, h1, h2⟩ := hhit e mem sub deep
    have hks : lowerName ks ≠ lowerName ls := fun e1 => no e mem (by show lowerName _ = lowerName _; rw [hk, e1, lowerName_root])
    rw [hc]
    refine ⟨fun e => by simp at e, fun k hk => ?_⟩
    simp only [Option.some.injEq] at hk; subst hk
    exact ⟨e.addr, n, by rw [if_neg hks], hI.addr_ne mem, h1, h2⟩
  | none no =>
    have hc : M.nodes.closest (lowerName ls) = none := by
      refine h.tab.closest_none fun j d hj hm => ?_
      obtain ⟨x, hx, hxk, -⟩ := (h.tab.mem _ _).1 hm
      exact no x hx (by unfold IsSubdomain; rw [hxk, lowerName_root]; exact suf_root.2 hj)
    rw [hc]
    exact ⟨fun _ => rfl, fun k hk => by simp at hk⟩

theorem Dom.ShownA.closest {A : Kind} {m : Build} {s : Dom T} {t : Tr T} {M : Table T} (hA : A ≠ none) (h : ShownA A s t M) (ls : List Label) (hv : ValidName ls) (ha : Kind.Fits A m ls) :
    (M.nodes.closest (lowerName ls) = none → s.find m (Name.ofLabels ls) = .ok ⟨0, .NotFound⟩) ∧
    ∀ k, M.nodes.closest (lowerName ls) = some k →
      ∃ p n, s.find m (Name.ofLabels ls) = .ok ⟨p, if k = lowerName ls then .ExactMatch else .PartialMatch⟩ ∧ p ≠ 0 ∧ s.look p = .ok n ∧
        M.nodes.at? k = some ⟨n.value, n.flag.is_callback_enabled, n.flag.is_wildcard⟩ := by
  obtain ⟨r, hfe, hr⟩ := find_found_kind (m := m) hA h.inv hv ha
  exact h.closest_found ls hfe hr

/-- `find` on a tree with any history: the node of the longest end of the name that has one, an exact match if that is the whole name; value and flags of
the node are those of the table; in a release build the name asked for may have any octets -/
theorem c83_find (m : Build) (ops : List (TOp T)) (s : Dom T) (h : TreeReached m ops s) (ls : List Label) (hv : ValidName ls)
    (ha : m = .debug → ∀ l ∈ ls, ∀ c ∈ l, c.toNat < 128) :
    ((Table.empty.after ops).nodes.closest (lowerName ls) = none → s.find m (Name.ofLabels ls) = .ok ⟨0, .NotFound⟩) ∧
    ∀ k, (Table.empty.after ops).nodes.closest (lowerName ls) = some k →
      ∃ p n, s.find m (Name.ofLabels ls) = .ok ⟨p, if k = lowerName ls then .ExactMatch else .PartialMatch⟩ ∧ p ≠ 0 ∧ s.look p = .ok n ∧
        (Table.empty.after ops).nodes.at? k = some ⟨n.value, n.flag.is_callback_enabled, n.flag.is_wildcard⟩ := by
  obtain ⟨t, h⟩ := h.shown
  exact h.closest asciiKind_ne ls hv (asciiKind_fits ha)

/-- a search for any name, in any build, that does not panic answers like that -/
theorem c83_find_told (m : Build) (ops : List (TOp T)) (s : Dom T) (h : TreeReached m ops s) (ls : List Label) (hv : ValidName ls) (r : FindResult) (hr : s.find m (Name.ofLabels ls) = .ok r) :
    ((Table.empty.after ops).nodes.closest (lowerName ls) = none → r = ⟨0, .NotFound⟩) ∧
    ∀ k, (Table.empty.after ops).nodes.closest (lowerName ls) = some k →
      ∃ p n, r = ⟨p, if k = lowerName ls then .ExactMatch else .PartialMatch⟩ ∧ p ≠ 0 ∧ s.look p = .ok n ∧
        (Table.empty.after ops).nodes.at? k = some ⟨n.value, n.flag.is_callback_enabled, n.flag.is_wildcard⟩ := by
  obtain ⟨t, hs⟩ := h.shown
  have hf : Found t (ls ++ [[]]) r := by
    cases m with
    | release =>
      obtain ⟨r', e, hr'⟩ := find_found_kind (m := .release) asciiKind_ne hs.inv hv (.inr ⟨asciiKind_ne, rfl⟩)
      rw [e] at hr; cases hr; exact hr'
    | debug =>
      have hI : InvA none s t (Table.empty.after ops).lost := ⟨hs.inv.mem, hs.inv.ok, fun e he => by
        obtain ⟨ks, h1, _, h3⟩ := hs.inv.names e he
        exact ⟨ks, h1, (fun G e => by cases e), h3⟩, hs.inv.len⟩
      rcases find_found_any (A := none) (m := .debug) (.inr rfl) hI hv (.inl fun G e => by cases e) with ⟨r', e, hr'⟩ | ⟨-, -, e⟩
      · rw [e] at hr; cases hr; exact hr'
      · rw [e] at hr; cases hr
  have hc := hs.closest_found ls hr hf
  rw [hr] at hc
  exact ⟨fun e => Res.ok.inj (hc.1 e), fun k e => by
    obtain ⟨p, n, h1, h2⟩ := hc.2 k e
    exact ⟨p, n, Res.ok.inj h1, h2⟩⟩

/-- in a debug build the search for a name with octets from 128 on can panic; in a release build it answers -/
theorem c83_find_debug_violated : ∃ s s' : Dom Nat, TreeReached .debug [.insert [[48]] (some 1)] s ∧ TreeReached .release [.insert [[48]] (some 1)] s' ∧
    s.find .debug (Name.ofLabels [[160], [48]]) = .ok ⟨1, .PartialMatch⟩ ∧ s.find .debug (Name.ofLabels [[160]]) = .panic ∧
    s'.find .release (Name.ofLabels [[160]]) = .ok ⟨0, .NotFound⟩ := by
  refine ⟨(TOp.run .debug [.insert [[48]] (some 1)] Dom.new).2, (TOp.run .release [.insert [[48]] (some 1)] Dom.new).2, ⟨?_, [none], pair_of (by decide +kernel)⟩,
    ⟨?_, [none], pair_of (by decide +kernel)⟩, by decide +kernel, by decide +kernel, by decide +kernel⟩ <;>
  · intro op hop ls hls
    simp only [List.mem_singleton] at hop; subst hop
    simp only [TOp.names, List.mem_singleton] at hls; subst hls
    exact ⟨by decide +kernel, by decide +kernel⟩

theorem lowerLabel_idem (a : Label) : lowerLabel (lowerLabel a) = lowerLabel a := by
  have key : ∀ c : UInt8, lowerByte (lowerByte c) = lowerByte c := forall_u8' (by decide +kernel)
  unfold lowerLabel
  rw [List.map_map]
  exact List.map_congr_left fun c _ => key c

theorem last_lower {a b : Label} (h : lowerLabel a = lowerLabel b) : a.getLast? = some 0 ↔ b.getLast? = some 0 := by
  have key : ∀ c : UInt8, lowerByte c = 0 ↔ c = 0 := forall_u8' (by decide +kernel)
  have one : ∀ x : Label, x.getLast? = some 0 ↔ (lowerLabel x).getLast? = some 0 := by
    intro x
    unfold lowerLabel
    rw [List.getLast?_map]
    cases x.getLast? with
    | none => simp
    | some c => simp [key c]
  rw [one a, one b, h]

theorem Dom.ShownA.along {A : Kind} {m : Build} {s : Dom T} {t : Tr T} {M : Table T} (hA : A ≠ none) (h : ShownA A s t M) (ls : List Label) (hv : ValidName ls) (ha : Kind.Fits A m ls)
    (k : List Label) (hk : M.nodes.closest (lowerName ls) = some k) :
    ∃ r c c' n ks, s.find_node m (Name.ofLabels ls) .new = .ok (r, c) ∧ r.flag = (if k = lowerName ls then .ExactMatch else .PartialMatch) ∧
      c.pop = .ok (c', r.node) ∧ s.look r.node = .ok n ∧ lowerName ks = k ∧ s.find m (Name.ofLabels ks) = .ok ⟨r.node, .ExactMatch⟩ ∧
      (M.nodes.Nul k → s.get_absolute_name c' n.name = .panic) ∧
      (¬ M.nodes.Nul k → s.get_absolute_name c' n.name = .ok (Name.ofLabels ks)) := by
  obtain ⟨p0, n0, hf, -, -, -⟩ := (h.closest (m := m) hA ls hv ha).2 k hk
  have hI := h.inv
  obtain ⟨r, c, e, hr, hc⟩ := chain_name_kind (m := m) hA hI hv ha
  have hfr : s.find m (Name.ofLabels ls) = .ok r := by unfold find; rw [e]; rfl
  rw [hfr] at hf
  have hrr : r = _ := Res.ok.inj hf
  have hne : r.flag ≠ .NotFound := by rw [hrr]; simp only; split <;> simp
  obtain ⟨c', n, ks, h1, h2, x, hx, hxa, hxn, h3, h4⟩ := hc hne
  obtain ⟨ks', hvk, hak, hks', hlow⟩ := hI.key hx
  have hkk : ks' = ks := List.append_cancel_right (hks'.symm.trans hxn)
  subst hkk
  have hfind := (find_exact_iff_kind (m := m) hA hI hvk (.inl hak)).2 ⟨x, hx, hxa, by rw [hxn]; rfl⟩
  have hclose : M.nodes.closest (lowerName ls) = some (lowerName ks') := by
    have hmem := (h.tab.mem _ _).2 ⟨x, hx, hlow, rfl⟩
    have hsub : IsSubdomain (ls ++ [[]]) x.name ∧ ∀ y ∈ t.nodes [], IsSubdomain (ls ++ [[]]) y.name → IsSubdomain x.name y.name := by
      have hnd := hI.represents.nodup
      clear hfr hf hrr h1 h2 h3 h4 hfind e hc
      cases hr with
      | exact e mem same =>
        have : x = e := List.inj_on_of_nodup_map hnd hx mem hxa
        subst this
        exact ⟨Name.same_sub same, fun y hy hs => by
          unfold IsSubdomain at hs ⊢
          rw [← show lowerName _ = lowerName x.name from same]; exact hs⟩
      | closest e mem sub no deep =>
        have : x = e := List.inj_on_of_nodup_map hnd hx mem hxa
        subst this
        exact ⟨sub, deep⟩
      | none no => exact absurd rfl hne
    refine h.tab.closest_some hmem ?_ fun i c hi hm => ?_
    · have := hsub.1
      unfold IsSubdomain at this; rw [hlow, lowerName_root] at this; exact suf_root.1 this
    · obtain ⟨y, hy, hyk, -⟩ := (h.tab.mem _ _).1 hm
      have h1 := hsub.2 y hy (by unfold IsSubdomain; rw [hyk, lowerName_root]; exact suf_root.2 hi)
      unfold IsSubdomain at h1
      rw [hyk, hlow] at h1; exact suf_root.1 h1
  have hkeq : lowerName ks' = k := by rw [hk] at hclose; exact (Option.some.inj hclose).symm
  have hnul : M.nodes.Nul k ↔ Sealed t x := by
    constructor
    · rintro ⟨a, j, h5, h6, h7⟩
      obtain ⟨d, hd⟩ := Option.ne_none_iff_exists'.1 h6
      obtain ⟨y, hy, hyk, -⟩ := (h.tab.mem j d).1 ((Nodes.at?_iff h.tab.distinct).1 hd)
      have hsub : IsSubdomain x.name y.name := by
        unfold IsSubdomain; rw [hyk, hlow, hkeq]
        exact suf_root.2 ((List.suffix_cons a j).trans h5)
      obtain ⟨z, hz⟩ := above_suffix_kind hA hI hx hy hsub
      have hlen : z ≠ [] := by
        intro hz0
        subst hz0
        have h8 := h5.length_le
        have h9 := congrArg List.length hlow
        rw [← hz, List.nil_append, hyk, hkeq] at h9
        simp only [List.length_append, List.length_cons, List.length_nil] at h8 h9
        omega
      obtain ⟨z', b, rfl⟩ : ∃ a y, z = a ++ [y] := ⟨z.dropLast, z.getLast hlen, (List.dropLast_concat_getLast hlen).symm⟩
      refine ⟨y, hy, b, ⟨z', by rw [← hz]; simp⟩, ?_⟩
      have h10 : lowerName z' ++ lowerLabel b :: (j ++ [[]]) = k ++ [[]] := by
        rw [← hkeq, ← hlow, ← hz, Name.lowerName_append, Name.lowerName_append, hyk]
        simp [lowerName]
      obtain ⟨w, hw⟩ := h5
      have h11 : lowerName z' ++ [lowerLabel b] ++ (j ++ [[]]) = w ++ [a] ++ (j ++ [[]]) := by
        rw [← hw] at h10; simpa using h10
      have h12 := (List.append_inj' (List.append_cancel_right h11) rfl).2
      simp only [List.cons.injEq, and_true] at h12
      have h13 : lowerLabel b = lowerLabel a := by
        have hw2 : a ∈ lowerName ks' := by rw [hkeq, ← hw]; simp
        obtain ⟨a0, -, ha0⟩ := List.mem_map.1 hw2
        rw [← ha0, lowerLabel_idem, ha0]; exact h12
      exact (last_lower h13).2 h7
    · rintro ⟨y, hy, a, ⟨z, hz⟩, ha0⟩
      obtain ⟨js, -, -, hjs, hjl⟩ := hI.key hy
      refine ⟨lowerLabel a, lowerName js, ⟨lowerName z, ?_⟩, ?_, ?_⟩
      · have h5 : lowerName z ++ lowerLabel a :: (lowerName js ++ [[]]) = k ++ [[]] := by
          rw [← hkeq, ← hlow, ← hz, Name.lowerName_append, ← hjl]
          simp [lowerName]
        rw [← List.cons_append, ← List.append_assoc] at h5
        exact List.append_cancel_right h5
      · rw [h.tab.at_some hy hjl]; simp
      · exact (last_lower (lowerLabel_idem a)).2 ha0
  exact ⟨r, c, c', n, ks', e, by rw [hrr], h1, h2, hkeq, hfind, fun hn => h3 (hnul.1 hn), fun hn => h4 (fun hs => hn (hnul.2 hs))⟩

/-- after a search the name of the node found, put together along the chain, is its name, unless a node above it has right below it on the way a label
that ends with a zero octet: then, and only then, the program panics -/
theorem c63_exact (m : Build) (ops : List (TOp T)) (s : Dom T) (h : TreeReached m ops s) (ls : List Label) (hv : ValidName ls)
    (ha : m = .debug → ∀ l ∈ ls, ∀ c ∈ l, c.toNat < 128)
    (k : List Label) (hk : (Table.empty.after ops).nodes.closest (lowerName ls) = some k) :
    ∃ r c c' n ks, s.find_node m (Name.ofLabels ls) .new = .ok (r, c) ∧ r.flag = (if k = lowerName ls then .ExactMatch else .PartialMatch) ∧
      c.pop = .ok (c', r.node) ∧ s.look r.node = .ok n ∧ lowerName ks = k ∧ s.find m (Name.ofLabels ks) = .ok ⟨r.node, .ExactMatch⟩ ∧
      ((Table.empty.after ops).nodes.Nul k → s.get_absolute_name c' n.name = .panic) ∧
      (¬ (Table.empty.after ops).nodes.Nul k → s.get_absolute_name c' n.name = .ok (Name.ofLabels ks)) := by
  obtain ⟨t, h⟩ := h.shown
  exact h.along asciiKind_ne ls hv (asciiKind_fits ha) k hk

example : (Table.empty.after (T := Nat) [.insert TreeSample.com (some 1), .insert TreeSample.nulcom (some 2), .insert TreeSample.bnulcom (some 3)]).nodes.Nul TreeSample.bnulcom ∧
    ¬ (Table.empty.after (T := Nat) [.insert TreeSample.nulcom (some 2), .insert TreeSample.bnulcom (some 3)]).nodes.Nul TreeSample.nulcom := by
  refine ⟨⟨[97, 0], TreeSample.com, by decide +kernel, by decide +kernel, by decide +kernel⟩, ?_⟩
  rintro ⟨a, j, h1, h2, h3⟩
  rw [show TreeSample.nulcom = [[97, 0], [99, 111, 109]] from rfl, List.suffix_cons_iff, List.suffix_cons_iff, List.suffix_nil] at h1
  rcases h1 with h1 | h1 | h1
  · cases h1; exact h2 (by decide +kernel)
  · cases h1; exact h2 (by decide +kernel)
  · cases h1

/-- `insert` on a tree with any history: its answer, and that the node it gives is the one found afterwards under the name -/
theorem c83_insert (m : Build) (ops : List (TOp T)) (s : Dom T) (h : TreeReached m ops s) (ls : List Label) (v : Option T) (hv : ValidName ls)
    (ha : ∀ l ∈ ls, ∀ c ∈ l, c.toNat < 128) :
    ∃ p s', Dom.insert m (Name.ofLabels ls) v s = (.ok (p, (Table.empty.after ops).nodes.insertAnswer (lowerName ls)), s') ∧
      s'.find m (Name.ofLabels ls) = .ok ⟨p, .ExactMatch⟩ ∧ TreeReached m (ops ++ [.insert ls v]) s' := by
  have hreach := h
  obtain ⟨t, h⟩ := h.shown
  obtain ⟨⟨p, old⟩, s', e, t', h', hi⟩ := insert_spec (m := m) h.inv hv ha v
  have h1 := (h.tab.inserted h.inv h' hi).1
  simp only at h1
  refine ⟨p, s', by rw [e, h1], ?_, ?_⟩
  · refine (find_exact_iff h' hv fun _ => ha).2 ?_
    rcases hi with ⟨e, R, hb, he, hse, -, hb'⟩ | ⟨-, -, nm, X, hnm, hb', -⟩
    · exact ⟨{ e with value := v }, (mem_of_bag hb').2 (.inl rfl), he, hse.symm⟩
    · refine ⟨⟨p, nm, v, false, false⟩, ?_, rfl, hnm.symm⟩
      rw [mem_nodes, hb']; simp
  · obtain ⟨hok, outs, e0⟩ := hreach
    refine ⟨fun op hop => ?_, outs ++ [old.join], ?_⟩
    · rcases List.mem_append.1 hop with hop | hop
      · exact hok op hop
      · simp only [List.mem_singleton] at hop; subst hop
        intro x hx; simp only [TOp.names, List.mem_singleton] at hx; subst hx; exact ⟨hv, fun _ => ha⟩
    · have happ : ∀ (os : List (TOp T)) (s0 : Dom T) (outs : List (Option T)), TOp.run m os s0 = (.ok outs, s) →
          TOp.run m (os ++ [.insert ls v]) s0 = (.ok (outs ++ [old.join]), s') := by
        intro os
        induction os with
        | nil =>
          intro s0 outs e0
          have : outs = [] ∧ s0 = s := by
            have e1 : (Res.ok ([] : List (Option T)), s0) = (.ok outs, s) := e0
            simp only [Prod.mk.injEq, Res.ok.injEq] at e1
            exact ⟨e1.1.symm, e1.2⟩
          obtain ⟨rfl, rfl⟩ := this
          simp only [List.nil_append, TOp.run, TOp.exec]
          rw [St.bind_ok (show (do let r ← Dom.insert m (Name.ofLabels ls) v; pure r.2.join : St (Dom T) _) s0 = (.ok old.join, s') from by rw [St.bind_ok e]; rfl)]
          rfl
        | cons op os ih =>
          intro s0 outs e0
          simp only [List.cons_append, TOp.run] at e0 ⊢
          obtain ⟨a, s1, e1, e2⟩ := St.bind_ok_inv e0
          rw [St.bind_ok e1]
          obtain ⟨as, s2, e3, e4⟩ := St.bind_ok_inv e2
          have e5 : (Res.ok (a :: as), s2) = (.ok outs, s) := e4
          simp only [Prod.mk.injEq, Res.ok.injEq] at e5
          obtain ⟨rfl, rfl⟩ := e5
          rw [St.bind_ok (ih s1 as e3)]
          rfl
      exact happ ops Dom.new outs e0

/-! ## a case -/
namespace NodesSample
open TreeSample

/-- names that meet below "com" and at the root; a removal that takes two more nodes away, and one of a name that is not there -/
def ops : List (TOp Nat) := [.insert bacom (some 1), .insert cacom (some 2), .insert net (some 3), .callback net true, .removeNode net, .remove cacom, .remove cacom, .insert com none]

theorem ok {m : Build} : ∀ op ∈ ops, op.OK m := by
  have h1 : ∀ ls ∈ [com, acom, Acom, bacom, cacom, net], ValidName ls ∧ ∀ l ∈ ls, ∀ c ∈ l, c.toNat < 128 := by decide +kernel
  intro op hop ls hls
  simp only [ops, List.mem_cons, List.not_mem_nil, or_false] at hop
  have h2 := h1 ls ?_
  · exact ⟨h2.1, fun _ => h2.2⟩
  rcases hop with rfl | rfl | rfl | rfl | rfl | rfl | rfl | rfl <;> (simp only [TOp.names, List.mem_singleton] at hls; subst hls; decide)

/-- after three insertions there are two nodes without a value: "a.com" and the root -/
theorem three : (Table.empty.after (ops.take 4)).nodes =
    [(net, ⟨some 3, true, false⟩), ([], ⟨none, false, false⟩), (cacom, ⟨some 2, false, false⟩), (acom, ⟨none, false, false⟩), (bacom, ⟨some 1, false, false⟩)] := by decide +kernel

/-- removing "net" leaves the root, removing "c.a.com" leaves "a.com", removing it again takes the value of "a.com", which has none, and keeps it, as "b.a.com" is below it -/
theorem all : (Table.empty.after ops).nodes =
    [(com, ⟨none, false, false⟩), ([], ⟨none, false, false⟩), (acom, ⟨none, false, false⟩), (bacom, ⟨some 1, false, false⟩)] := by decide +kernel

theorem results : Table.empty.answers ops = [none, none, none, none, some 3, some 2, none, none] := by decide +kernel

/-- removing the last name takes all nodes away that have no value -/
theorem gone : (Table.empty.after (ops.take 7 ++ [.remove bacom])).nodes = [] := by decide +kernel
end NodesSample

theorem c83_history_example : ∃ s : Dom Nat, TOp.run .release NodesSample.ops Dom.new = (.ok [none, none, none, none, some 3, some 2, none, none], s) ∧ s.len = 4 := by
  obtain ⟨s, h1, h2, -⟩ := c83_history .release NodesSample.ops NodesSample.ok
  rw [NodesSample.results] at h1
  rw [NodesSample.all] at h2
  exact ⟨s, h1, h2⟩

/-- `insert` of "com" answers `Some(None)`, though it never was in the tree, since "a.com" is -/
theorem c83_insert_example : (Table.empty.after (NodesSample.ops.take 7)).nodes.insertAnswer TreeSample.com = some none ∧
    (Table.empty.after (NodesSample.ops.take 7)).nodes.insertAnswer TreeSample.net = none := by
  constructor <;> decide +kernel

/-- a search without callback does not look at the flags of the nodes -/
theorem findLoop_flags {P : Type} {m : Build} {s s' : Dom T} (h : ∀ p, (s.look p).bind (fun n => .ok { n with flag := .default }) = (s'.look p).bind (fun n => .ok { n with flag := .default })) :
    ∀ (fuel : Nat) (p : Ptr) (sl : LabelSlice) (r : FindResult) (c : Chain) (u : P),
      findLoop m s none fuel p sl r c u = findLoop m s' none fuel p sl r c u := by
  intro fuel
  induction fuel with
  | zero => intros; rfl
  | succ fuel ih =>
    intro p sl r c u
    unfold findLoop
    by_cases hp : p = 0
    · rw [if_pos hp, if_pos hp]
    · rw [if_neg hp, if_neg hp]
      have hcb : ∀ (s : Dom T) (c : Chain) (n : Node T), s.callback (P := P) none c p n u = .ok (false, u) := by
        intro s c n; unfold callback; split <;> rfl
      have := h p
      cases hx : s.look p with
      | err => rw [hx] at this; cases hy : s'.look p <;> rw [hy] at this <;> first | rfl | cases this
      | panic => rw [hx] at this; cases hy : s'.look p <;> rw [hy] at this <;> first | rfl | cases this
      | ok n =>
        rw [hx] at this
        cases hy : s'.look p with
        | err => rw [hy] at this; cases this
        | panic => rw [hy] at this; cases this
        | ok n' =>
          rw [hy] at this
          have this := Res.ok.inj this
          obtain ⟨-, e2, e3, -, e4, e1, -⟩ := Node.mk.inj this
          simp only [Res.bind_ok, hcb, e1, e2, e3, e4, ih]

/-- what is found in a clone: its one node, by its own name and by every name below it, and nothing else -/
theorem c64_clone_exact (m : Build) (ops : List (TOp T)) (s : Dom T) (h : TreeReached m ops s) (hne : s.is_empty = false) :
    ∃ c s' top v, Dom.clone s = (.ok c, s') ∧ ValidName top ∧ s.find m (Name.ofLabels top) = .ok ⟨s.root, .ExactMatch⟩ ∧
      FindResult.get_value s ⟨s.root, .ExactMatch⟩ = .ok v ∧ FindResult.get_value c ⟨c.root, .ExactMatch⟩ = .ok v ∧ c.root ≠ s.root ∧
      ∀ ls, ValidName ls → Name.Ascii ls → c.find m (Name.ofLabels ls) = .ok (if SameName ls top then ⟨c.root, .ExactMatch⟩
        else if IsSubdomain ls top then ⟨c.root, .PartialMatch⟩ else ⟨0, .NotFound⟩) := by
  obtain ⟨c, s', e, -, -, -, hcl0, hcr, hcn, n, hn, hcl⟩ := c64_clone_partial m ops s h hne
  obtain ⟨t, δ, h, -⟩ := h.inv
  cases t with
  | nil => simp [is_empty, h.represents.root, Tr.ptr] at hne
  | node i l d r =>
    obtain ⟨rfl, rfl⟩ := top_single h
    have hroot : s.root = i.addr := h.represents.root
    have hpos : 0 < s.next := Hold.pos (Z.hold h.mem)
    have hlt : i.addr < s.next := ((Z.hold h.mem).bound (i.addr, Info.node i true 0 0 0 d.ptr) (by
      simp [slotOf, Slot.cells, cellsU, cellsL, lptr, Slot.up, cells, treesOf, listOf, Tr.ptr])).2
    have hent : i.entry [] ∈ (Tr.node i .nil d .nil).nodes [] := by
      rw [mem_nodes, bag_node]; simp
    obtain ⟨top, hvt, hat, het⟩ := h.names _ hent
    have hlab : i.labels = top ++ [[]] := by simpa [Info.entry] using het
    have hn2 : s.look s.root = .ok ⟨mkFlag i.red true i.cb i.wc, 0, 0, 0, d.ptr, .ofLabels i.labels, i.value⟩ := by
      have hlay := h.represents.layout.2.1
      unfold look; rw [hroot, hlay]; rfl
    obtain rfl : _ = n := Res.ok.inj (hn2.symm.trans hn)
    have hfind := (find_exact_iff (m := m) h hvt fun _ => asciiKind_iff.1 hat).2 ⟨_, hent, rfl, by rw [het]; rfl⟩
    refine ⟨c, s', top, i.value, e, hvt, by rw [hroot]; exact hfind, ?_, ?_, ?_, fun ls hv ha => ?_⟩
    · unfold FindResult.get_value; rw [hn2]; rfl
    · unfold FindResult.get_value; rw [hcl]; rfl
    · rw [hcr, hroot]; exact fun e => absurd e (Nat.ne_of_gt hlt)
    · let i' : Info T := ⟨s.next, false, false, false, i.labels, i.value⟩
      let k : Dom T := { c with heap := fun p => if p = s.next then some (Info.node i' true 0 0 0 0) else c.heap p }
      have hk : ∀ ls, c.find m (Name.ofLabels ls) = k.find m (Name.ofLabels ls) := by
        intro ls
        unfold find find_node find_node_ext
        have : ∀ p, (c.look p).bind (fun n => .ok { n with flag := .default }) = (k.look p).bind (fun n => .ok { n with flag := .default }) := by
          intro p
          by_cases hp : p = s.next
          · subst hp
            rw [hcr] at hcl
            have : k.look s.next = .ok (Info.node i' true 0 0 0 0) := by unfold look; simp [k]
            rw [hcl, this]; rfl
          · have : k.look p = c.look p := by unfold look; simp [k, hp]
            rw [this]
        rw [show k.root = c.root from rfl, show k.next = c.next from rfl]
        simp only [findLoop_flags this]
      have hent' : ∀ e ∈ (Tr.node i' .nil .nil .nil).nodes [], e = i'.entry [] := by
        intro e he
        rw [mem_nodes, bag_node] at he
        simpa using he
      have hI : Inv k (.node i' .nil .nil .nil) (s.len - 1) := by
        refine ⟨?_, ⟨⟨⟨1, ?_⟩, rfl, by simp [Tr.ents]⟩, ?_⟩, fun e he => ?_, ?_⟩
        · have hh : Hold k s.next (s.next + 1, k.len) (cells 0 true (.node i' .nil .nil .nil)) := by
            refine ⟨hcr, hcn, rfl, by simp [cells], fun c hc => ?_, fun c hc => ?_, Nat.succ_pos _⟩
            · simp only [cells, add_zero, Multiset.mem_singleton] at hc
              subst hc
              show (if s.next = s.next then _ else _) = _
              rw [if_pos rfl]; rfl
            · simp only [cells, add_zero, Multiset.mem_singleton] at hc
              subst hc
              exact ⟨Nat.ne_of_gt hpos, Nat.lt_succ_self _⟩
          show Hold k _ (k.next, k.len) _
          rw [show k.next = s.next + 1 from hcn]
          exact Eq.mp (congrArg (Hold k s.next _) (by simp [slotOf, Slot.cells, cellsU, cellsL, lptr, Slot.up, listOf, treesOf])) hh
        · simp [Tr.RB, i']
        · exact ⟨by show i.labels ≠ []; rw [hlab]; simp, trivial, trivial, ⟨⟨0, rfl⟩, rfl, by simp [Tr.ents]⟩, trivial⟩
        · rw [hent' e he]
          exact ⟨top, hvt, hat, by simpa [Info.entry, i'] using hlab⟩
        · have := h.len
          simp only [Tr.size] at this ⊢
          show c.len = _
          rw [hcl0]; omega
      rw [hk ls]
      obtain ⟨r, e, hr⟩ := find_found (m := m) hI hv ha
      rw [e, hcr]
      have hi : (i'.entry []).name = top ++ [[]] := by simpa [Info.entry, i'] using hlab
      have hsub : IsSubdomain (ls ++ [[]]) (i'.entry []).name ↔ IsSubdomain ls top := by
        rw [hi]; unfold IsSubdomain; rw [lowerName_root, lowerName_root, suf_root]
      have hsame : SameName (ls ++ [[]]) (i'.entry []).name ↔ SameName ls top := by rw [hi, same_root]; rfl
      have hin : i'.entry [] ∈ (Tr.node i' .nil .nil .nil).nodes [] := by rw [mem_nodes, bag_node]; simp
      clear e
      cases hr with
      | exact e mem same =>
        obtain rfl := hent' e mem
        rw [if_pos (hsame.1 same)]; rfl
      | closest e mem sub no deep =>
        obtain rfl := hent' e mem
        rw [if_neg (fun h => no _ mem (hsame.2 h)), if_pos (hsub.1 sub)]; rfl
      | none no =>
        have h1 : ¬ IsSubdomain ls top := fun h => no _ hin (hsub.2 h)
        rw [if_neg (fun h => h1 (Name.same_sub h)), if_neg h1]

/-- the clone of "b.a.com" and "c.a.com" knows "a.com" only, and says so for every name below it -/
theorem c64_clone_exact_example : ∃ s : Dom Nat, TreeReached .release [.insert TreeSample.bacom (some 1), .insert TreeSample.cacom (some 2)] s ∧ s.is_empty = false ∧
    (do let c ← (Dom.clone s).1
        let a ← c.find .release (Name.ofLabels TreeSample.acom)
        let b ← c.find .release (Name.ofLabels TreeSample.bacom)
        let d ← c.find .release (Name.ofLabels TreeSample.com)
        pure (a, b, d) : Res _) = .ok (⟨4, .ExactMatch⟩, ⟨4, .PartialMatch⟩, ⟨0, .NotFound⟩) := by
  refine ⟨(TOp.run .release [.insert TreeSample.bacom (some 1), .insert TreeSample.cacom (some 2)] Dom.new).2, ⟨?_, [none, none], pair_of (by decide +kernel)⟩, by decide +kernel, by decide +kernel⟩
  intro op hop
  exact TreeSample.ok op (by simp only [TreeSample.ops, List.mem_cons, List.not_mem_nil, or_false] at hop ⊢; rcases hop with rfl | rfl <;> simp)

end R53
