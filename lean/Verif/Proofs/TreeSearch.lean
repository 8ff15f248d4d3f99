import Verif.Proofs.TreeRemove
/-!
# Search: the loop
-/
namespace R53
namespace Dom
variable {T P : Type}

theorem callbacks_append {cb : Option (Ptr → Name → P → Bool × P)} {a b : List (Entry T)} {p q : P} (h : callbacks cb a p = (none, q)) :
    callbacks cb (a ++ b) p = callbacks cb b q := by
  induction a generalizing p with
  | nil => simp only [callbacks, Prod.mk.injEq, true_and] at h; subst h; rfl
  | cons e a ih =>
    simp only [List.cons_append]
    cases cb with
    | none => rw [callbacks] at h ⊢; exact ih h
    | some f =>
      rw [callbacks] at h ⊢
      by_cases hc : e.cb = true
      · rw [if_pos hc] at h ⊢
        by_cases hs : (f e.addr (Name.ofLabels e.name.dropLast) p).1 = true
        · rw [if_pos hs] at h; cases h
        · rw [if_neg hs] at h ⊢; exact ih h
      · rw [if_neg hc] at h ⊢; exact ih h

theorem callbacks_none (es : List (Entry T)) (p : P) : callbacks none es p = (none, p) := by
  induction es with
  | nil => rfl
  | cons e es ih => rw [callbacks]; exact ih

/-- what the search has found so far -/
def resOf : List (UF T) → FindResult
  | [] => ⟨0, .NotFound⟩
  | u :: _ => ⟨u.i.addr, .PartialMatch⟩

section
variable {m : Build} {s : Dom T} {g : Nat × Nat} {lc : List (LF T)} {t : Tr T} {i : Info T} {l d r : Tr T} {rest : List (UF T)}
variable {tgt full as post : List Label} {slice : LabelSlice}

theorem W.heap (h : W s g rest lc (.node i l d r)) : s.heap i.addr = some (Info.node i lc.isEmpty l.ptr r.ptr (lptr (slotUp rest) lc) d.ptr) := by
  rw [← slotOf_up]; exact (Z.focus h).heap 0 rfl

theorem W.lookup (h : W s g rest lc (.node i l d r)) : s.look i.addr = .ok (Info.node i lc.isEmpty l.ptr r.ptr (lptr (slotUp rest) lc) d.ptr) := by
  unfold look; rw [h.heap]

theorem addrs_path (rest : List (UF T)) : (addrs (path rest)).reverse = rest.map fun u => u.i.addr := by
  induction rest with
  | nil => rfl
  | cons u rest ih => simp only [addrs, path, List.map_append, List.map_cons, List.map_nil, List.reverse_append] at ih ⊢; rw [ih]; rfl

theorem chainNames_spec (h : W s g rest lc t) : chainNames s (rest.map fun u => u.i.addr) = .ok (rest.map fun u => .ofLabels u.i.labels) := by
  induction rest generalizing lc t with
  | nil => rfl
  | cons u rest ih =>
    have h1 : W s g rest u.lc (.node u.i u.l (plug t lc) u.r) := W.down_iff.2 (Z.top.1 h)
    simp only [List.map_cons, chainNames, h1.lookup, Res.bind_ok, ih h1]
    rfl

theorem sufU_flat (rest : List (UF T)) : (rest.map fun u => u.i.labels).flatten = sufU rest := by
  induction rest with
  | nil => rfl
  | cons u rest ih => simp only [List.map_cons, List.flatten_cons, ih]; rfl

theorem lastOctet_ne {ls : List Label} (hne : ls ≠ []) (h : ∀ x ∈ ls, x ≠ [] ∧ x.getLast? ≠ some 0) : LabelSequence.lastOctet ls ≠ some 0 := by
  obtain ⟨a, x, rfl⟩ : ∃ a x, ls = a ++ [x] := ⟨ls.dropLast, ls.getLast hne, (List.dropLast_concat_getLast hne).symm⟩
  obtain ⟨h1, h2⟩ := h x (by simp)
  obtain ⟨y, c, rfl⟩ : ∃ y c, x = y ++ [c] := ⟨x.dropLast, x.getLast h1, (List.dropLast_concat_getLast h1).symm⟩
  have e : wire (a ++ [y ++ [c]]) = (wire a ++ UInt8.ofNat (y ++ [c]).length :: y) ++ [c] := by simp
  rw [LabelSequence.lastOctet, e, List.getLast?_concat]
  simpa using h2

theorem flat_last {seqs : List (List Label)} {x : List Label} (hne : seqs ≠ []) (hall : ∀ y ∈ seqs, y ≠ []) (e : seqs.flatten = x ++ [[]]) :
    (∀ y ∈ seqs.dropLast, ∀ l ∈ y, l ∈ x) ∧ ∃ z, seqs.getLast? = some (z ++ [[]]) := by
  obtain ⟨init, la, rfl⟩ : ∃ a y, seqs = a ++ [y] := ⟨seqs.dropLast, seqs.getLast hne, (List.dropLast_concat_getLast hne).symm⟩
  have h1 := hall la (by simp)
  obtain ⟨z, w, rfl⟩ : ∃ a y, la = a ++ [y] := ⟨la.dropLast, la.getLast h1, (List.dropLast_concat_getLast h1).symm⟩
  simp only [List.flatten_append, List.flatten_cons, List.flatten_nil, List.append_nil, ← List.append_assoc] at e
  have h2 := List.append_inj' e rfl
  obtain ⟨h3, h4⟩ := h2
  simp only [List.cons.injEq, and_true] at h4
  subst h4
  refine ⟨fun y hy l hl => ?_, z, by simp⟩
  rw [← h3]
  simp only [List.dropLast_concat] at hy
  simp only [List.mem_append, List.mem_flatten]
  exact .inl ⟨y, hy, hl⟩

theorem rest_ne (h : OK (plugU t rest)) : ∀ u ∈ rest, u.i.labels ≠ [] := by
  induction rest generalizing t with
  | nil => simp
  | cons u rest ih =>
    intro v hv
    rcases List.mem_cons.1 hv with rfl | hv
    · exact (OK_node (OK_plugU (rest := rest) h).1).1
    · exact ih h v hv

/-- a label right below one of the nodes on the way ends with a zero octet -/
def Cracked : List Label → List (UF T) → Prop
  | _, [] => False
  | ls, u :: rest => (lastL ls).getLast? = some 0 ∨ Cracked u.i.labels rest

theorem lastL_concat (a : List Label) (x : Label) : lastL (a ++ [x]) = x := by simp [lastL]

theorem lastOctet_iff {ls : List Label} (hne : ls ≠ []) (h : lastL ls ≠ []) : LabelSequence.lastOctet ls = some 0 ↔ (lastL ls).getLast? = some 0 := by
  obtain ⟨a, x, rfl⟩ : ∃ a x, ls = a ++ [x] := ⟨ls.dropLast, ls.getLast hne, (List.dropLast_concat_getLast hne).symm⟩
  rw [lastL_concat] at h ⊢
  obtain ⟨y, c, rfl⟩ : ∃ y c, x = y ++ [c] := ⟨x.dropLast, x.getLast h, (List.dropLast_concat_getLast h).symm⟩
  have e : wire (a ++ [y ++ [c]]) = (wire a ++ UInt8.ofNat (y ++ [c]).length :: y) ++ [c] := by simp
  rw [LabelSequence.lastOctet, e, List.getLast?_concat]
  simp

theorem cracked_iff {ls : List Label} {x : List Label} (hls : ls ≠ []) (hr : ∀ u ∈ rest, u.i.labels ≠ []) (e : ls ++ sufU rest = x ++ [[]]) (hx : ∀ y ∈ x, y ≠ []) :
    Cracked ls rest ↔ ∃ y ∈ (ls :: rest.map fun u => u.i.labels).dropLast, LabelSequence.lastOctet y = some 0 := by
  induction rest generalizing ls x with
  | nil => simp [Cracked]
  | cons u rest ih =>
    have hu := hr u (by simp)
    obtain ⟨b, y, rfl⟩ : ∃ a y, ls = a ++ [y] := ⟨ls.dropLast, ls.getLast hls, (List.dropLast_concat_getLast hls).symm⟩
    have hsne : sufU (u :: rest) ≠ [] := by simp [sufU, hu]
    obtain ⟨sx, sy, es⟩ : ∃ a y, sufU (u :: rest) = a ++ [y] := ⟨(sufU (u :: rest)).dropLast, (sufU (u :: rest)).getLast hsne, (List.dropLast_concat_getLast hsne).symm⟩
    rw [es, ← List.append_assoc] at e
    obtain ⟨e3, e4⟩ := List.append_inj' e rfl
    simp only [List.cons.injEq, and_true] at e4
    subst e4
    have h1 := ih (ls := u.i.labels) (x := sx) hu (fun v hv => hr v (by simp [hv])) es (fun z hz => hx z (by rw [← e3]; simp [hz]))
    simp only [Cracked]
    rw [h1, List.map_cons, List.dropLast_cons_cons, ← lastOctet_iff hls (by rw [lastL_concat]; exact hx y (by rw [← e3]; simp))]
    simp

/-- the absolute name of a node from the nodes above it, exactly -/
theorem get_absolute_name_exact {A : Kind} (h : W s g rest lc (.node i l d r)) (hok : OK (plugU (plug (.node i l d r) lc) rest)) (hn : NamesOK A (plugU (plug (.node i l d r) lc) rest))
    {c : Chain} (hc : c.nodes = addrs (path rest)) :
    (Cracked i.labels rest → s.get_absolute_name c (.ofLabels i.labels) = .panic) ∧
    (¬ Cracked i.labels rest → s.get_absolute_name c (.ofLabels i.labels) = .ok (Name.ofLabels (i.labels ++ sufU rest).dropLast)) := by
  unfold get_absolute_name
  rw [hc, addrs_path, chainNames_spec h, Res.bind_ok]
  have hi := (OK_node (OK_plugU hok).1).1
  have hr := rest_ne hok
  obtain ⟨ls, hv, -, e⟩ := hn _ (entry_mem (i := i) (l := l) (d := d) (r := r) (lc := lc) (rest := rest))
  simp only [Info.entry] at e
  have hlist : (rest.map fun u => LabelSequence.ofLabels u.i.labels) = (rest.map fun u => u.i.labels).map LabelSequence.ofLabels := by simp
  have hgood : ∀ x ∈ ls, x ≠ [] := fun x hx e2 => by have := (hv.1 x hx).1; subst e2; simp at this
  rw [cracked_iff hi hr e hgood, hlist, LabelSequence.concat_all_ofLabels _ hi (by simpa using hr)]
  · rw [sufU_flat, e]
    by_cases hre : rest = []
    · subst hre
      simp only [sufU, List.append_nil] at e
      rw [e, if_pos (LabelSequence.lastOctet_root ls), if_pos (by simp), List.dropLast_concat]
      exact ⟨fun h => by simp at h, fun _ => rfl⟩
    · have hsne : sufU rest ≠ [] := by
        cases rest with
        | nil => exact absurd rfl hre
        | cons u rest => simp [sufU, hr u (by simp)]
      obtain ⟨sx, sy, es⟩ : ∃ a y, sufU rest = a ++ [y] := ⟨(sufU rest).dropLast, (sufU rest).getLast hsne, (List.dropLast_concat_getLast hsne).symm⟩
      have e2 := e
      rw [es, ← List.append_assoc] at e2
      obtain ⟨e3, e4⟩ := List.append_inj' e2 rfl
      simp only [List.cons.injEq, and_true] at e4
      subst e4
      have hfl := flat_last (seqs := rest.map fun u => u.i.labels) (x := sx) (by simpa using hre) (by simpa using hr) (by rw [sufU_flat, es])
      have hmap : (rest.map fun u => u.i.labels) ≠ [] := by simpa using hre
      rw [List.dropLast_cons_of_ne_nil hmap]
      by_cases h0 : LabelSequence.lastOctet i.labels = some 0
      · rw [if_pos h0, if_neg hmap]
        exact ⟨fun _ => rfl, fun hno => absurd ⟨_, List.mem_cons_self .., h0⟩ hno⟩
      · rw [if_neg h0]
        by_cases h1 : ∀ x ∈ (rest.map fun u => u.i.labels).dropLast, LabelSequence.lastOctet x ≠ some 0
        · refine ⟨fun ⟨y, hy, hy0⟩ => ?_, fun _ => ?_⟩
          · rcases List.mem_cons.1 hy with rfl | hy
            · exact absurd hy0 h0
            · exact absurd hy0 (h1 y hy)
          · rw [if_pos, List.dropLast_concat]
            · rfl
            · refine ⟨h1, fun y hy => ?_, ?_, ?_⟩
              · obtain ⟨z, ez⟩ := hfl.2
                rw [ez] at hy; cases hy
                exact LabelSequence.lastOctet_root z
              · have := hv.2; rw [nameWire_eq] at this; exact this
              · have := hv.count; simp; omega
        · rw [if_neg (fun h => h1 h.1)]
          refine ⟨fun _ => rfl, fun hno => absurd (fun x hx hx0 => hno ⟨x, List.mem_cons_of_mem _ hx, hx0⟩) h1⟩
  · rw [sufU_flat, e]
    intro x hx
    rcases List.mem_append.1 hx with hx | hx
    · exact hv.len63 x hx
    · simp at hx; subst hx; simp

/-- in terms of the nodes of the tree -/
theorem cracked_sealed {ls : List Label} (hls : ls ≠ []) (hr : ∀ u ∈ rest, u.i.labels ≠ []) :
    Cracked ls rest ↔ ∃ x ∈ path rest, ∃ a, a :: x.name <:+ ls ++ sufU rest ∧ a.getLast? = some 0 := by
  induction rest generalizing ls with
  | nil => simp [Cracked, path]
  | cons u rest ih =>
    have hu := hr u (by simp)
    obtain ⟨b, y, rfl⟩ : ∃ a y, ls = a ++ [y] := ⟨ls.dropLast, ls.getLast hls, (List.dropLast_concat_getLast hls).symm⟩
    simp only [Cracked, lastL_concat, path]
    rw [ih hu fun v hv => hr v (by simp [hv])]
    constructor
    · rintro (h | ⟨x, hx, a, h1, h2⟩)
      · exact ⟨u.i.entry (sufU rest), by simp, y, ⟨b, by simp [Info.entry, sufU]⟩, h⟩
      · exact ⟨x, by simp [hx], a, h1.trans (by simpa [sufU] using List.suffix_append (b ++ [y]) _), h2⟩
    · rintro ⟨x, hx, a, ⟨z, hz⟩, h2⟩
      rcases List.mem_append.1 hx with hx | hx
      · refine .inr ⟨x, hx, a, ?_, h2⟩
        have h3 := (path_sub hx).length_le
        have h4 : 0 < u.i.labels.length := List.length_pos_iff.2 hu
        exact List.suffix_of_suffix_length_le ⟨z, hz⟩ (by simpa [sufU] using List.suffix_append (b ++ [y]) _) (by simp; omega)
      · simp only [List.mem_singleton] at hx
        subst hx
        simp only [Info.entry, sufU] at hz
        have h3 := List.append_inj' (s₁ := z ++ [a]) (s₂ := b ++ [y]) (by simpa using hz) rfl
        have h4 := List.append_inj' h3.1 rfl
        simp only [List.cons.injEq, and_true] at h4
        rw [← h4.2]; exact .inl h2

theorem sealed_iff {t0 : Tr T} {u : UF T} (hr : ∀ v ∈ u :: rest, v.i.labels ≠ []) (hin : ∀ x ∈ path rest, x ∈ t0.nodes [])
    (hab : ∀ x ∈ t0.nodes [], x.name <:+ u.i.labels ++ sufU rest → x.name.length < (u.i.labels ++ sufU rest).length → x ∈ path rest) :
    Sealed t0 (u.i.entry (sufU rest)) ↔ Cracked u.i.labels rest := by
  rw [cracked_sealed (hr u (by simp)) fun v hv => hr v (by simp [hv])]
  constructor
  · rintro ⟨x, hx, a, h1, h2⟩
    refine ⟨x, hab x hx ((List.suffix_cons a x.name).trans h1) ?_, a, h1, h2⟩
    have := h1.length_le
    simp only [Info.entry, List.length_cons] at this; omega
  · rintro ⟨x, hx, a, h1, h2⟩
    exact ⟨x, hin x hx, a, h1, h2⟩

theorem path_length (rest : List (UF T)) : (path rest).length = rest.length := by
  induction rest with
  | nil => rfl
  | cons u rest ih => simp [path, ih]

theorem rest_le (h : ∀ u ∈ rest, u.i.labels ≠ []) : rest.length ≤ (sufU rest).length := by
  induction rest with
  | nil => simp
  | cons u rest ih =>
    have h1 := ih fun v hv => h v (by simp [hv])
    have h2 : 0 < u.i.labels.length := List.length_pos_iff.2 (h u (by simp))
    simp only [sufU, List.length_append, List.length_cons]; omega

theorem At.depth (h : At tgt as rest lc t) : rest.length < tgt.length := by
  have h1 := rest_le (rest_ne h.ok)
  have h2 := lowerName_ne h.name
  have h3 : 0 < as.length := List.length_pos_iff.2 h.ne
  simp only [List.length_append] at h2; omega

/-- at a node with the name: only it and the nodes above enclose the name -/
theorem At.exact (h : At tgt as rest lc (.node i l d r)) (e : lowerName as = lowerName i.labels) :
    ∀ x ∈ bag [] (plugU (plug (.node i l d r) lc) rest), IsSubdomain tgt x.name → x = i.entry (sufU rest) ∨ x ∈ path rest := by
  intro x hx hs
  have hl : tgt.length = i.labels.length + (sufU rest).length := by
    have h1 := lowerName_ne h.name
    have h2 := lowerName_ne e
    simp only [List.length_append] at h1; omega
  rw [bag_whole, bag_node] at hx
  simp only [Multiset.mem_add, Multiset.mem_singleton] at hx
  have hb := h.beside (lastL_lower e)
  rw [bagE_append, ← bag_ents, ← bag_ents] at hb
  rcases hx with ((((rfl | hx) | hx) | hx) | hx) | hx
  · exact .inl rfl
  · have hg := (OK_node h.level).2.2
    rw [bag_ents] at hx
    obtain ⟨e1, he1, y, ey⟩ := mem_bagE hx
    have h3 : 0 < e1.1.labels.length := List.length_pos_iff.2 ((Tr.SGood_iff d).1 hg e1 he1).1
    have h4 := sub_length hs
    rw [ey] at h4; simp only [List.length_append] at h4; omega
  · exact absurd hs (hb x (Multiset.mem_add.2 (.inl hx)))
  · exact absurd hs (hb x (Multiset.mem_add.2 (.inr hx)))
  · exact absurd hs (h.around x hx)
  · exact .inr (h.above x hx hs)

/-- where a search ends -/
inductive FindPost (s : Dom T) (g : Nat × Nat) (tgt : List Label) (t0 : Tr T) (cb : Option (Ptr → Name → P → Bool × P)) (rest : List (UF T)) (p0 : P) :
    FindResult → Chain → P → Prop where
  | exact {c : Chain} {p : P} (rest' : List (UF T)) (lc : List (LF T)) (i : Info T) (l d r : Tr T) (L : List (Entry T)) (w : W s g rest' lc (.node i l d r))
      (whole : plugU (plug (.node i l d r) lc) rest' = t0) (pe : path rest' = path rest ++ L) (cbs : callbacks cb L p0 = (none, p))
      (safe : cb ≠ none → ∀ x ∈ L, x.cb = true → ¬ Sealed t0 x)
      (ch : c.nodes = addrs (path rest') ++ [i.addr]) (nm : lowerName tgt = lowerName (i.labels ++ sufU rest'))
      (all : ∀ x ∈ bag [] t0, IsSubdomain tgt x.name → x = i.entry (sufU rest') ∨ x ∈ path rest') : FindPost s g tgt t0 cb rest p0 ⟨i.addr, .ExactMatch⟩ c p
  | miss {c : Chain} {p : P} (rest' : List (UF T)) (lc : List (LF T)) (t : Tr T) (as : List Label) (L : List (Entry T)) (w : W s g rest' lc t) (at_ : At tgt as rest' lc t)
      (whole : plugU (plug t lc) rest' = t0) (pe : path rest' = path rest ++ L) (cbs : callbacks cb L p0 = (none, p))
      (safe : cb ≠ none → ∀ x ∈ L, x.cb = true → ¬ Sealed t0 x)
      (ch : c.nodes = addrs (path rest'))
      (all : ∀ x ∈ bag [] t0, IsSubdomain tgt x.name → x ∈ path rest') : FindPost s g tgt t0 cb rest p0 (resOf rest') c p
  | stop {c : Chain} {p : P} (rest' : List (UF T)) (u : UF T) (d : Tr T) (as : List Label) (L : List (Entry T)) (w : W s g (u :: rest') [] d)
      (at_ : At tgt as (u :: rest') [] d) (whole : plugU d (u :: rest') = t0) (pe : path rest' = path rest ++ L)
      (cbs : callbacks cb (L ++ [u.i.entry (sufU rest')]) p0 = (some (u.i.entry (sufU rest')), p))
      (safe : cb ≠ none → ∀ x ∈ L ++ [u.i.entry (sufU rest')], x.cb = true → ¬ Sealed t0 x)
      (ch : c.nodes = addrs (path rest')) : FindPost s g tgt t0 cb rest p0 ⟨u.i.addr, .PartialMatch⟩ c p

theorem path_mem {rest : List (UF T)} {e : Entry T} (h : e ∈ path rest) : e ∈ bagU rest := by
  induction rest with
  | nil => simp [path] at h
  | cons u rest ih =>
    simp only [path, List.mem_append, List.mem_singleton] at h
    simp only [bagU, Multiset.mem_add, Multiset.mem_singleton]
    rcases h with h | rfl
    · exact .inr (ih h)
    · exact .inl (.inl rfl)

theorem path_sorted (h : ∀ u ∈ rest, u.i.labels ≠ []) : (path rest).Pairwise fun a b => a.name.length < b.name.length := by
  induction rest with
  | nil => simp [path]
  | cons u rest ih =>
    rw [path, List.pairwise_append]
    refine ⟨ih fun v hv => h v (by simp [hv]), by simp, fun a ha b hb => ?_⟩
    simp only [List.mem_singleton] at hb; subst hb
    have h1 := (path_sub ha).length_le
    have h2 : 0 < u.i.labels.length := List.length_pos_iff.2 (h u (by simp))
    simp only [Info.entry, List.length_append]; omega

theorem mem_nodes {t : Tr T} {e : Entry T} : e ∈ t.nodes [] ↔ e ∈ bag [] t := Iff.rfl

theorem bagU_whole (h : plugU (plug t lc) rest = (t0 : Tr T)) {e : Entry T} (he : e ∈ bagU rest) : e ∈ t0.nodes [] := by
  rw [mem_nodes, ← h, bag_whole]; exact Multiset.mem_add.2 (.inr he)

/-- the search that panics: a node on the way wants the callback, and its name cannot be put together -/
structure FindCrash (s : Dom T) (g : Nat × Nat) (tgt : List Label) (t0 : Tr T) (cb : Option (Ptr → Name → P → Bool × P)) (rest : List (UF T)) (p0 : P)
    (rest' : List (UF T)) (u : UF T) (d : Tr T) (as : List Label) (L : List (Entry T)) : Prop where
  at_ : At tgt as (u :: rest') [] d
  whole : plugU d (u :: rest') = t0
  pe : path rest' = path rest ++ L
  cbs : (callbacks cb L p0).1 = none
  given : cb ≠ none
  on : u.i.cb = true
  bad : Sealed t0 (u.i.entry (sufU rest'))

/-- one callback -/
theorem callback_spec {A : Kind} {cb : Option (Ptr → Name → P → Bool × P)} (h : W s g rest lc (.node i l d r)) (hok : OK (plugU (plug (.node i l d r) lc) rest))
    (hn : NamesOK A (plugU (plug (.node i l d r) lc) rest)) {c : Chain} (hc : c.nodes = addrs (path rest)) (p : P) :
    (∃ stop q, s.callback cb c i.addr (Info.node i lc.isEmpty l.ptr r.ptr (lptr (slotUp rest) lc) d.ptr) p = .ok (stop, q) ∧
      callbacks cb [i.entry (sufU rest)] p = (if stop then some (i.entry (sufU rest)) else none, q) ∧ (cb ≠ none → i.cb = true → ¬ Cracked i.labels rest)) ∨
    (s.callback cb c i.addr (Info.node i lc.isEmpty l.ptr r.ptr (lptr (slotUp rest) lc) d.ptr) p = .panic ∧ cb ≠ none ∧ i.cb = true ∧ Cracked i.labels rest) := by
  unfold callback
  have hf : (Info.node i lc.isEmpty l.ptr r.ptr (lptr (slotUp rest) lc) d.ptr).flag.is_callback_enabled = i.cb := by
    simp [Info.node, mkFlag_is_callback_enabled]
  rw [hf]
  cases cb with
  | none => exact .inl ⟨false, p, by cases i.cb <;> rfl, by rw [callbacks_none]; rfl, fun h => absurd rfl h⟩
  | some f =>
    cases hb : i.cb with
    | false =>
      refine .inl ⟨false, p, rfl, ?_, by simp⟩
      rw [callbacks, if_neg (by simp [Info.entry, hb])]; rfl
    | true =>
      obtain ⟨hx1, hx2⟩ := get_absolute_name_exact h hok hn hc
      by_cases hcr : Cracked i.labels rest
      · have hname : s.get_absolute_name c (Info.node i lc.isEmpty l.ptr r.ptr (lptr (slotUp rest) lc) d.ptr).name = _ := hx1 hcr
        refine .inr ⟨?_, by simp, rfl, hcr⟩
        simp only [if_true, hname, Res.bind_panic]
      · have hname : s.get_absolute_name c (Info.node i lc.isEmpty l.ptr r.ptr (lptr (slotUp rest) lc) d.ptr).name = _ := hx2 hcr
        simp only [if_true, hname, Res.bind_ok]
        refine .inl ⟨_, _, rfl, ?_, fun _ _ => hcr⟩
        rw [callbacks, if_pos (by simp [Info.entry, hb])]
        simp only [Info.entry, callbacks]
        by_cases hs : (f i.addr (Name.ofLabels (i.labels ++ sufU rest).dropLast) p).1 = true
        · simp [hs]
        · simp [hs]

/-- below a node on the way to the name -/
theorem At.sealed {u : UF T} (h : At tgt as (u :: rest) [] d) : Sealed (plugU d (u :: rest)) (u.i.entry (sufU rest)) ↔ Cracked u.i.labels rest := by
  refine sealed_iff (rest_ne h.ok) (fun x hx => bagU_whole (t := d) (lc := []) (rest := u :: rest) rfl (path_mem (by simp [path, hx]))) fun x hx h1 h2 => ?_
  have h3 : IsSubdomain tgt x.name := by
    rw [sub_congr h.name rfl]
    exact sub_trans (sub_append _ _) (sub_of_suffix h1)
  have h5 : x ∈ bag [] (plugU d (u :: rest)) := hx
  rw [bag_plugU, Multiset.mem_add] at h5
  rcases h5 with h5 | h5
  · rw [bag_ents] at h5
    obtain ⟨e1, -, y, ey⟩ := mem_bagE h5
    rw [ey] at h2; simp only [sufU, List.length_append] at h2; omega
  · have := h.above x h5 h3
    simp only [path, List.mem_append, List.mem_singleton] at this
    rcases this with h6 | h6
    · exact h6
    · rw [h6] at h2; simp [Info.entry] at h2

theorem findLoop_spec {A : Kind} {cb : Option (Ptr → Name → P → Bool × P)} (hA : Kind.OK A m) (htgt : tgt.length ≤ 128) (fuel : Nat) :
    ∀ {rest : List (UF T)} {lc : List (LF T)} {t : Tr T} {as post : List Label} {slice : LabelSlice} {c : Chain} {p : P},
    W s g rest lc t → At tgt as rest lc t → NamesOK A (plugU (plug t lc) rest) → LabsOK A as →
    LabelSlice.View slice [] as post → c.nodes = addrs (path rest) → t.size + 1 ≤ fuel →
    (∃ res c' p', findLoop m s cb fuel t.ptr slice (resOf rest) c p = .ok (res, c', p') ∧ FindPost s g tgt (plugU (plug t lc) rest) cb rest p res c' p') ∨
    (findLoop m s cb fuel t.ptr slice (resOf rest) c p = .panic ∧ ((∃ rest' u d as L, FindCrash s g tgt (plugU (plug t lc) rest) cb rest p rest' u d as L) ∨ A = none ∧ m = .debug)) := by
  induction fuel with
  | zero => intro _ _ _ _ _ _ _ _ _ _ _ _ _ _ hf; omega
  | succ fuel ih =>
    intro rest lc t as post slice c p h ha hn has hv hc hf
    cases t with
    | nil =>
      refine .inl ⟨_, _, _, by unfold findLoop; rw [if_pos (show (Tr.nil : Tr T).ptr = 0 from rfl)], ?_⟩
      exact .miss rest lc .nil as [] h ha rfl (by simp) rfl (by simp) hc ha.free
    | node i l d r =>
      have hi := (OK_node ha.level).1
      simp only [Tr.size] at hf
      obtain ⟨cur, n, e1, e2, e3, hcool, hor⟩ := round (m := m) hA h hi (node_labs hn) has hv
      have e5 : s.look i.addr = .ok n := by unfold look; rw [e1]
      rcases hor with hco | ⟨x1, x2, x3⟩
      case inr =>
        refine .inr ⟨?_, .inr ⟨x1, x2⟩⟩
        show findLoop m s cb (fuel + 1) i.addr slice (resOf rest) c p = _
        unfold findLoop
        rw [if_neg (Z.nz h), e5, Res.bind_ok, e3, Res.bind_ok, x3, Res.bind_panic]
      obtain ⟨cm, e4, hs⟩ := hcool hco
      have hstep : findLoop m s cb (fuel + 1) i.addr slice (resOf rest) c p =
          (match cm.relation with
          | .Equal => do
            let c' ← ({ c with last_compared := i.addr, last_compared_result := cm } : Chain).push i.addr
            pure (⟨i.addr, .ExactMatch⟩, c', p)
          | .None => findLoop m s cb fuel (if cm.order < 0 then n.left else n.right) slice (resOf rest) { c with last_compared := i.addr, last_compared_result := cm } p
          | .SubDomain => do
            let (stop, p') ← s.callback cb { c with last_compared := i.addr, last_compared_result := cm } i.addr n p
            if stop then pure (⟨i.addr, .PartialMatch⟩, { c with last_compared := i.addr, last_compared_result := cm }, p')
            else do
              let c' ← ({ c with last_compared := i.addr, last_compared_result := cm } : Chain).push i.addr
              let slice ← slice.strip_right cm.common_label_count
              findLoop m s cb fuel n.down slice ⟨i.addr, .PartialMatch⟩ c' p'
          | _ => pure (resOf rest, { c with last_compared := i.addr, last_compared_result := cm }, p)) := by
        conv_lhs => unfold findLoop
        rw [if_neg (Z.nz h), e5, Res.bind_ok, e3, Res.bind_ok, e4, Res.bind_ok]
        cases cm.relation <;> rfl
      show (∃ res c' p', findLoop m s cb (fuel + 1) i.addr slice (resOf rest) c p = _ ∧ _) ∨ (findLoop m s cb (fuel + 1) i.addr slice (resOf rest) c p = _ ∧ _)
      rw [hstep]
      clear hstep
      have hdep := ha.depth
      have hpush : ({ c with last_compared := i.addr, last_compared_result := cm } : Chain).push i.addr =
          .ok { c with last_compared := i.addr, last_compared_result := cm, nodes := c.nodes ++ [i.addr] } := by
        unfold Chain.push
        have : c.nodes.length < 128 := by rw [hc]; simp only [addrs, List.length_map, path_length]; omega
        rw [assertR, if_pos (by simpa using this)]; rfl
      generalize hcc : ({ c with last_compared := i.addr, last_compared_result := cm } : Chain) = c1 at *
      have hc1 : c1.nodes = addrs (path rest) := by rw [← hcc]; exact hc
      subst e2
      cases hs with
      | equal hr e =>
        rw [hr]
        simp only [hpush, Res.bind_ok]
        refine .inl ⟨_, _, _, rfl, ?_⟩
        refine .exact rest lc i l d r [] h rfl (by simp) rfl (by simp) (by simp [hc]) ?_ (ha.exact e)
        rw [ha.name, Name.lowerName_append, Name.lowerName_append, e]
      | none hr hcm =>
        rw [hr]
        rcases hcm with ⟨ho, hcm⟩ | ⟨ho, hcm⟩
        · simp only [ho, if_true]
          exact ih (rest := rest) (lc := .L i d r :: lc) (t := l) (Z.left_down.1 h) (ha.left hcm) hn has hv hc1 (by omega)
        · simp only [ho, if_false]
          exact ih (rest := rest) (lc := .R i l d :: lc) (t := r) (Z.right_down.1 h) (ha.right hcm) hn has hv hc1 (by omega)
      | sub a1 a2 hr hcm e h1 h2 =>
        rw [hr]
        subst e
        have w2 : W s g (⟨i, l, r, lc⟩ :: rest) [] d := W.down_iff.1 h
        have at2 := ha.down rfl h1 h2
        have hsl := at2.sealed
        rcases callback_spec (cb := cb) h ha.ok hn hc1 p with ⟨stop, q, ecb, hrun, hsafe⟩ | ⟨ecb, hc0, hon, hcr⟩
        case inr =>
          simp only [ecb, Res.bind_panic]
          exact .inr ⟨trivial, .inl ⟨rest, ⟨i, l, r, lc⟩, d, a1, [], at2, rfl, by simp, rfl, hc0, hon, hsl.2 hcr⟩⟩
        simp only [ecb, Res.bind_ok]
        have hsafe1 : cb ≠ none → ∀ x ∈ [i.entry (sufU rest)], x.cb = true → ¬ Sealed (plugU d (⟨i, l, r, lc⟩ :: rest)) x := by
          intro h0 x hx hxc
          simp only [List.mem_singleton] at hx
          subst hx
          exact fun hs => hsafe h0 hxc (hsl.1 hs)
        cases stop with
        | true =>
          refine .inl ⟨_, _, _, rfl, ?_⟩
          exact .stop rest ⟨i, l, r, lc⟩ d a1 [] w2 at2 rfl (by simp) (by simpa using hrun) hsafe1 hc1
        | false =>
          obtain ⟨s', e', v'⟩ := hv.strip_right h1
          have hlen := lowerName_ne h2
          rw [← hlen] at hcm
          simp only [Bool.false_eq_true, if_false, hpush, Res.bind_ok, hcm, e'] at hrun ⊢
          have hc2 : ({ c with last_compared := i.addr, last_compared_result := cm, nodes := c.nodes ++ [i.addr] } : Chain).nodes = addrs (path (⟨i, l, r, lc⟩ :: rest)) := by
            simp [path, addrs, hc, Info.entry]
          have hone : ∀ {L : List (Entry T)}, (cb ≠ none → ∀ x ∈ L, x.cb = true → ¬ Sealed (plugU d (⟨i, l, r, lc⟩ :: rest)) x) →
              cb ≠ none → ∀ x ∈ i.entry (sufU rest) :: L, x.cb = true → ¬ Sealed (plugU d (⟨i, l, r, lc⟩ :: rest)) x := by
            intro L hL h0 x hx
            rcases List.mem_cons.1 hx with rfl | hx
            · exact hsafe1 h0 _ (by simp)
            · exact hL h0 x hx
          rcases ih (rest := ⟨i, l, r, lc⟩ :: rest) (lc := []) (t := d) (p := q) w2 at2 hn has.left v' hc2 (by omega) with ⟨res, c', p', e6, hp⟩ | ⟨e6, hx⟩
          case inr =>
            rcases hx with ⟨rest', u', d', as', L', hcrash⟩ | hx
            case inr => exact .inr ⟨e6, .inr hx⟩
            refine .inr ⟨e6, .inl ⟨rest', u', d', as', i.entry (sufU rest) :: L', hcrash.at_, hcrash.whole, by rw [hcrash.pe]; simp [path], ?_, hcrash.given, hcrash.on, hcrash.bad⟩⟩
            rw [show i.entry (sufU rest) :: L' = [i.entry (sufU rest)] ++ L' from rfl, callbacks_append hrun]
            exact hcrash.cbs
          refine .inl ⟨res, c', p', e6, ?_⟩
          cases hp with
          | exact rest' lc' i' l' d' r' L w' whole pe cbs safe ch nm all =>
            exact .exact rest' lc' i' l' d' r' (i.entry (sufU rest) :: L) w' whole (by rw [pe]; simp [path]) (by
              rw [show i.entry (sufU rest) :: L = [i.entry (sufU rest)] ++ L from rfl, callbacks_append hrun]; exact cbs) (hone safe) ch nm all
          | miss rest' lc' t' as' L w' at' whole pe cbs safe ch all =>
            exact .miss rest' lc' t' as' (i.entry (sufU rest) :: L) w' at' whole (by rw [pe]; simp [path]) (by
              rw [show i.entry (sufU rest) :: L = [i.entry (sufU rest)] ++ L from rfl, callbacks_append hrun]; exact cbs) (hone safe) ch all
          | stop rest' u d' as' L w' at' whole pe cbs safe ch =>
            exact .stop rest' u d' as' (i.entry (sufU rest) :: L) w' at' whole (by rw [pe]; simp [path]) (by
              rw [List.cons_append, show i.entry (sufU rest) :: (L ++ [u.i.entry (sufU rest')]) = [i.entry (sufU rest)] ++ (L ++ [u.i.entry (sufU rest')]) from rfl,
                callbacks_append hrun]; exact cbs) (by have := hone safe; rw [← List.cons_append] at this; exact this) ch
      | split a1 a2 b1 b2 hr e e' h1 h2 hcm h3 h4 =>
        have hfin : (∃ res c' p', (pure (resOf rest, c1, p) : Res (FindResult × Chain × P)) = .ok (res, c', p') ∧
            FindPost s g tgt (plugU (plug (.node i l d r) lc) rest) cb rest p res c' p') ∨ ((pure (resOf rest, c1, p) : Res (FindResult × Chain × P)) = .panic ∧
            ((∃ rest' u d' as' L, FindCrash s g tgt (plugU (plug (.node i l d r) lc) rest) cb rest p rest' u d' as' L) ∨ A = none ∧ m = .debug)) :=
          .inl ⟨_, _, _, rfl, .miss rest lc _ as [] h ha rfl (by simp) rfl (by simp) hc1 (ha.split e e' h1 h2 h3 h4)⟩
        rcases hr with ⟨hr, -⟩ | ⟨hr, -⟩
        · rw [hr]; exact hfin
        · rw [hr]; exact hfin

end
end Dom
end R53
