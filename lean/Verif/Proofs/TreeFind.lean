import Verif.Proofs.TreeAny
/-!
# Search
-/
namespace R53

/-- names whose search in a tree of labels of the kind `A` does not compare wrongly: names of that kind, and any name in a release build if the labels of the
tree can be compared without overflow -/
def Kind.Fits (A : Kind) (m : Build) (ls : List Label) : Prop := Kind.All A ls ∨ A ≠ none ∧ m = .release

theorem asciiKind_fits {m : Build} {ls : List Label} (h : m = .debug → Name.Ascii ls) : Kind.Fits asciiKind m ls := by
  cases m with
  | debug => exact .inl (asciiKind_iff.2 (h rfl))
  | release => exact .inr ⟨asciiKind_ne, rfl⟩

namespace Dom
variable {T P : Type}

section
variable {m : Build} {s : Dom T} {g : Nat × Nat} {lc : List (LF T)} {t : Tr T} {i : Info T} {l d r : Tr T} {rest : List (UF T)}
variable {tgt full as post : List Label} {slice : LabelSlice}

/-- the nodes on the way to a place are strictly above the name -/
theorem At.over (h : At tgt as rest lc t) {e : Entry T} (he : e ∈ path rest) : IsSubdomain tgt e.name ∧ ¬ SameName tgt e.name := by
  have h1 := path_sub he
  constructor
  · rw [sub_congr h.name rfl]
    exact sub_trans (sub_append _ _) (sub_of_suffix h1)
  · intro h2
    have h3 := lowerName_ne h2
    have h4 := lowerName_ne h.name
    have h5 := h1.length_le
    have h6 : 0 < as.length := List.length_pos_iff.2 h.ne
    simp only [List.length_append] at h4; omega

theorem prefix_of_seg {A L : List (Entry T)} (hA : A.Pairwise fun a b => a.name.length < b.name.length) (hL : L.Pairwise fun a b => a.name.length < b.name.length)
    (hsub : ∀ e ∈ A, e ∈ L) (hdown : ∀ e ∈ L, ∀ x ∈ A, e.name.length ≤ x.name.length → e ∈ A) : A <+: L := by
  induction A generalizing L with
  | nil => exact List.nil_prefix
  | cons a A ih =>
    cases L with
    | nil => exact absurd (hsub a (by simp)) (by simp)
    | cons b L =>
      rw [List.pairwise_cons] at hA hL
      have hab : a = b := by
        rcases List.mem_cons.1 (hsub a (by simp)) with h | h
        · exact h
        · have h1 := hL.1 a h
          rcases List.mem_cons.1 (hdown b (by simp) a (by simp) (by omega)) with h2 | h2
          · exact h2.symm
          · have := hA.1 b h2; omega
      subst hab
      rw [List.prefix_cons_inj]
      refine ih hA.2 hL.2 (fun e he => ?_) (fun e he x hx hl => ?_)
      · rcases List.mem_cons.1 (hsub e (by simp [he])) with h | h
        · have := hA.1 e he; rw [h] at this; omega
        · exact h
      · rcases List.mem_cons.1 (hdown e (by simp [he]) x (by simp [hx]) hl) with h | h
        · have := hL.1 e he; rw [h] at this; omega
        · exact h

theorem exact_enclosers {rest' : List (UF T)} (w : OK (plugU (plug (.node i l d r) lc) rest')) (nm : lowerName tgt = lowerName (i.labels ++ sufU rest'))
    (all : ∀ x ∈ bag [] (plugU (plug (.node i l d r) lc) rest'), IsSubdomain tgt x.name → x = i.entry (sufU rest') ∨ x ∈ path rest') :
    Enclosers (plugU (plug (.node i l d r) lc) rest') tgt (path rest') := by
  refine ⟨fun e => ⟨fun he => ⟨bagU_whole rfl (path_mem he), ?_, ?_⟩, fun ⟨h1, h2, h3⟩ => ?_⟩, path_sorted (rest_ne w)⟩
  · rw [sub_congr nm rfl]; exact sub_trans (sub_append _ _) (sub_of_suffix (path_sub he))
  · intro h2
    have h3 := lowerName_ne h2
    have h4 := lowerName_ne nm
    have h5 := (path_sub he).length_le
    have h6 : 0 < i.labels.length := List.length_pos_iff.2 (OK_node (OK_plugU w).1).1
    simp only [List.length_append] at h4; omega
  · rcases all e h1 h2 with rfl | h
    · exact absurd nm h3
    · exact h

theorem At.enclosers (h : At tgt as rest lc t) (all : ∀ x ∈ bag [] (plugU (plug t lc) rest), IsSubdomain tgt x.name → x ∈ path rest) :
    Enclosers (plugU (plug t lc) rest) tgt (path rest) :=
  ⟨fun e => ⟨fun he => ⟨bagU_whole rfl (path_mem he), h.over he⟩, fun ⟨h1, h2, _⟩ => all e h1 h2⟩, path_sorted (rest_ne h.ok)⟩

theorem find_any {A : Kind} {cb : Option (Ptr → Name → P → Bool × P)} {δ : Nat} (hA : Kind.OK A m) (h : InvA A s t δ) {ls : List Label} (hv : ValidName ls) (ha : Kind.Fits A m ls)
    {c : Chain} (hc : c.nodes = []) (p : P) :
    (∃ res c' p', find_node_ext m s (Name.ofLabels ls) c cb p = .ok (res, c', p') ∧ FindPost s (s.next, s.len) (ls ++ [[]]) t cb [] p res c' p') ∨
    (find_node_ext m s (Name.ofLabels ls) c cb p = .panic ∧ ((∃ rest' u d as L, FindCrash s (s.next, s.len) (ls ++ [[]]) t cb [] p rest' u d as L) ∨ A = none ∧ m = .debug)) := by
  unfold find_node_ext
  rw [LabelSlice.from_name_ofLabels, Res.bind_ok]
  have hroot : s.root = t.ptr := Hold.root (Z.hold h.mem)
  have hat : At (ls ++ [[]]) (ls ++ [[]]) ([] : List (UF T)) [] t :=
    ⟨h.ok, by simp [sufU], by simp, trivial, fun e he => by simp [bagU] at he⟩
  have hsz : t.size < s.next := W.size_lt h.mem
  rw [hroot]
  rcases ha with ha | ⟨ha, rfl⟩
  case inr =>
    obtain ⟨G, rfl⟩ := Option.ne_none_iff_exists'.1 ha
    have := hv.count
    rcases findLoop_wild (G := G) (cb := cb) (p := p) (by simp; omega) (s.next + 1) (rest := []) (lc := []) (t := t) h.mem hat h.names
      (SeqOK.root hv) (by simp; omega) (.inr rfl) (LabelSlice.view_of_name hv) hc (Nat.succ_le_succ (Nat.le_of_lt hsz)) with h1 | ⟨h1, h2⟩
    · exact .inl h1
    · exact .inr ⟨h1, .inl h2⟩
  have habs : AbsName A (ls ++ [[]]) := ⟨ls, hv, ha, rfl⟩
  exact findLoop_spec (m := m) hA (by have := hv.count; simp; omega) (s.next + 1) (rest := []) (lc := []) (t := t) h.mem hat h.names
    (habs.labs (List.Sublist.refl _)) (LabelSlice.view_of_name hv) hc (Nat.succ_le_succ (Nat.le_of_lt hsz))

theorem find_post {cb : Option (Ptr → Name → P → Bool × P)} {δ : Nat} (h : Inv s t δ) {ls : List Label} (hv : ValidName ls) (ha : Name.Ascii ls)
    {c : Chain} (hc : c.nodes = []) (p : P) :
    (∃ res c' p', find_node_ext m s (Name.ofLabels ls) c cb p = .ok (res, c', p') ∧ FindPost s (s.next, s.len) (ls ++ [[]]) t cb [] p res c' p') ∨
    (find_node_ext m s (Name.ofLabels ls) c cb p = .panic ∧ ∃ rest' u d as L, FindCrash s (s.next, s.len) (ls ++ [[]]) t cb [] p rest' u d as L) := by
  rcases find_any (m := m) (cb := cb) (asciiKind_ok _) h hv (.inl (asciiKind_iff.2 ha)) hc p with h1 | ⟨h1, h2 | ⟨h2, -⟩⟩
  · exact .inl h1
  · exact .inr ⟨h1, h2⟩
  · cases h2

theorem find_post_none_kind {A : Kind} {δ : Nat} (hA : A ≠ none) (h : InvA A s t δ) {ls : List Label} (hv : ValidName ls) (ha : Kind.Fits A m ls) {c : Chain} (hc : c.nodes = []) (p : P) :
    ∃ res c' p', find_node_ext m s (Name.ofLabels ls) c none p = .ok (res, c', p') ∧ FindPost s (s.next, s.len) (ls ++ [[]]) t none [] p res c' p' := by
  rcases find_any (m := m) (cb := none) (.inl hA) h hv ha hc p with hp | ⟨-, ⟨_, _, _, _, _, hcr⟩ | ⟨h0, -⟩⟩
  · exact hp
  · exact absurd rfl hcr.given
  · exact absurd h0 hA

theorem find_post_none {δ : Nat} (h : Inv s t δ) {ls : List Label} (hv : ValidName ls) (ha : Name.Ascii ls) {c : Chain} (hc : c.nodes = []) (p : P) :
    ∃ res c' p', find_node_ext m s (Name.ofLabels ls) c none p = .ok (res, c', p') ∧ FindPost s (s.next, s.len) (ls ++ [[]]) t none [] p res c' p' := by
  rcases find_post (m := m) (cb := none) h hv ha hc p with hp | ⟨-, _, _, _, _, _, hcr⟩
  · exact hp
  · exact absurd rfl hcr.given

/-- of the nodes above a name at most one has a given number of labels, so they can be listed from the top down -/
theorem enclosers_exist {A : Kind} {δ : Nat} (h : InvA A s t δ) (tgt : List Label) : ∃ L, Enclosers t tgt L := by
  classical
  let at_ : Nat → Option (Entry T) := fun k => (t.nodes []).find? fun e => decide (e.name.length = k ∧ IsSubdomain tgt e.name ∧ ¬ SameName tgt e.name)
  have hat : ∀ k e, at_ k = some e → e ∈ t.nodes [] ∧ e.name.length = k ∧ IsSubdomain tgt e.name ∧ ¬ SameName tgt e.name := fun k e he =>
    ⟨List.mem_of_find?_eq_some he, by simpa using List.find?_some he⟩
  have hall : ∀ n, (∀ e, e ∈ (List.range n).filterMap at_ ↔ e ∈ t.nodes [] ∧ e.name.length < n ∧ IsSubdomain tgt e.name ∧ ¬ SameName tgt e.name) ∧
      ((List.range n).filterMap at_).Pairwise fun a b => a.name.length < b.name.length := by
    intro n
    induction n with
    | zero => simp
    | succ n ih =>
      rw [List.range_succ, List.filterMap_append]
      refine ⟨fun e => ?_, ?_⟩
      · rw [List.mem_append, ih.1 e]
        simp only [List.filterMap_cons, List.filterMap_nil]
        constructor
        · rintro (⟨h1, h2, h3⟩ | h1)
          · exact ⟨h1, by omega, h3⟩
          · cases hk : at_ n with
            | none => rw [hk] at h1; simp at h1
            | some x =>
              rw [hk] at h1
              simp only [List.mem_singleton] at h1
              subst h1
              obtain ⟨h1, h2, h3⟩ := hat n e hk
              exact ⟨h1, by omega, h3⟩
        · rintro ⟨h1, h2, h3, h4⟩
          by_cases hl : e.name.length < n
          · exact .inl ⟨h1, hl, h3, h4⟩
          · refine .inr ?_
            cases hk : at_ n with
            | none =>
              have h5 := List.find?_eq_none.1 hk e h1
              exact absurd ((by simpa using h5 : e.name.length = n → IsSubdomain tgt e.name → SameName tgt e.name) (by omega) h3) h4
            | some x =>
              obtain ⟨g1, g2, g3, g4⟩ := hat n x hk
              have hsame : SameName e.name x.name := by
                obtain ⟨u, hu⟩ := h3
                obtain ⟨w, hw⟩ := g3
                refine (List.append_inj' (hu.trans hw.symm) ?_).2
                rw [Name.lowerName_length, Name.lowerName_length]; omega
              have : e = x := Multiset.inj_on_of_nodup_map (nodup_names [] h.ok.2 h.ok.1.2.2) e h1 x g1 hsame
              simp [this]
      · rw [List.pairwise_append]
        refine ⟨ih.2, ?_, fun a ha b hb => ?_⟩
        · simp only [List.filterMap_cons, List.filterMap_nil]
          cases at_ n <;> simp
        · have h1 := (ih.1 a).1 ha
          simp only [List.filterMap_cons, List.filterMap_nil] at hb
          cases hk : at_ n with
          | none => rw [hk] at hb; simp at hb
          | some x =>
            rw [hk] at hb
            simp only [List.mem_singleton] at hb
            subst hb
            have := (hat n b hk).2.1; omega
  refine ⟨_, fun e => ⟨fun he => ?_, fun he => ?_⟩, (hall (tgt.length + 1)).2⟩
  · obtain ⟨h1, -, h2⟩ := ((hall (tgt.length + 1)).1 e).1 he
    exact ⟨h1, h2⟩
  · refine ((hall (tgt.length + 1)).1 e).2 ⟨he.1, ?_, he.2⟩
    have := sub_length he.2.1; omega

theorem Enclosers.unique {t : Tr T} {L L' : List (Entry T)} (h : Enclosers t tgt L) (h' : Enclosers t tgt L') : L = L' := by
  have h1 : L <+: L' := prefix_of_seg h.sorted h'.sorted (fun e he => (h'.mem e).2 ((h.mem e).1 he)) fun e he _ _ _ => (h.mem e).2 ((h'.mem e).1 he)
  have h2 : L' <+: L := prefix_of_seg h'.sorted h.sorted (fun e he => (h.mem e).2 ((h'.mem e).1 he)) fun e he _ _ _ => (h'.mem e).2 ((h.mem e).1 he)
  exact h1.eq_of_length_le h2.length_le

theorem callbacks_stop {cb : Option (Ptr → Name → P → Bool × P)} {L1 L2 : List (Entry T)} {p q : P} {e : Entry T} (h : callbacks cb L1 p = (some e, q)) :
    callbacks cb (L1 ++ L2) p = (some e, q) := by
  induction L1 generalizing p with
  | nil => simp [callbacks] at h
  | cons x L1 ih =>
    rw [List.cons_append]
    cases cb with
    | none => rw [callbacks_none] at h; cases h
    | some f =>
      rw [callbacks] at h ⊢
      by_cases hc : x.cb = true
      · rw [if_pos hc] at h ⊢
        by_cases hs : (f x.addr (Name.ofLabels x.name.dropLast) p).1 = true
        · rw [if_pos hs] at h ⊢; exact h
        · rw [if_neg hs] at h ⊢; exact ih h
      · rw [if_neg hc] at h ⊢; exact ih h

theorem At.path_prefix {u : UF T} (at_ : At tgt as (u :: rest) [] d) {L : List (Entry T)} (hL : Enclosers (plugU d (u :: rest)) tgt L) : path (u :: rest) <+: L := by
  refine prefix_of_seg (path_sorted (rest_ne at_.ok)) hL.sorted (fun e he => ?_) (fun e he x hx hl => ?_)
  · exact (hL.mem e).2 ⟨bagU_whole (t := d) (lc := []) rfl (path_mem he), at_.over he⟩
  · obtain ⟨h1, h2, h3⟩ := (hL.mem e).1 he
    have h4 := (path_sub hx).length_le
    have h5 : e ∈ bag [] (plugU d (u :: rest)) := h1
    rw [bag_plugU, Multiset.mem_add] at h5
    rcases h5 with h5 | h5
    · have hg := (OK_plugU (rest := u :: rest) at_.ok).1.2
      rw [bag_ents] at h5
      obtain ⟨e1, he1, y, ey⟩ := mem_bagE h5
      have h6 : 0 < e1.1.labels.length := List.length_pos_iff.2 ((Tr.SGood_iff _).1 hg e1 he1).1
      rw [ey] at hl; simp only [List.length_append] at hl; omega
    · exact at_.above e h5 h2

theorem find_answer_any {A : Kind} {cb : Option (Ptr → Name → P → Bool × P)} {δ : Nat} (hA : Kind.OK A m) (h : InvA A s t δ) {ls : List Label} (hv : ValidName ls)
    (ha : Kind.Fits A m ls) {c : Chain} (hc : c.nodes = []) (p : P) :
    (∃ res c' p', find_node_ext m s (Name.ofLabels ls) c cb p = .ok (res, c', p') ∧ Answer t (ls ++ [[]]) cb p res c'.nodes p' ∧ ¬ Blocked t (ls ++ [[]]) cb p) ∨
    (find_node_ext m s (Name.ofLabels ls) c cb p = .panic ∧ (Blocked t (ls ++ [[]]) cb p ∨ A = none ∧ m = .debug)) := by
  have free : ∀ {L : List (Entry T)}, Enclosers t (ls ++ [[]]) L → (cb ≠ none → ∀ x ∈ L, x.cb = true → ¬ Sealed t x) → ¬ Blocked t (ls ++ [[]]) cb p := by
    rintro L hL hs ⟨h0, L1, e, L2, hall, -, h1, h2⟩
    exact hs h0 e (by rw [hL.unique hall]; simp) h1 h2
  rcases find_any (m := m) (cb := cb) hA h hv ha hc p with ⟨res, c', p', e, hp⟩ | ⟨e, hx⟩
  case inr =>
    rcases hx with ⟨rest', u, d, as, L, hcr⟩ | hx
    case inr => exact .inr ⟨e, .inr hx⟩
    refine .inr ⟨e, .inl ⟨hcr.given, ?_⟩⟩
    have hL : L = path rest' := by rw [hcr.pe]; rfl
    subst hL
    obtain ⟨L, hL⟩ := enclosers_exist h (ls ++ [[]])
    have hat := hcr.at_
    have hwhole := hcr.whole
    subst hwhole
    obtain ⟨L2, rfl⟩ := hat.path_prefix hL
    exact ⟨path rest', u.i.entry (sufU rest'), L2, by simpa [path] using hL, hcr.cbs, hcr.on, hcr.bad⟩
  refine .inl ⟨res, c', p', e, ?_⟩
  cases hp with
  | exact rest' lc i l d r L w whole pe cbs safe ch nm all =>
    subst whole
    have hL : L = path rest' := by rw [pe]; rfl
    rw [ch]
    exact ⟨.exact (path rest') (i.entry (sufU rest')) (exact_enclosers h.ok nm all) entry_mem nm (by rw [← hL]; exact cbs), free (exact_enclosers h.ok nm all) (hL ▸ safe)⟩
  | miss rest' lc t' as L w at_ whole pe cbs safe ch all =>
    subst whole
    have hL : L = path rest' := by rw [pe]; rfl
    subst hL
    have hno : ∀ x ∈ (plugU (plug t' lc) rest').nodes [], ¬ SameName (ls ++ [[]]) x.name := fun x hx hs =>
      (at_.over (all x hx (Name.same_sub hs))).2 hs
    rw [ch]
    refine ⟨?_, free (at_.enclosers all) safe⟩
    cases rest' with
    | nil =>
      have : p' = p := by simp only [path, callbacks, Prod.mk.injEq, true_and] at cbs; exact cbs.symm
      subst this
      exact .notFound fun x hx hs => by simpa [path] using all x hx hs
    | cons u rest' => exact .closest (path rest') (u.i.entry (sufU rest')) (at_.enclosers all) hno cbs
  | stop rest' u d as L w at_ whole pe cbs safe ch =>
    subst whole
    have hL : L = path rest' := by rw [pe]; rfl
    subst hL
    rw [ch]
    obtain ⟨L, hL⟩ := enclosers_exist h (ls ++ [[]])
    obtain ⟨L2, rfl⟩ := at_.path_prefix hL
    refine ⟨.stopped (path rest') (u.i.entry (sufU rest')) L2 (by simpa [path] using hL) cbs, ?_⟩
    rintro ⟨h0, L1, e1, L3, hall, h1, h2, h3⟩
    have heq : path (u :: rest') ++ L2 = L1 ++ e1 :: L3 := hL.unique hall
    by_cases hlen : L1.length < (path (u :: rest')).length
    · refine safe h0 e1 ?_ h2 h3
      have hpre : L1 ++ [e1] <+: path (u :: rest') :=
        List.prefix_of_prefix_length_le (l₃ := path (u :: rest') ++ L2) (by rw [heq]; exact ⟨L3, by simp⟩) (List.prefix_append ..) (by rw [List.length_append]; exact hlen)
      exact hpre.subset (by simp)
    · have hpre : path (u :: rest') <+: L1 :=
        List.prefix_of_prefix_length_le (l₃ := path (u :: rest') ++ L2) (List.prefix_append ..) (by rw [heq]; exact ⟨e1 :: L3, rfl⟩) (by omega)
      obtain ⟨L4, rfl⟩ := hpre
      rw [path, callbacks_stop cbs] at h1
      cases h1

theorem find_answer {cb : Option (Ptr → Name → P → Bool × P)} {δ : Nat} (h : Inv s t δ) {ls : List Label} (hv : ValidName ls) (ha : Name.Ascii ls)
    {c : Chain} (hc : c.nodes = []) (p : P) :
    (∃ res c' p', find_node_ext m s (Name.ofLabels ls) c cb p = .ok (res, c', p') ∧ Answer t (ls ++ [[]]) cb p res c'.nodes p' ∧ ¬ Blocked t (ls ++ [[]]) cb p) ∨
    (find_node_ext m s (Name.ofLabels ls) c cb p = .panic ∧ Blocked t (ls ++ [[]]) cb p) := by
  rcases find_answer_any (m := m) (cb := cb) (asciiKind_ok _) h hv (.inl (asciiKind_iff.2 ha)) hc p with h1 | ⟨h1, h2 | ⟨h2, -⟩⟩
  · exact .inl h1
  · exact .inr ⟨h1, h2⟩
  · cases h2

/-- without callback -/
theorem find_answer_none {δ : Nat} (h : Inv s t δ) {ls : List Label} (hv : ValidName ls) (ha : Name.Ascii ls) {c : Chain} (hc : c.nodes = []) (p : P) :
    ∃ res c' p', find_node_ext m s (Name.ofLabels ls) c none p = .ok (res, c', p') ∧ Answer t (ls ++ [[]]) none p res c'.nodes p' := by
  rcases find_answer (m := m) (cb := none) h hv ha hc p with ⟨res, c', p', h1, h2, -⟩ | ⟨-, h2⟩
  · exact ⟨res, c', p', h1, h2⟩
  · exact absurd rfl h2.1

/-- of two nodes, one above the other, the names agree octet by octet -/
theorem above_suffix_kind {A : Kind} {δ : Nat} (hA : A ≠ none) (h : InvA A s t δ) {e x : Entry T} (he : e ∈ t.nodes []) (hx : x ∈ t.nodes []) (hs : IsSubdomain e.name x.name) : x.name <:+ e.name := by
  obtain ⟨ks, hv, ha, ek⟩ := h.names e he
  obtain ⟨r, c, p, -, hp⟩ := find_post_none_kind (P := Unit) (m := .release) hA h hv (.inl ha) (c := .new) rfl ()
  rw [← ek] at hp
  cases hp with
  | exact rest' lc i l d r L w whole pe cbs safe ch nm all =>
    have hno : ∀ y ∈ path rest', ¬ SameName e.name y.name := fun y hy hsame => by
      subst whole
      exact (((exact_enclosers h.ok nm all).mem y).1 hy).2.2 hsame
    have he' : e = i.entry (sufU rest') := (all e he (Name.same_sub rfl)).resolve_right fun hp => hno e hp rfl
    rcases all x hx hs with h1 | h1
    · rw [h1, he']; exact List.suffix_refl _
    · rw [he']
      exact (path_sub h1).trans (List.suffix_append _ _)
  | miss rest' lc t' as L w at_ whole pe cbs safe ch all => exact absurd rfl (at_.over (all e he (Name.same_sub rfl))).2
  | stop rest' u d as L w at_ whole pe cbs safe ch => rw [callbacks_none] at cbs; cases cbs

theorem not_sealed (hz : NoNul t) {e : Entry T} (he : e ∈ t.nodes []) : ¬ Sealed t e := by
  rintro ⟨x, -, a, ⟨z, hz'⟩, ha⟩
  exact hz e he a (by rw [← hz']; simp) ha

theorem not_blocked {cb : Option (Ptr → Name → P → Bool × P)} (hz : NoNul t) (p : P) : ¬ Blocked t tgt cb p := by
  rintro ⟨-, L1, e, L2, hall, -, -, hs⟩
  exact not_sealed hz ((hall.mem e).1 (by simp)).1 hs

end
end Dom
end R53
