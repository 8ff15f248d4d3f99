import Verif.Proofs.TextFits2
import Verif.Model.Build
import Verif.Props.Builder
import Verif.Props.Text
import Verif.Props.Decode
/-!
# C77, C78: from text to a message
-/
namespace R53
open StrBuf Gives

/-! ## C78 -/

theorem lines_parsed {N : Prop} {x : Ext} (hx : x.Sized) {m : Build} {ss : List (List UInt8)} (hu : ∀ s ∈ ss, isUtf8 s = true)
    (hN : N → ∀ s ∈ ss, PlainLine s) {r : RRset} (h : RRset.from_strs x m ss = .ok r) : SetParsed N r := by
  obtain ⟨q, qs, h1, ⟨h2, -⟩, rfl⟩ := (c70_lines x m ss r).1 h
  have hall : ∀ p ∈ q :: qs, SetParsed N p := by
    intro p hp
    have : Res.ok p ∈ (q :: qs).map Res.ok := List.mem_map.2 ⟨p, hp, rfl⟩
    rw [← h1] at this
    obtain ⟨s, hs, e⟩ := List.mem_map.1 this
    exact line_parsed hx (hu s hs) (fun h => hN h s hs) e
  obtain ⟨k1, k2, k3, k4, k5⟩ := hall q (by simp)
  refine ⟨k1, k2, k3, by simp [k4], fun rd hrd => ?_⟩
  rcases List.mem_append.1 hrd with hrd | hrd
  · exact k5 rd hrd
  · obtain ⟨p, hp, hrd⟩ := List.mem_flatMap.1 hrd
    have := (hall p (by simp [hp])).2.2.2.2 rd hrd
    rw [h2 p hp] at this
    exact this

/-- every set accepted from text can be sent in any message buffer (of at most 65535 octets, or if no data is longer than that), unless
one of its names has more than 255 octets or one of its strings with a length octet more than 255 octets; these two are missing:
see `c78_name_violated`, `c78_salt_violated` -/
theorem c78_fits_partial (x : Ext) (hx : x.Sized) (m : Build) (ss : List (List UInt8)) (hu : ∀ s ∈ ss, isUtf8 s = true) (r : RRset)
    (h : RRset.from_strs x m ss = .ok r) (hs : r.Short) (L : Nat) (hL : L ≤ 65535 ∨ ∀ rd ∈ r.rdatas, rd.size ≤ 65535) : r.FitsIn L :=
  set_parsed_fits (N := False) (lines_parsed hx hu (fun h => h.elim) h) hs L hL

/-- and no exception is possible if no line has a backslash or is longer than 510 octets -/
theorem c78_plain_fits (x : Ext) (hx : x.Sized) (m : Build) (ss : List (List UInt8)) (hu : ∀ s ∈ ss, PlainLine s) (r : RRset)
    (h : RRset.from_strs x m ss = .ok r) (L : Nat) (hL : L ≤ 65535) : r.FitsIn L := by
  have hp := lines_parsed (N := True) hx (fun s hs => (hu s hs).1) (fun _ => hu) h
  exact set_parsed_fits hp (set_short trivial hp) L (Or.inl hL)

/-! ## C77 -/

theorem addGroups_spec {x : Ext} {mode : Build} {t : SectionType} : ∀ (gs : List (List (List UInt8))) (m m' : Response),
    Builder.addGroups x mode t gs m = .ok m' →
    ∃ sets : List RRset, gs.map (RRset.from_strs x mode) = sets.map Res.ok := by
  intro gs
  induction gs with
  | nil => intro m m' _; exact ⟨[], rfl⟩
  | cons g gs ih =>
    intro m m' h
    unfold Builder.addGroups at h
    obtain ⟨s, hs, h⟩ := Res.bind_eq_ok.1 h
    obtain ⟨m1, h1, h⟩ := Res.bind_eq_ok.1 h
    obtain ⟨sets, hsets⟩ := ih _ _ h
    exact ⟨s :: sets, by simp [hs, hsets]⟩

/-- the groups are added one after the other -/
theorem addGroups_sets {x : Ext} {mode : Build} {t : SectionType} : ∀ (gs : List (List (List UInt8))) (sets : List RRset) (m : Response),
    gs.map (RRset.from_strs x mode) = sets.map Res.ok → (∀ s ∈ sets, s.name.WF) → (∀ s ∈ (m.section_ t).sets, s.name.WF) →
    ∃ m', Builder.addGroups x mode t gs m = .ok m' ∧ m'.header = m.header ∧ m'.question = m.question ∧
      (∀ t', t' ≠ t → m'.section_ t' = m.section_ t') ∧ AddedAll (m.section_ t).sets sets (m'.section_ t).sets ∧
      (gs = [] → m' = m) ∧ (gs ≠ [] → m'.section_ t ≠ none) ∧ (∀ s ∈ (m'.section_ t).sets, s.name.WF) := by
  intro gs
  induction gs with
  | nil =>
    intro sets m h _ hm
    have : sets = [] := by simpa using h.symm
    subst this
    exact ⟨m, rfl, rfl, rfl, fun _ _ => rfl, rfl, fun _ => rfl, fun h => absurd rfl h, hm⟩
  | cons g gs ih =>
    intro sets m h hw hm
    cases sets with
    | nil => simp at h
    | cons s sets =>
      simp only [List.map_cons, List.cons.injEq] at h
      obtain ⟨m1, e1, e2, e3, e4, after, e5, e6⟩ := c48_add m t s (hw s (by simp)) hm
      have hm1 : ∀ s ∈ (m1.section_ t).sets, s.name.WF := by
        rw [e5]
        intro y hy
        have hy' : y ∈ after := hy
        rcases e6 with ⟨pre, old, post, k1, -, -, k2⟩ | ⟨-, k2⟩
        · rw [k2] at hy'
          simp only [List.mem_append, List.mem_cons] at hy'
          rcases hy' with hy' | rfl | hy'
          · exact hm y (by rw [k1]; simp [hy'])
          · exact hm old (by rw [k1]; simp)
          · exact hm y (by rw [k1]; simp [hy'])
        · rw [k2] at hy'
          rcases List.mem_append.1 hy' with hy' | hy'
          · exact hm y hy'
          · exact hw y (by simp at hy'; simp [hy'])
      obtain ⟨m', f1, f2, f3, f4, f5, f6, f7, f8⟩ := ih sets m1 h.2 (fun s hs => hw s (by simp [hs])) hm1
      refine ⟨m', ?_, f2.trans e2, f3.trans e3, fun t' ht => (f4 t' ht).trans (e4 t' ht), ⟨after, e6, ?_⟩, by simp, fun _ => ?_, f8⟩
      · unfold Builder.addGroups
        rw [h.1, Res.bind_ok, e1, Res.bind_ok, f1]
      · rw [e5] at f5; exact f5
      · by_cases hg : gs = []
        · rw [f6 hg, e5]; simp
        · exact f7 hg

/-- the set `edns` adds for a UDP size -/
def ednsSets (udp : Option Nat) : List RRset :=
  match udp with
  | some sz => [(Edns.mk 0 0 (UInt16.ofNat sz) false none).to_rrset]
  | none => []

theorem addedAll_append : ∀ (a b : List RRset) (l m r : List RRset), AddedAll l a m → AddedAll m b r → AddedAll l (a ++ b) r := by
  intro a
  induction a with
  | nil => intro b l m r h1 h2; have h1 : m = l := h1; subst h1; exact h2
  | cons s a ih =>
    intro b l m r h1 h2
    obtain ⟨mid, k1, k2⟩ := h1
    exact ⟨mid, k1, ih b mid m r k2 h2⟩

/-- the message `build` makes of a name and of the sets its groups of lines give: the question in class IN, an otherwise empty query
turned into a response, every section with its sets added in order, the EDNS record behind those of the additional section, and the
counts of the records. Missing: names of 256 octets (C04) -/
theorem c77_build_partial (x : Ext) (mode : Build) (id : UInt16) (name : List UInt8) (typ : RRType)
    (answers authorities additionals : List (List (List UInt8))) (udp : Option Nat) (n : Name) (A N D : List RRset)
    (hn : Name.new name = .ok n) (hA : answers.map (RRset.from_strs x mode) = A.map Res.ok)
    (hN : authorities.map (RRset.from_strs x mode) = N.map Res.ok) (hD : additionals.map (RRset.from_strs x mode) = D.map Res.ok)
    (hw : ∀ s ∈ A ++ N ++ D, s.name.WF) :
    ∃ m, Builder.build x mode id name typ answers authorities additionals udp = .ok m ∧ m.question = ⟨n, typ, .IN⟩ ∧
      m.header = ⟨id, 0x8100, .Query, .NoError, 1, UInt16.ofNat (Section.records m.answer).length,
        UInt16.ofNat (Section.records m.authority).length, UInt16.ofNat (Section.records m.additional).length⟩ ∧
      AddedAll [] A m.answer.sets ∧ AddedAll [] N m.authority.sets ∧ AddedAll [] (D ++ ednsSets udp) m.additional.sets ∧
      (m.answer = none ↔ answers = []) ∧ (m.authority = none ↔ authorities = []) ∧
      (m.additional = none ↔ additionals = [] ∧ udp = none) := by
  have hwA : ∀ s ∈ A, s.name.WF := fun s hs => hw s (by simp [hs])
  have hwN : ∀ s ∈ N, s.name.WF := fun s hs => hw s (by simp [hs])
  have hwD : ∀ s ∈ D, s.name.WF := fun s hs => hw s (by simp [hs])
  obtain ⟨m1, a1, a2, a3, a4, a5, a6, a7, -⟩ := addGroups_sets (t := .Answer) answers A (Response.with_question id n typ) hA hwA
    (by intro s hs; cases hs)
  obtain ⟨m2, b1, b2, b3, b4, b5, b6, b7, -⟩ := addGroups_sets (t := .Authority) authorities N m1 hN hwN
    (by rw [a4 .Authority (by simp)]; intro s hs; cases hs)
  obtain ⟨m3, c1, c2, c3, c4, c5, c6, c7, c8⟩ := addGroups_sets (t := .Additional) additionals D m2 hD hwD
    (by rw [b4 .Additional (by simp), a4 .Additional (by simp)]; intro s hs; cases hs)
  have hlast : ∃ m4 : Response, Builder.addEdns udp m3 = .ok m4 ∧ m4.header = m3.header ∧ m4.question = m3.question ∧
        (∀ t, t ≠ .Additional → m4.section_ t = m3.section_ t) ∧ AddedAll m3.additional.sets (ednsSets udp) m4.additional.sets ∧
        (m4.additional = none ↔ m3.additional = none ∧ udp = none) := by
    cases udp with
    | none => exact ⟨m3, rfl, rfl, rfl, fun _ _ => rfl, rfl, by simp⟩
    | some sz =>
      obtain ⟨m4, d1, d2, d3, d4, after, d5, d6⟩ := c48_add m3 .Additional (Edns.mk 0 0 (UInt16.ofNat sz) false none).to_rrset (edns_name _) c8
      refine ⟨m4, d1, d2, d3, d4, ⟨after, d6, ?_⟩, ?_⟩
      · have d5' : m4.additional = some after := d5
        rw [d5']; rfl
      · have d5' : m4.additional = some after := d5
        rw [d5']; simp
  obtain ⟨m4, d1, d2, d3, d4, d5, d6⟩ := hlast
  have sA : m4.answer = m1.answer := (d4 .Answer (by simp)).trans ((c4 .Answer (by simp)).trans (b4 .Answer (by simp)))
  have sN : m4.authority = m2.authority := (d4 .Authority (by simp)).trans (c4 .Authority (by simp))
  refine ⟨Builder.done (Builder.make_response m4), ?_, ?_, ?_, ?_, ?_, ?_, ?_, ?_, ?_⟩
  · unfold Builder.build
    rw [hn, Res.bind_ok, a1, Res.bind_ok, b1, Res.bind_ok, c1, Res.bind_ok, d1, Res.bind_ok]; rfl
  · show m4.question = _
    rw [d3, c3, b3, a3]; rfl
  · have : m4.header = ⟨id, 0x0100, .Query, .NoError, 1, 0, 0, 0⟩ := by rw [d2, c2, b2, a2]; rfl
    have hf : Header.set_flag ⟨id, 0x0100, .Query, .NoError, 1, 0, 0, 0⟩ .QueryRespone true = ⟨id, 0x8100, .Query, .NoError, 1, 0, 0, 0⟩ := by
      simp only [Header.set_flag, if_true, show HeaderFlag.set_flag 0x0100 .QueryRespone = 0x8100 from by decide]
    simp only [Builder.done, Builder.make_response, Builder.set_flag, Response.recalculate_header, this, rr_count_eq, hf]
  · show AddedAll [] A m4.answer.sets
    rw [sA]; exact a5
  · show AddedAll [] N m4.authority.sets
    rw [sN]
    have : m1.section_ .Authority = none := a4 .Authority (by simp)
    rw [this] at b5; exact b5
  · show AddedAll [] (D ++ ednsSets udp) m4.additional.sets
    have : m2.section_ .Additional = none := (b4 .Additional (by simp)).trans (a4 .Additional (by simp))
    rw [this] at c5
    exact addedAll_append D (ednsSets udp) _ _ _ c5 d5
  · show m4.answer = none ↔ _
    rw [sA]
    refine ⟨fun h => Classical.byContradiction fun hne => a7 hne h, fun h => ?_⟩
    rw [a6 h]; rfl
  · show m4.authority = none ↔ _
    rw [sN]
    refine ⟨fun h => Classical.byContradiction fun hne => b7 hne h, fun h => ?_⟩
    rw [b6 h]; exact a4 .Authority (by simp)
  · show m4.additional = none ↔ _
    rw [d6]
    refine ⟨fun h => ⟨Classical.byContradiction fun hne => c7 hne h.1, h.2⟩, fun h => ⟨?_, h.2⟩⟩
    rw [c6 h.1]; exact (b4 .Additional (by simp)).trans (a4 .Additional (by simp))

/-- whatever the texts, nothing is made of a name or of a group of lines that does not parse -/
theorem c77_refused (x : Ext) (mode : Build) (id : UInt16) (name : List UInt8) (typ : RRType)
    (answers authorities additionals : List (List (List UInt8))) (udp : Option Nat) (m : Response)
    (h : Builder.build x mode id name typ answers authorities additionals udp = .ok m) :
    (∃ n, Name.new name = .ok n) ∧ ∀ g, g ∈ answers ∨ g ∈ authorities ∨ g ∈ additionals → ∃ s, RRset.from_strs x mode g = .ok s := by
  unfold Builder.build at h
  obtain ⟨n, hn, h⟩ := Res.bind_eq_ok.1 h
  obtain ⟨m1, h1, h⟩ := Res.bind_eq_ok.1 h
  obtain ⟨m2, h2, h⟩ := Res.bind_eq_ok.1 h
  obtain ⟨m3, h3, h⟩ := Res.bind_eq_ok.1 h
  have mem : ∀ {gs : List (List (List UInt8))} {t : SectionType} {m m' : Response}, Builder.addGroups x mode t gs m = .ok m' →
      ∀ g ∈ gs, ∃ s, RRset.from_strs x mode g = .ok s := by
    intro gs t m m' h g hg
    obtain ⟨sets, hs⟩ := addGroups_spec gs m m' h
    have : RRset.from_strs x mode g ∈ sets.map Res.ok := by rw [← hs]; exact List.mem_map.2 ⟨g, hg, rfl⟩
    obtain ⟨s, -, e⟩ := List.mem_map.1 this
    exact ⟨s, e.symm⟩
  refine ⟨⟨n, hn⟩, fun g hg => ?_⟩
  rcases hg with hg | hg | hg
  · exact mem h1 g hg
  · exact mem h2 g hg
  · exact mem h3 g hg

/-! ### building never panics, and succeeds exactly when everything parses -/

/-- a name of labels of at most 63 octets, however long it is (a text that ends in an escaped dot may give 256 octets, C04) -/
def Name.Labelled (n : Name) : Prop := ∃ ls : List Label, (∀ l ∈ ls, l.length ≤ 63) ∧ n = Name.ofLabels ls

theorem eq_labelled {a b : Name} (ha : a.Labelled) (hb : b.Labelled) : ∃ r, Name.eq a b = .ok r := by
  obtain ⟨la, h1, rfl⟩ := ha
  obtain ⟨lb, h2, rfl⟩ := hb
  unfold Name.eq
  split
  · exact ⟨_, rfl⟩
  · rename_i h
    simp only [Name.ofLabels_len, Name.ofLabels_count] at h
    have h63 : ∀ {ls : List Label}, (∀ l ∈ ls, l.length ≤ 63) → ∀ l ∈ ls ++ [([] : Label)], l.length ≤ 63 := by
      intro ls hv l hl
      rcases List.mem_append.mp hl with h | h
      · exact hv l h
      · simp at h; subst h; simp
    have := Name.eqLoop_spec (wire (la ++ [[]])) (wire (lb ++ [[]])) (la ++ [[]]) (lb ++ [[]]) [] [] 0
      (by simp; omega) (h63 h1) (h63 h2) (by simp) (by simp)
    simp only [List.length_append, List.length_singleton] at this
    rw [Name.ofLabels_raw, Name.ofLabels_raw, Name.ofLabels_count, this]
    exact ⟨_, rfl⟩

theorem add_labelled {m : Response} {t : SectionType} {s : RRset} (hs : s.name.Labelled) (hm : ∀ t, ∀ y ∈ (m.section_ t).sets, y.name.Labelled) :
    ∃ m', Builder.add_rrset m t s = .ok m' ∧ ∀ t, ∀ y ∈ (m'.section_ t).sets, y.name.Labelled := by
  have merge : ∀ sets : List RRset, (∀ y ∈ sets, y.name.Labelled) → ∃ out, Builder.merge s sets = .ok out ∧ ∀ y ∈ out, y.name.Labelled := by
    intro sets
    induction sets with
    | nil => intro _; exact ⟨[s], rfl, by intro y hy; rw [List.mem_singleton] at hy; subst hy; exact hs⟩
    | cons old rest ih =>
      intro h
      have hb : ∃ b, old.is_same_rrset s = .ok b := by
        unfold RRset.is_same_rrset
        split
        · exact eq_labelled (h old (by simp)) hs
        · exact ⟨_, rfl⟩
      obtain ⟨b, hb⟩ := hb
      unfold Builder.merge
      cases b with
      | true =>
        refine ⟨{ old with rdatas := old.rdatas ++ s.rdatas } :: rest, by rw [hb]; rfl, ?_⟩
        intro y hy
        rcases List.mem_cons.1 hy with rfl | hy
        · exact h old (by simp)
        · exact h y (by simp [hy])
      | false =>
        obtain ⟨out, h1, h2⟩ := ih fun y hy => h y (by simp [hy])
        refine ⟨old :: out, by rw [hb]; show (do let rest ← Builder.merge s rest; pure (old :: rest)) = _; rw [h1]; rfl, ?_⟩
        intro y hy
        rcases List.mem_cons.1 hy with rfl | hy
        · exact h _ (by simp)
        · exact h2 y hy
  unfold Builder.add_rrset
  have fin : ∀ out : List RRset, (∀ y ∈ out, y.name.Labelled) → ∀ t', ∀ y ∈ ((m.setSection t (some out)).section_ t').sets, y.name.Labelled := by
    intro out ho t'
    rw [section_set]
    split
    · exact ho
    · exact hm t'
  match h : m.section_ t with
  | none => exact ⟨_, rfl, fin [s] (by intro y hy; rw [List.mem_singleton] at hy; subst hy; exact hs)⟩
  | some sets =>
    obtain ⟨out, h1, h2⟩ := merge sets (by have := hm t; rw [h] at this; exact this)
    exact ⟨m.setSection t (some out), by simp only [h1]; rfl, fin out h2⟩

theorem addGroups_total {x : Ext} {mode : Build} {t : SectionType} : ∀ (gs : List (List (List UInt8))) (m : Response),
    (∀ g ∈ gs, RRset.from_strs x mode g ≠ .panic ∧ ∀ s, RRset.from_strs x mode g = .ok s → s.name.Labelled) →
    (∀ t, ∀ y ∈ (m.section_ t).sets, y.name.Labelled) →
    (∃ m', Builder.addGroups x mode t gs m = .ok m' ∧ (∀ t, ∀ y ∈ (m'.section_ t).sets, y.name.Labelled) ∧ ∀ g ∈ gs, ∃ s, RRset.from_strs x mode g = .ok s) ∨
    (Builder.addGroups x mode t gs m = .err ∧ ∃ g ∈ gs, ∀ s, RRset.from_strs x mode g ≠ .ok s) := by
  intro gs
  induction gs with
  | nil => intro m _ hm; exact .inl ⟨m, rfl, hm, by simp⟩
  | cons g gs ih =>
    intro m h hm
    obtain ⟨h1, h2⟩ := h g (by simp)
    unfold Builder.addGroups
    cases e : RRset.from_strs x mode g with
    | panic => exact absurd e h1
    | err => exact .inr ⟨rfl, g, by simp, fun s hs => by rw [e] at hs; cases hs⟩
    | ok s =>
      obtain ⟨m1, k1, k2⟩ := add_labelled (t := t) (h2 s e) hm
      rw [Res.bind_ok, k1, Res.bind_ok]
      rcases ih m1 (fun g hg => h g (by simp [hg])) k2 with ⟨m', a1, a2, a3⟩ | ⟨a1, g', a2, a3⟩
      · refine .inl ⟨m', a1, a2, fun g' hg => ?_⟩
        rcases List.mem_cons.1 hg with rfl | hg
        · exact ⟨s, e⟩
        · exact a3 g' hg
      · exact .inr ⟨a1, g', by simp [a2], a3⟩

/-- for ASCII texts `build` never panics, and makes a message exactly when the name parses and every group of lines does. (In a debug
build no line may be blank, and no group may be empty: C71.) -/
theorem c77_total_partial (x : Ext) (hx : x.Sized) (mode : Build) (id : UInt16) (name : List UInt8) (typ : RRType)
    (answers authorities additionals : List (List (List UInt8))) (udp : Option Nat)
    (hg : ∀ g ∈ answers ++ authorities ++ additionals, g ≠ [] ∧ ∀ s ∈ g, (∀ c ∈ s, c.toNat < 0x80) ∧ (mode = .release ∨ trim s ≠ [])) :
    Builder.build x mode id name typ answers authorities additionals udp ≠ .panic ∧
    ((∃ m, Builder.build x mode id name typ answers authorities additionals udp = .ok m) ↔
      (∃ n, Name.new name = .ok n) ∧ ∀ g ∈ answers ++ authorities ++ additionals, ∃ s, RRset.from_strs x mode g = .ok s) := by
  have hp : ∀ g ∈ answers ++ authorities ++ additionals, RRset.from_strs x mode g ≠ .panic ∧
      ∀ s, RRset.from_strs x mode g = .ok s → s.name.Labelled := by
    intro g h
    obtain ⟨k1, k2⟩ := hg g h
    refine ⟨c71_rrset_lines_partial x mode g k1 k2, fun s hs => ?_⟩
    obtain ⟨⟨ls, p1, -, p3, -⟩, -⟩ := lines_parsed (N := False) hx (fun l hl => isUtf8_ascii (k2 l hl).1) (fun h => h.elim) hs
    exact ⟨ls, fun l hl => (p3 l hl).2, p1⟩
  have key : (∃ m, Builder.build x mode id name typ answers authorities additionals udp = .ok m ∧ (∃ n, Name.new name = .ok n) ∧
        ∀ g ∈ answers ++ authorities ++ additionals, ∃ s, RRset.from_strs x mode g = .ok s) ∨
      (Builder.build x mode id name typ answers authorities additionals udp = .err ∧
        ¬ ((∃ n, Name.new name = .ok n) ∧ ∀ g ∈ answers ++ authorities ++ additionals, ∃ s, RRset.from_strs x mode g = .ok s)) := by
    have hnp := (Name.c04_new_limits_partial name).1
    unfold Builder.build
    cases hn : Name.new name with
    | panic => exact absurd hn hnp
    | err => exact .inr ⟨rfl, fun h => by obtain ⟨⟨n, h⟩, -⟩ := h; cases h⟩
    | ok n =>
      rw [Res.bind_ok]
      rcases addGroups_total (x := x) (mode := mode) (t := .Answer) answers (Response.with_question id n typ) (fun g h => hp g (by simp [h]))
        (by intro t; cases t <;> (intro y hy; cases hy)) with ⟨m1, a1, a2, a3⟩ | ⟨a1, g, a2, a3⟩
      · rw [a1, Res.bind_ok]
        rcases addGroups_total (x := x) (mode := mode) (t := .Authority) authorities m1 (fun g h => hp g (by simp [h])) a2 with ⟨m2, b1, b2, b3⟩ | ⟨b1, g, b2, b3⟩
        · rw [b1, Res.bind_ok]
          rcases addGroups_total (x := x) (mode := mode) (t := .Additional) additionals m2 (fun g h => hp g (by simp [h])) b2 with ⟨m3, c1, c2, c3⟩ | ⟨c1, g, c4, c3⟩
          · rw [c1, Res.bind_ok]
            have last : ∃ m4, Builder.addEdns udp m3 = .ok m4 := by
              cases udp with
              | none => exact ⟨m3, rfl⟩
              | some sz =>
                obtain ⟨m4, d1, -⟩ := add_labelled (t := .Additional) (s := (Edns.mk 0 0 (UInt16.ofNat sz) false none).to_rrset) ⟨[], by simp, rfl⟩ c2
                exact ⟨m4, d1⟩
            obtain ⟨m4, d1⟩ := last
            rw [d1, Res.bind_ok]
            refine .inl ⟨_, rfl, ⟨n, rfl⟩, fun g hg => ?_⟩
            rcases List.mem_append.1 hg with hg | hg
            · rcases List.mem_append.1 hg with hg | hg
              · exact a3 g hg
              · exact b3 g hg
            · exact c3 g hg
          · rw [c1]
            refine .inr ⟨rfl, fun h => ?_⟩
            obtain ⟨s, hs⟩ := h.2 g (by simp [c4])
            exact c3 s hs
        · rw [b1]
          refine .inr ⟨rfl, fun h => ?_⟩
          obtain ⟨s, hs⟩ := h.2 g (by simp [b2])
          exact b3 s hs
      · rw [a1]
        refine .inr ⟨rfl, fun h => ?_⟩
        obtain ⟨s, hs⟩ := h.2 g (by simp [a2])
        exact a3 s hs
  rcases key with ⟨m, k1, k2⟩ | ⟨k1, k2⟩
  · rw [k1]; exact ⟨by simp, ⟨fun _ => k2, fun _ => ⟨m, rfl⟩⟩⟩
  · rw [k1]; exact ⟨by simp, ⟨fun h => (by obtain ⟨m, h⟩ := h; cases h), fun h => absurd h k2⟩⟩

/-! ### what was built can be sent -/

theorem build_inv {x : Ext} {mode : Build} {id : UInt16} {name : List UInt8} {typ : RRType}
    {answers authorities additionals : List (List (List UInt8))} {udp : Option Nat} {m : Response}
    (h : Builder.build x mode id name typ answers authorities additionals udp = .ok m) :
    ∃ n, ∃ A N D : List RRset, Name.new name = .ok n ∧ answers.map (RRset.from_strs x mode) = A.map Res.ok ∧
      authorities.map (RRset.from_strs x mode) = N.map Res.ok ∧ additionals.map (RRset.from_strs x mode) = D.map Res.ok := by
  unfold Builder.build at h
  obtain ⟨n, hn, h⟩ := Res.bind_eq_ok.1 h
  obtain ⟨m1, h1, h⟩ := Res.bind_eq_ok.1 h
  obtain ⟨m2, h2, h⟩ := Res.bind_eq_ok.1 h
  obtain ⟨m3, h3, h⟩ := Res.bind_eq_ok.1 h
  obtain ⟨A, hA⟩ := addGroups_spec _ _ _ h1
  obtain ⟨N, hN⟩ := addGroups_spec _ _ _ h2
  obtain ⟨D, hD⟩ := addGroups_spec _ _ _ h3
  exact ⟨n, A, N, D, hn, hA, hN, hD⟩

theorem noNeighbours_of_distinct : ∀ (l : List RRset), AllDistinct l → NoNeighbours l := by
  intro l
  induction l with
  | nil => intro _; exact trivial
  | cons a l ih =>
    intro h
    cases l with
    | nil => exact trivial
    | cons b l =>
      have h' := List.pairwise_cons.1 h
      exact ⟨h'.1 b (by simp), ih h'.2⟩

theorem added_fits {L : Nat} {before after : List RRset} {s : RRset} (h : Added before s after) (hb : ∀ x ∈ before, x.FitsIn L) (hs : s.FitsIn L) :
    ∀ x ∈ after, x.FitsIn L := by
  rcases h with ⟨pre, old, post, rfl, -, ho, rfl⟩ | ⟨-, rfl⟩
  · intro x hx
    simp only [List.mem_append, List.mem_cons] at hx
    rcases hx with hx | rfl | hx
    · exact hb x (by simp [hx])
    · have h1 := hb old (by simp)
      refine ⟨h1.name, h1.typ, h1.class_, fun rd hrd => ?_, fun he => ?_⟩
      · rcases List.mem_append.1 hrd with hrd | hrd
        · exact h1.data rd hrd
        · have := hs.data rd hrd
          rw [← ho.1] at this; exact this
      · simp only [List.append_eq_nil_iff] at he
        exact h1.empty he.1
    · exact hb x (by simp [hx])
  · intro x hx
    simp only [List.mem_append, List.mem_singleton] at hx
    rcases hx with hx | rfl
    · exact hb x hx
    · exact hs

theorem records_max (s : RRset) : s.records.length = max 1 s.rdatas.length := by
  unfold RRset.records
  split
  · rename_i h; simp [h]
  · rename_i h; have := List.length_pos_iff.2 h; simp; omega

theorem added_count {before after : List RRset} {s : RRset} (h : Added before s after) :
    (after.flatMap RRset.records).length ≤ (before.flatMap RRset.records).length + s.records.length := by
  rcases h with ⟨pre, old, post, rfl, -, -, rfl⟩ | ⟨-, rfl⟩
  · simp only [List.flatMap_append, List.flatMap_cons, List.length_append, records_max]
    omega
  · simp

theorem added_types {before after : List RRset} {s : RRset} (h : Added before s after) :
    ∀ x ∈ after, (∃ y ∈ before, y.typ = x.typ ∧ (y.rdatas.length ≤ x.rdatas.length ∧ (x.typ ≠ s.typ → x = y))) ∨ x = s := by
  rcases h with ⟨pre, old, post, rfl, -, ho, rfl⟩ | ⟨-, rfl⟩
  · intro x hx
    simp only [List.mem_append, List.mem_cons] at hx
    rcases hx with hx | rfl | hx
    · exact Or.inl ⟨x, by simp [hx], rfl, Nat.le_refl _, fun _ => rfl⟩
    · exact Or.inl ⟨old, by simp, rfl, by simp, fun h => absurd ho.1 h⟩
    · exact Or.inl ⟨x, by simp [hx], rfl, Nat.le_refl _, fun _ => rfl⟩
  · intro x hx
    simp only [List.mem_append, List.mem_singleton] at hx
    rcases hx with hx | rfl
    · exact Or.inl ⟨x, hx, rfl, Nat.le_refl _, fun _ => rfl⟩
    · exact Or.inr rfl

/-- a section made of sets that fit, none of them OPT -/
structure Grown (L : Nat) (ss sets : List RRset) : Prop where
  fits : ∀ x ∈ sets, x.FitsIn L
  ok : SetsOK sets
  noOpt : ∀ x ∈ sets, x.typ ≠ .OPT
  count : (sets.flatMap RRset.records).length ≤ (ss.flatMap RRset.records).length
  ne : ss ≠ [] → sets ≠ []

theorem grown_all {L : Nat} : ∀ (ss done before after : List RRset), AddedAll before ss after → (∀ s ∈ ss, s.FitsIn L ∧ s.typ ≠ .OPT) →
    Grown L done before → Grown L (done ++ ss) after := by
  intro ss
  induction ss with
  | nil => intro done before after h _ hb; have h : after = before := h; subst h; simpa using hb
  | cons s ss ih =>
    intro done before after h hs hb
    obtain ⟨mid, h1, h2⟩ := h
    have hw : s.name.WF := (hs s (by simp)).1.name
    have := ih (done ++ [s]) mid after h2 (fun s hs' => hs s (by simp [hs'])) ⟨added_fits h1 hb.fits (hs s (by simp)).1, added_ok hw h1 hb.ok, ?_, ?_, ?_⟩
    · simpa using this
    · intro x hx
      rcases added_types h1 x hx with ⟨y, hy, e, -⟩ | rfl
      · rw [← e]; exact hb.noOpt y hy
      · exact (hs x (by simp)).2
    · have := added_count h1
      have := hb.count
      simp only [List.flatMap_append, List.flatMap_cons, List.flatMap_nil, List.length_append, List.append_nil] at *
      omega
    · intro _
      rcases h1 with ⟨pre, old, post, -, -, -, rfl⟩ | ⟨-, rfl⟩ <;> simp

theorem grown_nil (L : Nat) : Grown L [] [] := ⟨by simp, SetsOK.nil, by simp, by simp, by simp⟩

theorem group_records {x : Ext} {mode : Build} {g : List (List UInt8)} {s : RRset} (h : RRset.from_strs x mode g = .ok s) :
    s.rdatas.length = g.length ∧ s.records.length = g.length := by
  obtain ⟨q, qs, h1, -, rfl⟩ := (c70_lines x mode g s).1 h
  have hone : ∀ p ∈ q :: qs, p.rdatas.length = 1 := by
    intro p hp
    have : Res.ok p ∈ (q :: qs).map Res.ok := List.mem_map.2 ⟨p, hp, rfl⟩
    rw [← h1] at this
    obtain ⟨l, -, e⟩ := List.mem_map.1 this
    obtain ⟨rd, hrd⟩ := from_str_one e
    rw [hrd]; rfl
  have hlen : g.length = (q :: qs).length := by
    have := congrArg List.length h1
    simpa using this
  have sum : ∀ (l : List RRset), (∀ p ∈ l, p.rdatas.length = 1) → (l.flatMap RRset.rdatas).length = l.length := by
    intro l
    induction l with
    | nil => intro _; rfl
    | cons a l ih =>
      intro h
      rw [List.flatMap_cons, List.length_append, h a (by simp), ih (fun p hp => h p (by simp [hp])), List.length_cons]; omega
  have h2 : (q.rdatas ++ qs.flatMap RRset.rdatas).length = g.length := by
    rw [hlen]; exact sum (q :: qs) hone
  refine ⟨h2, ?_⟩
  rw [records_max]
  simp only [h2]
  rw [hlen]; simp

theorem groups_records {x : Ext} {mode : Build} : ∀ (gs : List (List (List UInt8))) (A : List RRset),
    gs.map (RRset.from_strs x mode) = A.map Res.ok → (A.flatMap RRset.records).length = gs.flatten.length := by
  intro gs
  induction gs with
  | nil => intro A h; have : A = [] := by simpa using h.symm
           subst this; rfl
  | cons g gs ih =>
    intro A h
    cases A with
    | nil => simp at h
    | cons a A =>
      simp only [List.map_cons, List.cons.injEq] at h
      simp only [List.flatMap_cons, List.flatten_cons, List.length_append, (group_records h.1).2, ih A h.2]

theorem sectionFits_of_grown {L : Nat} {t : SectionType} {ss : List RRset} {s : Section} (h : Grown L ss s.sets) (hn : s = none ↔ ss = []) :
    SectionFitsIn L t s := by
  cases s with
  | none => exact trivial
  | some sets =>
    have hne : ss ≠ [] := fun h => by have := hn.2 h; cases this
    exact ⟨h.ne hne, h.fits, noNeighbours_of_distinct _ h.ok.2, fun x hx ho => absurd ho (h.noOpt x (List.mem_of_mem_head? hx)),
      fun x hx ho => absurd ho (h.noOpt x hx)⟩

theorem mem_parsed {x : Ext} {mode : Build} {gs : List (List (List UInt8))} {A : List RRset} (h : gs.map (RRset.from_strs x mode) = A.map Res.ok)
    {a : RRset} (ha : a ∈ A) : ∃ g ∈ gs, RRset.from_strs x mode g = .ok a := by
  have : Res.ok a ∈ A.map Res.ok := List.mem_map.2 ⟨a, ha, rfl⟩
  rw [← h] at this
  obtain ⟨g, hg, e⟩ := List.mem_map.1 this
  exact ⟨g, hg, e⟩

theorem map_nil_iff {x : Ext} {mode : Build} {gs : List (List (List UInt8))} {A : List RRset} (h : gs.map (RRset.from_strs x mode) = A.map Res.ok) :
    gs = [] ↔ A = [] := by
  constructor
  · rintro rfl; simpa using h.symm
  · rintro rfl; simpa using h

theorem class_round (v : UInt16) : RRClass.new (RRClass.new v).to_u16 = RRClass.new v := by rw [RRClass.to_u16_new]

theorem edns_fits (L : Nat) (e : Edns) : e.to_rrset.FitsIn L :=
  ⟨⟨[], by decide, rfl⟩, rfl, class_round e.udp_size, fun rd h => absurd h List.not_mem_nil, fun _ => rfl⟩

/-- a message built from lines of at most 510 octets without backslash, none of them an OPT record, with at most 65535 records in a
section, is well formed for every buffer of at most 65535 octets -/
theorem c77_fits_partial (x : Ext) (hx : x.Sized) (mode : Build) (id : UInt16) (name : List UInt8) (typ : RRType)
    (answers authorities additionals : List (List (List UInt8))) (udp : Option Nat) (m : Response)
    (h : Builder.build x mode id name typ answers authorities additionals udp = .ok m)
    (hq : RRType.new typ.as_u16 = typ) (hname : ∀ c ∈ name, c ≠ 92)
    (hplain : ∀ g ∈ answers ++ authorities ++ additionals, (∀ s ∈ g, PlainLine s) ∧ ∀ r, RRset.from_strs x mode g = .ok r → r.typ ≠ .OPT)
    (hA : answers.flatten.length ≤ 65535) (hN : authorities.flatten.length ≤ 65535) (hD : additionals.flatten.length < 65535)
    (L : Nat) (hL : L ≤ 65535) : m.FitsIn L := by
  obtain ⟨n, A, N, D, h1, h2, h3, h4⟩ := build_inv h
  have part : ∀ (gs : List (List (List UInt8))) (S : List RRset), gs.map (RRset.from_strs x mode) = S.map Res.ok →
      (∀ g ∈ gs, g ∈ answers ++ authorities ++ additionals) → ∀ s ∈ S, s.FitsIn L ∧ s.typ ≠ .OPT := by
    intro gs S hS hg s hs
    obtain ⟨g, hgm, e⟩ := mem_parsed hS hs
    obtain ⟨k1, k2⟩ := hplain g (hg g hgm)
    exact ⟨c78_plain_fits x hx mode g k1 s e L hL, k2 s e⟩
  have pA := part answers A h2 (fun g hg => by simp [hg])
  have pN := part authorities N h3 (fun g hg => by simp [hg])
  have pD := part additionals D h4 (fun g hg => by simp [hg])
  obtain ⟨m', k0, k1, k2, k3, k4, k5, k6, k7, k8⟩ := c77_build_partial x mode id name typ answers authorities additionals udp n A N D h1 h2 h3 h4 (by
    intro s hs
    simp only [List.mem_append] at hs
    rcases hs with (hs | hs) | hs
    · exact (pA s hs).1.name
    · exact (pN s hs).1.name
    · exact (pD s hs).1.name)
  rw [h] at k0
  obtain rfl : m = m' := by simpa using k0
  have gA := grown_all A [] [] _ k3 pA (grown_nil L)
  have gN := grown_all N [] [] _ k4 pN (grown_nil L)
  rw [List.nil_append] at gA gN
  have cA := gA.count
  have cN := gN.count
  rw [groups_records answers A h2] at cA
  rw [groups_records authorities N h3] at cN
  have recs : ∀ s : Section, Section.records s = s.sets.flatMap RRset.records := by intro s; cases s <;> rfl
  have gD : SectionFitsIn L .Additional m.additional ∧ (Section.records m.additional).length ≤ 65535 := by
    cases udp with
    | none =>
      rw [ednsSets, List.append_nil] at k5
      have gD := grown_all D [] [] _ k5 pD (grown_nil L)
      rw [List.nil_append] at gD
      refine ⟨sectionFits_of_grown gD (by rw [k8, ← map_nil_iff h4]; simp), ?_⟩
      have := gD.count
      rw [groups_records additionals D h4] at this
      rw [recs]; omega
    | some sz =>
      have split : ∀ (a : List RRset) (b : RRset) (l r : List RRset), AddedAll l (a ++ [b]) r → ∃ mid, AddedAll l a mid ∧ Added mid b r := by
        intro a
        induction a with
        | nil => rintro b l r ⟨mid, q1, q2⟩; have q2 : r = mid := q2; subst q2; exact ⟨l, rfl, q1⟩
        | cons c a ih =>
          rintro b l r ⟨mid, q1, q2⟩
          obtain ⟨mid', q3, q4⟩ := ih b mid r q2
          exact ⟨mid', ⟨mid, q1, q3⟩, q4⟩
      obtain ⟨mid, q1, q2⟩ := split D _ _ _ k5
      have gD := grown_all D [] [] _ q1 pD (grown_nil L)
      rw [List.nil_append] at gD
      have hcnt := added_count q2
      have := gD.count
      rw [groups_records additionals D h4] at this
      have hok := added_ok (edns_name _) q2 gD.ok
      have hfit := added_fits q2 gD.fits (edns_fits L _)
      have htyp := added_types q2
      have hlen : ((Edns.mk 0 0 (UInt16.ofNat sz) false none).to_rrset).records.length = 1 := rfl
      rw [hlen] at hcnt
      refine ⟨?_, by rw [recs]; omega⟩
      cases hsec : m.additional with
      | none => exact trivial
      | some sets =>
        rw [hsec] at hok hfit htyp q2
        refine ⟨?_, hfit, noNeighbours_of_distinct _ hok.2, fun _ _ _ => rfl, ?_⟩
        · rcases q2 with ⟨pre, old, post, -, -, -, q⟩ | ⟨-, q⟩
          · have q : sets = _ := q
            rw [q]; simp
          · have q : sets = _ := q
            rw [q]; simp
        · intro y hy ho
          rcases htyp y hy with ⟨z, hz, e, -⟩ | rfl
          · exact absurd (e.trans ho) (gD.noOpt z hz)
          · exact Nat.zero_le _
  have c16 : ∀ k : Nat, k ≤ 65535 → (UInt16.ofNat k).toNat = k := by intro k hk; rw [UInt16.toNat_ofNat']; omega
  refine ⟨?_, sectionFits_of_grown gA (by rw [k6, ← map_nil_iff h2]), sectionFits_of_grown gN (by rw [k7, ← map_nil_iff h3]), gD.1, ?_, ?_, ?_, ?_, ?_⟩
  · rw [k1]
    obtain ⟨ls, e1, -, -, -, -, e2⟩ := (Name.c04_new_limits_partial name).2 n h1
    exact ⟨⟨ls, (e2 fun u hu => hname 92 (by rw [hu]; simp) rfl).2, e1⟩, hq, rfl⟩
  · rw [k2]; exact (by decide : (0x8100 : UInt16) &&& 0x87b0 = 0x8100)
  · rw [k2]
  · rw [k2]; exact c16 _ (by rw [recs]; omega)
  · rw [k2]; exact c16 _ (by rw [recs]; omega)
  · rw [k2]; exact c16 _ gD.2

/-- and arrives as it was built, or cut with the TC flag -/
theorem c77_sent_partial (x : Ext) (hx : x.Sized) (mode : Build) (id : UInt16) (name : List UInt8) (typ : RRType)
    (answers authorities additionals : List (List (List UInt8))) (udp : Option Nat) (m : Response)
    (h : Builder.build x mode id name typ answers authorities additionals udp = .ok m)
    (hq : RRType.new typ.as_u16 = typ) (hname : ∀ c ∈ name, c ≠ 92)
    (hplain : ∀ g ∈ answers ++ authorities ++ additionals, (∀ s ∈ g, PlainLine s) ∧ ∀ r, RRset.from_strs x mode g = .ok r → r.typ ≠ .OPT)
    (hA : answers.flatten.length ≤ 65535) (hN : authorities.flatten.length ≤ 65535) (hD : additionals.flatten.length < 65535)
    (backing : List UInt8) (hL : backing.length ≤ 65535) (n : Nat) (r : Render) (hw : m.to_wire (Render.new backing) = (.ok n, r)) :
    Response.from_wire r.data = .ok m ∨ Response.from_wire r.data = .ok m.cut := by
  have hf := c77_fits_partial x hx mode id name typ answers authorities additionals udp m h hq hname hplain hA hN hD _ hL
  obtain ⟨_, _, h1 | h1⟩ := c44_roundtrip m backing hf n r hw
  · left; have := h1 []; rwa [List.append_nil] at this
  · right; have := h1 []; rwa [List.append_nil] at this

/-! ### the two lengths that text does not limit -/

/-- no message that is received has record data with a name or a string that is too long -/
theorem received_short (raw : List UInt8) (m : Response) (h : Response.from_wire raw = .ok m) (t : SectionType) (sets : List RRset)
    (ht : m.section_ t = some sets) (s : RRset) (hs : s ∈ sets) : ∀ rd ∈ s.rdatas, rd.Fits := by
  have hf := c76_fits raw m h 0 (by omega)
  have : SectionFitsIn 0 t (some sets) := by
    rw [← ht]; cases t
    · exact hf.answer
    · exact hf.authority
    · exact hf.additional
  intro rd hrd
  exact ((this.2.1 s hs).data rd hrd).2.1

theorem FieldsFit.short : ∀ {cs : List (Codec × Disp)} {vs : List FieldVal}, FieldsFit cs vs → ∀ p ∈ cs.zip vs, p.2.Short p.1.1
  | [], _, _, p, hp => by simp at hp
  | _ :: _, [], _, p, hp => by simp at hp
  | c :: cs, v :: vs, h, p, hp => by
    rw [List.zip_cons_cons, List.mem_cons] at hp
    rcases hp with rfl | hp
    · have h1 := h.1
      obtain ⟨c1, c2⟩ := c
      cases c1 <;> cases v <;> first
        | (simp [FieldFits] at h1; done)
        | trivial
        | (obtain ⟨ls, hv, rfl⟩ := h1
           show (Name.ofLabels ls).raw.length ≤ 255
           rw [Name.ofLabels_raw, ← nameWire_eq]; exact hv.2)
        | exact h1
        | skip
    · exact FieldsFit.short h.2 p hp

/-- which sets accepted from text can be received again: a message exists that is received with this very set if and only if no name and no
string behind a length octet in it is too long. (No more data than a section can count, and none larger than its length can say.) -/
theorem c78_exact (x : Ext) (hx : x.Sized) (m : Build) (ss : List (List UInt8)) (hu : ∀ s ∈ ss, isUtf8 s = true) (r : RRset)
    (h : RRset.from_strs x m ss = .ok r) (hn : r.rdatas.length ≤ 65535) (hz : ∀ rd ∈ r.rdatas, rd.size ≤ 65535) :
    (∃ raw k t sets, Response.from_wire raw = .ok k ∧ k.section_ t = some sets ∧ r ∈ sets) ↔ r.Short := by
  constructor
  · rintro ⟨raw, k, t, sets, hr, ht, hs⟩
    have hf := c76_fits raw k hr 0 (by omega)
    have : SectionFitsIn 0 t (some sets) := by
      rw [← ht]; cases t
      · exact hf.answer
      · exact hf.authority
      · exact hf.additional
    have := this.2.1 r hs
    refine ⟨?_, fun rd hrd => ?_⟩
    · obtain ⟨ls, hv, e⟩ := this.name
      rw [e, Name.ofLabels_raw, ← nameWire_eq]; exact hv.2
    · obtain ⟨cs, h1, h2⟩ := (this.data rd hrd).2.1
      intro cs' h3
      rw [h1] at h3; cases h3
      exact h2.short
  · intro hs
    have hf : r.Fits := (c78_fits_partial x hx m ss hu r h hs 65536 (.inr hz)).fits (.inr hz)
    have hp := lines_parsed (N := False) hx hu (fun h => h.elim) h
    have hrec : (Section.records (some [r])).length = r.rdatas.length := by
      have : r.rdatas ≠ [] := hp.2.2.2.1
      simp [Section.records, RRset.records, this]
    have hopt : r.typ = .OPT → r.rdatas.length ≤ 1 := by
      obtain ⟨q, qs, h1, ⟨-, h2⟩, rfl⟩ := (c70_lines x m ss r).1 h
      intro ho
      have : qs = [] := Classical.byContradiction fun hq => h2 hq ho
      subst this
      have e : ∃ s, s ∈ ss ∧ RRset.from_str x m s = .ok q := by
        have : Res.ok q ∈ ss.map (RRset.from_str x m) := by rw [h1]; simp
        obtain ⟨s, hs, e⟩ := List.mem_map.1 this
        exact ⟨s, hs, e⟩
      obtain ⟨s, -, e⟩ := e
      obtain ⟨rd, hrd⟩ := from_str_one e
      simp [hrd]
    let k : Response := ⟨⟨0, 0, .Query, .NoError, 1, 0, 0, UInt16.ofNat r.rdatas.length⟩, ⟨Name.ofLabels [], .A, .IN⟩, none, none, some [r]⟩
    have hk : k.Fits := by
      refine ⟨⟨⟨[], by decide +kernel, rfl⟩, (show RRType.new RRType.A.as_u16 = .A by decide +kernel), (show RRClass.new RRClass.IN.to_u16 = .IN by decide +kernel)⟩, trivial, trivial, ⟨by simp, by simpa using hf, trivial, ?_, by simpa using hopt⟩,
        (by show (0 : UInt16) &&& 0x87b0 = 0; decide), rfl, rfl, rfl, ?_⟩
      · intro _ _ _; rfl
      · show (UInt16.ofNat r.rdatas.length).toNat = (Section.records (some [r])).length
        rw [hrec, UInt16.toNat_ofNat']
        exact Nat.mod_eq_of_lt (by omega)
    refine ⟨_, k, .Additional, [r], (c73_decodes (fun _ _ => false) k hk []).2, rfl, by simp⟩

/-- `a. 1 NSEC3PARAM 1 0 0 00…00` with 512 digits -/
def longSalt : List UInt8 := ascii "a. 1 NSEC3PARAM 1 0 0 " ++ List.replicate 512 48
/-- the data it gives -/
def saltData : RData := ⟨.NSEC3PARAM, [.u8 1, .u8 0, .u16 0, .bytes (List.replicate 256 0)]⟩

/-- a salt of 256 octets is accepted from text, and no octets whatever are received as a message with that data -/
theorem c78_salt_violated : RRset.from_strs hexExt .release [longSalt] = .ok ⟨Name.ofLabels [[97]], .NSEC3PARAM, .IN, 1, [saltData]⟩ ∧
    ∀ raw m, Response.from_wire raw = .ok m → ∀ t sets, m.section_ t = some sets → ∀ s ∈ sets, saltData ∉ s.rdatas := by
  refine ⟨by decide +kernel, fun raw m h t sets ht s hs hd => ?_⟩
  obtain ⟨cs, h1, h2⟩ := received_short raw m h t sets ht s hs _ hd
  simp only [saltData, schema, Option.some.injEq] at h1
  subst h1
  have : (List.replicate 256 (0 : UInt8)).length ≤ 255 := h2.2.2.2.1
  rw [List.length_replicate] at this
  omega

/-- the premises of `c78_exact` are met by a set that is too long for any message, and by one that is not -/
theorem c78_exact_example : RRset.from_strs hexExt .release [longSalt] = .ok ⟨Name.ofLabels [[97]], .NSEC3PARAM, .IN, 1, [saltData]⟩ ∧ saltData.size ≤ 65535 ∧
    RRset.from_strs hexExt .release [ascii "a. 1 NSEC3PARAM 1 0 0 00ff"] = .ok ⟨Name.ofLabels [[97]], .NSEC3PARAM, .IN, 1, [⟨.NSEC3PARAM, [.u8 1, .u8 0, .u16 0, .bytes [0, 255]]⟩]⟩ := by
  decide +kernel

/-- `a. 1 NS` and the name of 256 octets of `c04_too_long` -/
def longNs : List UInt8 := ascii "a. 1 NS " ++ Name.tooLongText
def nsData : RData := ⟨.NS, [.name (Name.ofLabels [List.replicate 63 97, List.replicate 63 97, List.replicate 63 97, List.replicate 61 97 ++ [46]])]⟩

/-- a name of 256 octets is accepted from text, and no octets whatever are received as a message with that data -/
theorem c78_name_violated : RRset.from_strs hexExt .release [longNs] = .ok ⟨Name.ofLabels [[97]], .NS, .IN, 1, [nsData]⟩ ∧
    ∀ raw m, Response.from_wire raw = .ok m → ∀ t sets, m.section_ t = some sets → ∀ s ∈ sets, nsData ∉ s.rdatas := by
  refine ⟨by decide +kernel, fun raw m h t sets ht s hs hd => ?_⟩
  obtain ⟨cs, h1, h2⟩ := received_short raw m h t sets ht s hs _ hd
  simp only [nsData, schema, Option.some.injEq] at h1
  subst h1
  obtain ⟨ls, hv, he⟩ := h2.1
  have hl : (nameWire ls).length = 256 := by
    have := congrArg (fun n : Name => n.raw.length) he
    rw [Name.ofLabels_raw, Name.ofLabels_raw, ← nameWire_eq, ← nameWire_eq] at this
    rw [← this]; decide +kernel
  have := hv.2
  omega

/-! samples -/

/-- hexadecimal addresses of the right size -/
def sizedExt : Ext := { hexExt with
  parseV4 := fun s => (Hex.from_hex s).filter (·.length == 4)
  parseV6 := fun s => (Hex.from_hex s).filter (·.length == 16) }

theorem sizedExt_sized : sizedExt.Sized := by
  constructor <;> intro s o h <;> simp only [sizedExt, Option.filter_eq_some_iff, beq_iff_eq] at h <;> exact h.2

/-- a response with two groups that become one answer set, a delegation with its address, and EDNS -/
def builtAnswers : List (List (List UInt8)) := [[ascii "www.x. 300 IN A 01020304", ascii "www.x. 300 A 01020305"], [ascii "WWW.X. 60 IN A 01020306"]]
def builtAuthorities : List (List (List UInt8)) := [[ascii "x. 3600 IN NS ns.x."]]
def builtAdditionals : List (List (List UInt8)) := [[ascii "ns.x. 3600 IN A 0a000001"]]
def builtMsg : Response :=
  ⟨⟨7, 0x8100, .Query, .NoError, 1, 3, 1, 2⟩, ⟨Name.ofLabels [ascii "www", ascii "x"], .A, .IN⟩,
   some [⟨Name.ofLabels [ascii "www", ascii "x"], .A, .IN, 300, [⟨.A, [.ip [1, 2, 3, 4]]⟩, ⟨.A, [.ip [1, 2, 3, 5]]⟩, ⟨.A, [.ip [1, 2, 3, 6]]⟩]⟩],
   some [⟨Name.ofLabels [ascii "x"], .NS, .IN, 3600, [⟨.NS, [.name (Name.ofLabels [ascii "ns", ascii "x"])]⟩]⟩],
   some [⟨Name.ofLabels [ascii "ns", ascii "x"], .A, .IN, 3600, [⟨.A, [.ip [10, 0, 0, 1]]⟩]⟩, (Edns.mk 0 0 4096 false none).to_rrset]⟩

theorem c77_sample : Builder.build sizedExt .debug 7 (ascii "www.x.") .A builtAnswers builtAuthorities builtAdditionals (some 4096) = .ok builtMsg := by
  decide +kernel

/-- it meets the conditions of `c77_fits_partial` and goes out whole -/
example : builtMsg.FitsIn 512 ∧ (builtMsg.to_wire (Render.new (List.replicate 512 0))).1 = .ok 115 := by
  refine ⟨c77_fits_partial sizedExt sizedExt_sized .debug 7 (ascii "www.x.") .A builtAnswers builtAuthorities builtAdditionals (some 4096) _ c77_sample rfl
    (by decide) ?_ (by decide) (by decide) (by decide) 512 (by omega), by decide +kernel⟩
  have key : ∀ g ∈ builtAnswers ++ builtAuthorities ++ builtAdditionals, (∀ s ∈ g, PlainLine s) ∧
      (match RRset.from_strs sizedExt .debug g with | .ok r => r.typ != .OPT | _ => true) = true := by
    unfold PlainLine
    decide +kernel
  intro g hg
  refine ⟨(key g hg).1, fun r hr => ?_⟩
  have := (key g hg).2
  rw [hr] at this
  simpa using this

/-- it meets the conditions of `c77_total_partial`, and one bad line is enough to get nothing -/
example : (∀ g ∈ builtAnswers ++ builtAuthorities ++ builtAdditionals, g ≠ [] ∧ ∀ s ∈ g, (∀ c ∈ s, c.toNat < 0x80) ∧ (Build.debug = .release ∨ trim s ≠ [])) ∧
    Builder.build sizedExt .debug 7 (ascii "www.x.") .A builtAnswers ([ascii "x. 1 IN"] :: builtAuthorities) builtAdditionals (some 4096) = .err := by
  decide +kernel

/-- a UDP size beyond 16 bits is cut -/
theorem c77_udp_size_violated : ∃ m, Builder.build sizedExt .release 7 (ascii "x.") .A [] [] [] (some 65537) = .ok m ∧
    m.get_edns = .ok (some ⟨0, 0, 1, false, none⟩) := by
  refine ⟨⟨⟨7, 0x8100, .Query, .NoError, 1, 0, 0, 1⟩, ⟨Name.ofLabels [ascii "x"], .A, .IN⟩, none, none, some [(Edns.mk 0 0 1 false none).to_rrset]⟩, ?_, ?_⟩ <;>
    decide +kernel

/-- the TTL of a line that joins a set built before is lost (C48), without an error: the line `WWW.X. 60 IN A 01020306` says 60, and
its record is in the message with 300 -/
theorem c77_ttl_violated :
    Builder.build sizedExt .debug 7 (ascii "www.x.") .A builtAnswers builtAuthorities builtAdditionals (some 4096) = .ok builtMsg ∧
    [ascii "WWW.X. 60 IN A 01020306"] ∈ builtAnswers ∧
    RRset.from_strs sizedExt .debug [ascii "WWW.X. 60 IN A 01020306"] =
      .ok ⟨Name.ofLabels [ascii "WWW", ascii "X"], .A, .IN, 60, [⟨.A, [.ip [1, 2, 3, 6]]⟩]⟩ ∧
    (∀ r ∈ Section.records builtMsg.answer, r.ttl = 300) ∧
    ∃ r ∈ Section.records builtMsg.answer, r.rdatas = [⟨.A, [.ip [1, 2, 3, 6]]⟩] :=
  ⟨c77_sample, by decide +kernel, by decide +kernel, by decide +kernel, by decide +kernel⟩

end R53
