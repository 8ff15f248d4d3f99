import Verif.Model.Dump
import Verif.Spec.Dump
import Verif.Props.Present
import Verif.Proofs.TreeValues
/-!
# Printing a domain tree
-/
namespace R53
variable {T : Type}
open Dom

/-! ## the names of nodes are runs of labels -/

theorem run_of_name {a suf ls : List Label} (ha : a ≠ []) (hs : suf = [] ∨ ∃ k, suf = k ++ [[]]) (hv : ValidName ls) (e : a ++ suf = ls ++ [[]]) : IsRun a := by
  refine ⟨ha, ?_⟩
  rcases hs with rfl | ⟨k, rfl⟩
  · exact ⟨ls, hv, .inr (by simpa using e)⟩
  · rw [← List.append_assoc] at e
    have e := List.append_inj_left' e rfl
    refine ⟨a, ?_, .inl rfl⟩
    rw [← e] at hv
    exact hv.sublist (List.sublist_append_left a k)

theorem Tr.runs_of (t : Tr T) (suf : List Label) (hs : suf = [] ∨ ∃ k, suf = k ++ [[]]) (hg : Free.Good t)
    (hn : ∀ e ∈ t.nodes suf, e.addr ≠ 0 ∧ ∃ ls, ValidName ls ∧ e.name = ls ++ [[]]) : t.Runs := by
  induction t generalizing suf with
  | nil => trivial
  | node i l d r ihl ihd ihr =>
    obtain ⟨h0, hl, hr, -, hd⟩ := hg
    have h1 := hn (i.entry suf) (by simp [Tr.nodes])
    obtain ⟨ha, ls, hv, e⟩ := h1
    refine ⟨ha, run_of_name h0 hs hv e, ihl suf hs hl fun x hx => hn x (by simp [Tr.nodes, hx]), ihd (i.labels ++ suf) (.inr ⟨ls, e⟩) hd fun x hx => hn x (by simp [Tr.nodes, hx]),
      ihr suf hs hr fun x hx => hn x (by simp [Tr.nodes, hx])⟩

theorem Dom.Free.Inv.runs {m : Build} {s : Dom T} {t : Tr T} {δ : Nat} (h : Free.Inv m s t δ) : t.Runs :=
  t.runs_of [] (.inl rfl) h.ok.2 fun e he => ⟨h.addr_ne he, by
    obtain ⟨ls, hv, -, e⟩ := h.names e he
    exact ⟨ls, hv, e⟩⟩

/-! ## the text -/

theorem indent_eq (d : Nat) : Dom.indent d = blanks d := by unfold Dom.indent blanks; rw [Nat.mul_comm]

/-- a node knows on which side of its parent it is -/
def SideOf (s : Dom T) (par p : Ptr) (side : String) : Prop :=
  (par = 0 ∧ side = "") ∨ (par ≠ 0 ∧ ∃ n, s.heap par = some n ∧ ((n.left = p ∧ side = "left>") ∨ (n.left ≠ p ∧ n.right = p ∧ side = "right>") ∨
    (n.left ≠ p ∧ n.right ≠ p ∧ side = "")))

theorem side_text {s : Dom T} {par p : Ptr} {side : String} (h : SideOf s par p side) : s.dumpSide p par = .ok (ascii side) := by
  unfold Dom.dumpSide
  rcases h with ⟨rfl, rfl⟩ | ⟨h0, n, hn, h⟩
  · rw [if_pos rfl]; rfl
  · rw [if_neg h0]
    have : s.look par = .ok n := by unfold Dom.look; rw [hn]
    rw [this, Res.bind_ok, Res.pure_eq]
    rcases h with ⟨h1, rfl⟩ | ⟨h1, h2, rfl⟩ | ⟨h1, h2, rfl⟩
    · rw [if_pos h1]
    · rw [if_neg h1, if_pos h2]
    · rw [if_neg h1, if_neg h2]; rfl

/-- the addresses of a tree -/
def Tr.ads : Tr T → List Ptr
  | .nil => []
  | .node i l d r => l.ads ++ i.addr :: d.ads ++ r.ads

theorem Tr.ads_eq (t : Tr T) (suf : List Label) : addrs (t.nodes suf) = t.ads := by
  induction t generalizing suf with
  | nil => rfl
  | node i l d r ihl ihd ihr =>
    have h1 := ihl suf; have h2 := ihd (i.labels ++ suf); have h3 := ihr suf
    unfold addrs at *
    simp [Tr.nodes, Tr.ads, h1, h2, h3, Info.entry]

theorem Tr.ptr_mem {t : Tr T} (h : t.ptr ≠ 0) : t.ptr ∈ t.ads := by
  cases t with
  | nil => exact absurd rfl h
  | node i l d r => simp [Tr.ptr, Tr.ads]

theorem Tr.ptr_ne_of {a b : Tr T} (h : ∀ x ∈ a.ads, x ∉ b.ads) (hb : b.ptr ≠ 0) : a.ptr ≠ b.ptr := by
  intro e
  by_cases ha : a.ptr = 0
  · exact hb (by rw [← e, ha])
  · exact h _ (ptr_mem ha) (by rw [e]; exact ptr_mem hb)

theorem Tr.title_text {s : Dom T} {t : Tr T} {par : Ptr} {sub : Bool} (h : Layout s par sub t) (hr : t.Runs) (h0 : t.ptr ≠ 0) :
    ∃ n, s.look t.ptr = .ok n ∧ n.name.to_string = .ok t.title := by
  cases t with
  | nil => exact absurd rfl h0
  | node i l d r =>
    refine ⟨_, by unfold Dom.look; rw [show s.heap (Tr.node i l d r).ptr = _ from h.2.1], ?_⟩
    exact c80_text _ hr.2.1

theorem dump_helper_text {s : Dom T} (t : Tr T) (fuel depth : Nat) (par : Ptr) (sub : Bool) (side : String) (hf : t.size < fuel)
    (hl : Layout s par sub t) (hr : t.Runs) (hn : t.ads.Nodup) (hs : t.ptr ≠ 0 → SideOf s par t.ptr side) :
    s.dump_helper fuel t.ptr depth = .ok (t.drawn side sub depth) := by
  induction t generalizing fuel depth par sub side with
  | nil =>
    obtain ⟨f, rfl⟩ : ∃ f, fuel = f + 1 := ⟨fuel - 1, by omega⟩
    rw [show (Tr.nil : Tr T).ptr = 0 from rfl, Dom.dump_helper, if_pos rfl, indent_eq]; rfl
  | node i l d r ihl ihd ihr =>
    obtain ⟨f, rfl⟩ : ∃ f, fuel = f + 1 := ⟨fuel - 1, by omega⟩
    obtain ⟨h0, hh, hll, hld, hlr⟩ := hl
    obtain ⟨-, hrun, hrl, hrd, hrr⟩ := hr
    simp only [Tr.size] at hf
    simp only [Tr.ads, List.append_assoc, List.cons_append, List.nodup_append, List.nodup_cons, List.mem_append, List.mem_cons] at hn
    obtain ⟨nl, ⟨ni, nd, nr, ndr⟩, nlx⟩ := hn
    have hside := side_text (hs h0)
    have hlook : s.look i.addr = .ok ⟨mkFlag i.red sub i.cb i.wc, l.ptr, r.ptr, par, d.ptr, .ofLabels i.labels, i.value⟩ := by
      unfold Dom.look; rw [hh]
    have el := ihl f (depth + 1) i.addr false "left>" (by omega) hll hrl nl fun _ => .inr ⟨h0, _, hh, .inl ⟨rfl, rfl⟩⟩
    have er := ihr f (depth + 1) i.addr false "right>" (by omega) hlr hrr nr fun h' => .inr ⟨h0, _, hh, .inr (.inl
      ⟨Tr.ptr_ne_of (fun x hx hy => nlx x hx x (.inr (.inr hy)) rfl) h', rfl, rfl⟩)⟩
    have ed := ihd f (depth + 1) i.addr true "" (by omega) hld hrd nd fun h' => .inr ⟨h0, _, hh, .inr (.inr
      ⟨Tr.ptr_ne_of (fun x hx hy => nlx x hx x (.inr (.inl hy)) rfl) h', Tr.ptr_ne_of (fun x hx hy => ndr x hy x hx rfl) h', rfl⟩)⟩
    rw [show (Tr.node i l d r).ptr = i.addr from rfl, Dom.dump_helper, if_neg h0]
    simp only [Tr.ptr] at hside
    rw [hlook, Res.bind_ok]
    simp only [hside, c80_text _ hrun, Res.bind_ok, el, er, mkFlag_get_color, mkFlag_is_subtree_root, Res.pure_eq, indent_eq]
    have hd : ∀ X : List UInt8 → Res (List UInt8), ((if d.ptr = 0 then Res.ok [] else do
          let d_1 ← s.look d.ptr
          let dn ← d_1.name.to_string
          let t ← s.dump_helper f d.ptr (depth + 1)
          Res.ok (blanks (depth + 1) ++ ascii "begin down from " ++ dn ++ ascii "\n\n" ++ t ++ blanks (depth + 1) ++ ascii "end down from " ++ dn ++ ascii "\n")) >>= X) =
        X (if d.ptr = 0 then [] else
        blanks (depth + 1) ++ ascii "begin down from " ++ d.title ++ ascii "\n\n" ++ d.drawn "" true (depth + 1) ++
        blanks (depth + 1) ++ ascii "end down from " ++ d.title ++ ascii "\n") := by
      intro X
      by_cases h' : d.ptr = 0
      · rw [if_pos h', if_pos h', Res.bind_ok]
      · rw [if_neg h', if_neg h']
        obtain ⟨n, e1, e2⟩ := Tr.title_text hld hrd h'
        rw [e1, Res.bind_ok, e2, Res.bind_ok, ed, Res.bind_ok, Res.bind_ok]
    rw [hd]
    congr 1
    conv => rhs; rw [Tr.drawn]
    have c1 : ascii " (" ++ ((if i.red = true then Color.Red else Color.Black).debug ++ ascii ")") = ascii (if i.red = true then " (Red)" else " (Black)") := by
      cases i.red <;> decide +kernel
    have c2 : (if i.value.isNone = true then ascii "[invisible]" else []) = ascii (if i.value.isSome = true then "" else "[invisible]") := by
      cases i.value <;> rfl
    have c3 : (if sub = true then ascii " [subtreeroot]" else []) ++ ascii "\n" = ascii (if sub = true then " [subtreeroot]\n" else "\n") := by
      cases sub <;> decide +kernel
    simp only [← c1, ← c2, ← c3, List.append_assoc]

/-- the text of a tree -/
theorem dump_text {s : Dom T} {t : Tr T} (h : Represents s t) (hr : t.Runs) (hf : t.size ≤ s.next) (depth : Nat) :
    s.dump depth = .ok (blanks depth ++ ascii "tree has " ++ decimal s.len ++ ascii " node(s)\n" ++ t.drawn "" true depth) := by
  unfold Dom.dump
  have hn := h.nodup
  rw [Tr.ads_eq] at hn
  rw [h.root, dump_helper_text t (s.next + 1) depth 0 true "" (by omega) h.layout hr hn fun _ => .inl ⟨rfl, rfl⟩, Res.bind_ok, indent_eq]; rfl

/-! ## the tree can be told from its text -/

/-- a visible octet that is no blank -/
def Dark (c : UInt8) : Prop := 33 ≤ c ∧ c < 127

theorem dark_cut {a b x y : List UInt8} {u v : UInt8} (ha : ∀ c ∈ a, Dark c) (hb : ∀ c ∈ b, Dark c) (hu : ¬ Dark u) (hv : ¬ Dark v)
    (e : a ++ u :: x = b ++ v :: y) : a = b ∧ u = v ∧ x = y := by
  induction a generalizing b with
  | nil =>
    cases b with
    | nil => simpa using e
    | cons c b => simp only [List.nil_append, List.cons_append, List.cons.injEq] at e; rw [e.1] at hu; exact absurd (hb c (by simp)) hu
  | cons c a ih =>
    cases b with
    | nil => simp only [List.nil_append, List.cons_append, List.cons.injEq] at e; rw [← e.1] at hv; exact absurd (ha c (by simp)) hv
    | cons d b =>
      simp only [List.cons_append, List.cons.injEq] at e
      obtain ⟨h1, h2⟩ := ih (fun c hc => ha c (by simp [hc])) (fun c hc => hb c (by simp [hc])) e.2
      exact ⟨by rw [e.1, h1], h2⟩

theorem present_dark (l : Label) : ∀ c ∈ present l, Dark c := by
  intro c hc
  obtain ⟨o, -, ho⟩ := List.mem_flatMap.1 hc
  have : ∀ o : UInt8, ∀ c ∈ presentOctet o, Dark c := by unfold Dark; apply forall_u8'; decide +kernel
  exact this o c ho

theorem inter_dark (ls : List Label) : ∀ c ∈ joinDots (ls.map present), Dark c := by
  unfold joinDots
  split
  · intro c hc; rw [List.mem_singleton] at hc; subst hc; unfold Dark; decide
  · cases ls with
    | nil => intro c hc; simp [List.intercalate] at hc
    | cons l ls =>
      intro c hc
      rw [List.map_cons, LabelSequence.intercalate_cons, List.mem_append, List.mem_flatMap] at hc
      rcases hc with hc | ⟨k, hk, hc⟩
      · exact present_dark l c hc
      · obtain ⟨j, -, rfl⟩ := List.mem_map.1 hk
        rcases List.mem_cons.1 hc with rfl | hc
        · unfold Dark; decide
        · exact present_dark j c hc

theorem title_inj {a b : List Label} (ha : IsRun a) (hb : IsRun b) (e : joinDots (a.map present) = joinDots (b.map present)) : a = b := by
  have h1 := c80_text_rfc a ha
  rw [e, c80_text_rfc b hb] at h1
  exact (Option.some.inj h1).symm

theorem joinDots_ne {a : List Label} (h : IsRun a) : joinDots (a.map present) ≠ [] := by
  intro e
  have := c80_text_rfc a h
  rw [e] at this; simp [rfcLabels] at this

/-- where a node stands -/
def Side (side : String) : Prop := side = "" ∨ side = "left>" ∨ side = "right>"

theorem nul_cut {side : String} (hside : Side side) (sub : Bool) (depth : Nat) {i : Info T} {l d r : Tr T} {x y : List UInt8} :
    (Tr.nil : Tr T).drawn side sub depth ++ x ≠ (Tr.node i l d r).drawn side sub depth ++ y := by
  intro e
  rw [Tr.drawn, Tr.drawn] at e
  simp only [List.append_assoc] at e
  have e := List.append_cancel_left e
  rcases hside with rfl | rfl | rfl
  · obtain ⟨z, hz⟩ : ∃ z, ascii (if i.red = true then " (Red)" else " (Black)") = 32 :: z := by cases i.red <;> exact ⟨_, rfl⟩
    rw [show ascii "NULL\n" = [78, 85, 76, 76] ++ [10] from rfl, show ascii "" = [] from rfl, List.nil_append, hz] at e
    simp only [List.cons_append] at e
    have := dark_cut (a := [78, 85, 76, 76]) (u := 10) (v := 32) (by unfold Dark; decide) (inter_dark i.labels) (by unfold Dark; decide) (by unfold Dark; decide) e
    exact absurd this.2.1 (by decide)
  · rw [show ascii "NULL\n" = 78 :: [85, 76, 76, 10] from rfl, show ascii "left>" = 108 :: [101, 102, 116, 62] from rfl] at e
    simp at e
  · rw [show ascii "NULL\n" = 78 :: [85, 76, 76, 10] from rfl, show ascii "right>" = 114 :: [105, 103, 104, 116, 62] from rfl] at e
    simp at e

/-- a left neighbour does not begin like the level below -/
theorem left_begins (t : Tr T) (depth : Nat) (x y : List UInt8) : t.drawn "left>" false depth ++ x ≠ blanks depth ++ (ascii "begin down from " ++ y) := by
  intro e
  cases t with
  | nil =>
    rw [Tr.drawn, List.append_assoc] at e
    have e := List.append_cancel_left e
    rw [show ascii "NULL\n" = 78 :: [85, 76, 76, 10] from rfl, show ascii "begin down from " = 98 :: (ascii "begin down from ").tail from rfl] at e
    simp at e
  | node i l d r =>
    rw [Tr.drawn] at e
    simp only [List.append_assoc] at e
    have e := List.append_cancel_left e
    rw [show ascii "left>" = 108 :: [101, 102, 116, 62] from rfl, show ascii "begin down from " = 98 :: (ascii "begin down from ").tail from rfl] at e
    simp at e

/-- the texts of two trees, each with something behind -/
theorem drawn_cut (t k : Tr T) (side : String) (sub : Bool) (depth : Nat) (hside : Side side) (ht : t.Runs) (hk : k.Runs) (x y : List UInt8)
    (e : t.drawn side sub depth ++ x = k.drawn side sub depth ++ y) : t.sketch = k.sketch ∧ x = y := by
  induction t generalizing k side sub depth x y with
  | nil =>
    cases k with
    | nil => exact ⟨rfl, List.append_cancel_left e⟩
    | node j l d r => exact absurd e (nul_cut hside sub depth)
  | node i l d r ihl ihd ihr =>
    cases k with
    | nil => exact absurd e.symm (nul_cut hside sub depth)
    | node j l' d' r' =>
      obtain ⟨hi, h1, h2, h3, h4⟩ := ht
      obtain ⟨hj, k1, k2, k3, k4⟩ := hk
      rw [Tr.drawn, Tr.drawn] at e
      simp only [List.append_assoc] at e
      have e := List.append_cancel_left (List.append_cancel_left e)
      -- the name
      have col : ∀ b : Bool, ∃ z, ascii (if b = true then " (Red)" else " (Black)") = 32 :: z := by intro b; cases b <;> exact ⟨_, rfl⟩
      obtain ⟨z, hz⟩ := col i.red
      obtain ⟨z', hz'⟩ := col j.red
      have e1 := e
      rw [hz, hz', List.cons_append, List.cons_append] at e1
      have hname := (dark_cut (inter_dark i.labels) (inter_dark j.labels) (by unfold Dark; decide) (by unfold Dark; decide) e1).1
      rw [hname] at e
      have e := List.append_cancel_left e
      have hlab := title_inj h1 k1 hname
      -- the colour
      have hred : i.red = j.red := by
        cases hi : i.red <;> cases hj : j.red <;> rw [hi, hj] at e <;> first | rfl | (exfalso; simp [ascii] at e)
      rw [hred] at e
      have e := List.append_cancel_left e
      have hval : i.value.isSome = j.value.isSome := by
        cases hi : i.value.isSome <;> cases hj : j.value.isSome <;> rw [hi, hj] at e <;> first | rfl | (exfalso; cases sub <;> simp [ascii] at e)
      rw [hval] at e
      have e := List.append_cancel_left (List.append_cancel_left e)
      have hv : i.value.map (fun _ => ()) = j.value.map fun _ => () := by
        cases hi : i.value <;> cases hj : j.value <;> rw [hi, hj] at hval <;> first | rfl | cases hval
      -- the level below
      have hd : d.sketch = d'.sketch ∧ l.drawn "left>" false (depth + 1) ++ (r.drawn "right>" false (depth + 1) ++ x) =
          l'.drawn "left>" false (depth + 1) ++ (r'.drawn "right>" false (depth + 1) ++ y) := by
        cases d with
        | nil =>
          cases d' with
          | nil => simpa [Tr.ptr] using e
          | node j' a' b' c' =>
            have hz : (Tr.node j' a' b' c').ptr ≠ 0 := k3.1
            rw [if_pos (show (Tr.nil : Tr T).ptr = 0 from rfl), if_neg hz, List.nil_append] at e
            simp only [List.append_assoc] at e
            exact absurd e (left_begins _ _ _ _)
        | node i' a b c =>
          have hz : (Tr.node i' a b c).ptr ≠ 0 := h3.1
          cases d' with
          | nil =>
            rw [if_pos (show (Tr.nil : Tr T).ptr = 0 from rfl), if_neg hz, List.nil_append] at e
            simp only [List.append_assoc] at e
            exact absurd e.symm (left_begins _ _ _ _)
          | node j' a' b' c' =>
            have hz' : (Tr.node j' a' b' c').ptr ≠ 0 := k3.1
            rw [if_neg hz, if_neg hz'] at e
            simp only [List.append_assoc] at e
            have e := List.append_cancel_left (List.append_cancel_left e)
            have e1 := e
            rw [show ascii "\n\n" = 10 :: [10] from rfl, List.cons_append, List.cons_append] at e1
            have ht := (dark_cut (inter_dark i'.labels) (inter_dark j'.labels) (by unfold Dark; decide) (by unfold Dark; decide) e1).1
            have ht : (Tr.node i' a b c).title = (Tr.node j' a' b' c').title := ht
            rw [ht] at e
            have e := List.append_cancel_left (List.append_cancel_left e)
            obtain ⟨g1, g2⟩ := ihd _ "" true (depth + 1) (.inl rfl) h3 k3 _ _ e
            exact ⟨g1, List.append_cancel_left (List.append_cancel_left (List.append_cancel_left (List.append_cancel_left g2)))⟩
      obtain ⟨hd, e⟩ := hd
      obtain ⟨hl, e⟩ := ihl _ "left>" false (depth + 1) (.inr (.inl rfl)) h2 k2 _ _ e
      obtain ⟨hr, e⟩ := ihr _ "right>" false (depth + 1) (.inr (.inr rfl)) h4 k4 _ _ e
      exact ⟨by simp only [Tr.sketch, hl, hd, hr, hlab, hred, hv], e⟩

/-! ## chains, comparing nodes -/

theorem Tr.info_at {s : Dom T} {t : Tr T} {par : Ptr} {sub : Bool} (h : Layout s par sub t) (hr : t.Runs) :
    ∀ i ∈ t.infos, ∃ n, s.look i.addr = .ok n ∧ n.name = .ofLabels i.labels ∧ IsRun i.labels := by
  induction t generalizing par sub with
  | nil => intro i hi; cases hi
  | node j l d r ihl ihd ihr =>
    obtain ⟨-, hh, h1, h2, h3⟩ := h
    obtain ⟨-, k0, k1, k2, k3⟩ := hr
    intro i hi
    simp only [Tr.infos, List.mem_cons, List.mem_append] at hi
    rcases hi with rfl | (hi | hi) | hi
    · exact ⟨_, by unfold Dom.look; rw [hh], rfl, k0⟩
    · exact ihl h1 k1 i hi
    · exact ihd h2 k2 i hi
    · exact ihr h3 k3 i hi

/-- the chain of a search holds nodes of the tree -/
theorem findLoop_chain {P : Type} (m : Build) (s : Dom T) (cb : Option (Ptr → Name → P → Bool × P)) (A : List (Info T)) (fuel : Nat) :
    ∀ (t : Tr T) (par : Ptr) (sub : Bool) (slice : LabelSlice) (r : FindResult) (c : Dom.Chain) (p : P) (r' : FindResult) (c' : Dom.Chain) (p' : P),
    Layout s par sub t → (∀ i ∈ t.infos, i ∈ A) → (∃ L : List (Info T), c.nodes = L.map Info.addr ∧ ∀ i ∈ L, i ∈ A) →
    Dom.findLoop m s cb fuel t.ptr slice r c p = .ok (r', c', p') → ∃ L : List (Info T), c'.nodes = L.map Info.addr ∧ ∀ i ∈ L, i ∈ A := by
  induction fuel with
  | zero => intro t par sub slice r c p r' c' p' _ _ _ h; cases h
  | succ fuel ih =>
    intro t par sub slice r c p r' c' p' hl hA hc h
    cases t with
    | nil =>
      rw [show (Tr.nil : Tr T).ptr = 0 from rfl, Dom.findLoop, if_pos rfl] at h
      cases h; exact hc
    | node i l d rr =>
      obtain ⟨h0, hh, h1, h2, h3⟩ := hl
      rw [show (Tr.node i l d rr).ptr = i.addr from rfl, Dom.findLoop, if_neg h0] at h
      rw [show s.look i.addr = .ok _ by unfold Dom.look; rw [hh]] at h
      rw [Res.bind_ok] at h
      obtain ⟨cur, -, h⟩ := Res.bind_eq_ok.1 h
      obtain ⟨cmp, -, h⟩ := Res.bind_eq_ok.1 h
      have hi : i ∈ A := hA i (by simp [Tr.infos])
      have push : ∀ {c1 c2 : Dom.Chain}, (∃ L : List (Info T), c1.nodes = L.map Info.addr ∧ ∀ i ∈ L, i ∈ A) → c1.push i.addr = .ok c2 →
          ∃ L : List (Info T), c2.nodes = L.map Info.addr ∧ ∀ i ∈ L, i ∈ A := by
        intro c1 c2 ⟨L, e1, e2⟩ e
        unfold Dom.Chain.push at e
        obtain ⟨-, -, e⟩ := Res.bind_eq_ok.1 e
        cases e
        refine ⟨L ++ [i], by simp [e1], fun x hx => ?_⟩
        rcases List.mem_append.1 hx with hx | hx
        · exact e2 x hx
        · rw [List.mem_singleton] at hx; rw [hx]; exact hi
      cases hrel : cmp.relation <;> simp only [hrel] at h
      · cases h; exact hc
      · obtain ⟨⟨stop, p1⟩, -, h⟩ := Res.bind_eq_ok.1 h
        simp only at h
        split at h
        · cases h; exact hc
        · obtain ⟨c2, e2, h⟩ := Res.bind_eq_ok.1 h
          obtain ⟨sl, -, h⟩ := Res.bind_eq_ok.1 h
          exact ih d _ _ _ _ _ _ _ _ _ h2 (fun x hx => hA x (by simp [Tr.infos, hx])) (push (c1 := ⟨c.nodes, i.addr, cmp⟩) hc e2) h
      · obtain ⟨c2, e2, h⟩ := Res.bind_eq_ok.1 h
        cases h; exact push (c1 := ⟨c.nodes, i.addr, cmp⟩) hc e2
      · cases h; exact hc
      · split at h
        · exact ih l _ _ _ _ ⟨c.nodes, i.addr, cmp⟩ _ _ _ _ h1 (fun x hx => hA x (by simp [Tr.infos, hx])) hc h
        · exact ih rr _ _ _ _ ⟨c.nodes, i.addr, cmp⟩ _ _ _ _ h3 (fun x hx => hA x (by simp [Tr.infos, hx])) hc h

theorem chainText_eq {s : Dom T} (L : List (Info T)) (h : ∀ i ∈ L, ∃ n, s.look i.addr = .ok n ∧ n.name = .ofLabels i.labels ∧ IsRun i.labels) :
    s.chainText (L.map Info.addr) = .ok (L.flatMap fun i => joinDots (i.labels.map present) ++ ascii ",") := by
  induction L with
  | nil => rfl
  | cons i L ih =>
    obtain ⟨n, h1, h2, h3⟩ := h i (by simp)
    rw [List.map_cons, Dom.chainText, h1, Res.bind_ok, h2, c80_text _ h3, Res.bind_ok, ih fun x hx => h x (by simp [hx]), Res.bind_ok]
    simp

theorem Dom.Free.Inv.write {m : Build} {s : Dom T} {t : Tr T} {δ : Nat} (h : Free.Inv m s t δ) {e : Entry T} (he : e ∈ t.nodes []) {f : FindFlag} (hf : f ≠ .NotFound) (v : T) :
    WP (Dom.write ⟨e.addr, f⟩ v) s fun b s' => (b = e.value.isSome) ∧ ∃ t' R, Free.Inv m s' t' δ ∧ bag [] t = {e} + R ∧
      bag [] t' = {if e.value.isSome then { e with value := some v } else e} + R := by
  obtain ⟨rest, lc, i, l, d, r, hw, ht, rfl⟩ := h.place he
  subst ht
  unfold Dom.write
  refine WP.neg hf ?_
  have h0 := Z.focus hw
  refine WP.bind (h0.deref 0 rfl ?_)
  by_cases hv : i.value.isSome = true
  · refine WP.neg (show ¬ (i.value.isNone = true) by cases hi : i.value <;> simp [hi] at hv ⊢) ?_
    refine WP.bind (h0.upd 0 rfl _ fun s1 h1 => WP.pure ⟨hv.symm, ?_⟩)
    have hw' : W s1 (s.next, s.len) rest lc (.node { i with value := some v } l d r) := Z.unfocus (i := { i with value := some v }) h1
    obtain ⟨R, g1, g2, g3⟩ := Free.swap (m := m) (δ := δ) _ h.ok h.names h.len hw' rfl rfl
    refine ⟨_, R, g3, g1, ?_⟩
    rw [if_pos (show (i.entry (sufU rest)).value.isSome = true from hv), g2]; rfl
  · obtain ⟨R, g1, g2, g3⟩ := Free.swap (m := m) (δ := δ) i h.ok h.names h.len hw rfl rfl
    refine WP.pos (show i.value.isNone = true by cases hi : i.value <;> simp [hi] at hv ⊢) (WP.pure ⟨?_, _, R, h, g1, ?_⟩)
    · simpa [Info.entry] using hv
    · rw [if_neg (show ¬ (i.entry (sufU rest)).value.isSome = true from hv)]; exact g1

end R53
