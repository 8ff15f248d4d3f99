import Verif.Spec.NameText
import Verif.Proofs.NameCmp
/-!
# `Name::new` and `Display`
-/
namespace R53
namespace Name

/-- inside a label: `ls` complete, `cur` the octets so far -/
structure InLabel (s : Ft) (ls : List Label) (cur : Label) : Prop where
  valid : ∀ l ∈ ls, ValidLabel l
  data : s.data = wire ls ++ 0 :: cur
  offs : s.offsets = starts 0 ls ++ [(wire ls).length]
  small : (wire ls).length ≤ 255
  count : s.count = cur.length
  cur63 : cur.length ≤ 63
  done : s.done = false

/-- between labels -/
structure AtLabel (s : Ft) (ls : List Label) : Prop where
  valid : ∀ l ∈ ls, ValidLabel l
  data : s.data = wire ls
  offs : s.offsets = starts 0 ls ++ [(wire ls).length]
  small : (wire ls).length ≤ 255
  done : s.done = false

theorem setCount_inLabel {s : Ft} {ls : List Label} {cur : Label} (h : InLabel s ls cur) :
    setCount s = .ok { s with data := wire (ls ++ [cur]) } := by
  unfold setCount
  have ho : s.offsets.length = ls.length + 1 := by rw [h.offs]; simp
  rw [ho, csub_ok (by omega), Res.bind_ok]
  have hi : idx s.offsets (ls.length + 1 - 1) = .ok (wire ls).length := by
    apply idx_ok; rw [h.offs, List.getElem?_append_right (by simp)]; simp
  rw [hi, Res.bind_ok]
  have hd : idx s.data (wire ls).length = .ok 0 := by
    apply idx_ok; rw [h.data, List.getElem?_append_right (by simp)]; simp
  rw [hd, Res.bind_ok, h.data, h.count]
  simp only [Res.pure_eq, Res.ok.injEq, Ft.mk.injEq, and_true]
  simp

/-- the result of a successful parse -/
theorem inLabel_push {s : Ft} {ls : List Label} {cur : Label} (h : InLabel s ls cur) (c : UInt8) (st : FtStat)
    (h63 : cur.length + 1 ≤ 63) :
    InLabel { s with count := s.count + 1, data := s.data ++ [c], state := st } ls (cur ++ [c]) :=
  ⟨h.valid, by simp [h.data], h.offs, h.small, by simp [h.count], by simp; omega, h.done⟩

/-- `ftOrdinary` inside a label -/
theorem ftOrdinary_inLabel {s : Ft} {ls : List Label} {cur : Label} (h : InLabel s ls cur) (c : UInt8) (last : Bool)
    (hlen : s.data.length ≤ 255) :
    ftOrdinary c last s =
      if c = 46 then
        if cur = [] then .err
        else if last then .ok { s with data := wire (ls ++ [cur] ++ [[]]), offsets := starts 0 (ls ++ [cur] ++ [[]]), done := true }
        else .ok { s with data := wire (ls ++ [cur]), offsets := starts 0 (ls ++ [cur]) ++ [(wire (ls ++ [cur])).length], state := .Start }
      else if c = 92 then .ok { s with state := .Escape }
      else if cur.length + 1 ≤ 63 then .ok { s with count := s.count + 1, data := s.data ++ [c] }
      else .err := by
  unfold ftOrdinary
  by_cases hc : c = 46
  · simp only [if_pos hc]
    by_cases h0 : cur = []
    · rw [ensure_bind_err (by rw [h.count, h0]; simp), if_pos h0]
    · have hne : s.count ≠ 0 := by rw [h.count]; simpa using h0
      rw [ensure_bind_ok hne, setCount_inLabel h, Res.bind_ok, if_neg h0]
      have hw : (wire (ls ++ [cur])).length ≤ 255 := by
        have : s.data.length = (wire (ls ++ [cur])).length := by rw [h.data]; simp
        omega
      have hst : s.offsets = starts 0 (ls ++ [cur]) := by rw [h.offs, starts_append]; simp
      simp only [hst, Nat.mod_eq_of_lt (show (wire (ls ++ [cur])).length < 256 by omega)]
      cases last
      · rfl
      · simp only [if_true, Res.pure_eq, Res.ok.injEq, Ft.mk.injEq, and_true, true_and]
        constructor
        · rw [wire_append (ls ++ [cur])]; simp
        · rw [starts_append 0 (ls ++ [cur])]; simp
  · simp only [if_neg hc]
    by_cases h92 : c = 92
    · simp only [if_pos h92]; rfl
    · simp only [if_neg h92]
      by_cases h63 : cur.length + 1 ≤ 63
      · rw [ensure_bind_ok (by simp only [h.count, MAX_LABEL_LEN]; exact h63), if_pos h63]; rfl
      · rw [ensure_bind_err (by simp only [h.count, MAX_LABEL_LEN]; exact h63), if_neg h63]

/-! ## the general invariant, escapes included -/

/-- what can be said of the machine before each character -/
inductive Inv (s : Ft) : Prop
  | init : s = ⟨[], [0], 0, 0, 0, false, .Init⟩ → Inv s
  | start {ls : List Label} : s.state = .Start → ls ≠ [] → AtLabel s ls → Inv s
  | inside {ls : List Label} {cur : Label} : (s.state = .Ordinary ∨ s.state = .Escape ∨ s.state = .Escdecimal) → cur ≠ [] →
      InLabel s ls cur → Inv s

/-- a finished parse: an absolute name, of at most `bound` octets -/
def Done (s : Ft) (bound : Nat) : Prop :=
  s.done = true ∧ ∃ ls, (∀ l ∈ ls, ValidLabel l) ∧ s.data = nameWire ls ∧ s.offsets = starts 0 (ls ++ [[]]) ∧ s.data.length ≤ bound

theorem ordinary_inv {s : Ft} {ls : List Label} {cur : Label} (h : InLabel s ls cur) (hst : s.state = .Ordinary)
    (c : UInt8) (last : Bool) (hlen : s.data.length ≤ 255) :
    ftOrdinary c last s = .err ∨ ∃ s', ftOrdinary c last s = .ok s' ∧
      ((c = 46 ∧ last = true ∧ Done s' (s.data.length + 1)) ∨
       (c = 46 ∧ last = false ∧ s'.data.length = s.data.length ∧ Inv s' ∧ s'.done = false) ∨
       (c ≠ 46 ∧ s'.data.length ≤ s.data.length + 1 ∧ ((cur ≠ [] ∨ c ≠ 92) → Inv s') ∧ s'.done = false)) := by
  rw [ftOrdinary_inLabel h c last hlen]
  by_cases hc : c = 46
  · rw [if_pos hc]
    by_cases h0 : cur = []
    · rw [if_pos h0]; left; rfl
    · rw [if_neg h0]
      right
      have hvl : ∀ l ∈ ls ++ [cur], ValidLabel l := by
        intro l hl
        rcases List.mem_append.mp hl with h' | h'
        · exact h.valid l h'
        · simp only [List.mem_singleton] at h'; subst h'
          exact ⟨List.length_pos_iff.mpr h0, h.cur63⟩
      have hlen' : s.data.length = (wire (ls ++ [cur])).length := by rw [h.data]; simp
      cases last
      · refine ⟨_, if_neg (by simp), ?_⟩
        right; left
        refine ⟨hc, rfl, hlen'.symm, ?_, h.done⟩
        exact .start (ls := ls ++ [cur]) rfl (by simp) ⟨hvl, rfl, rfl, by omega, h.done⟩
      · refine ⟨_, if_pos rfl, ?_⟩
        left
        refine ⟨hc, rfl, rfl, ls ++ [cur], hvl, by rw [nameWire_eq], rfl, ?_⟩
        simp only
        rw [hlen', wire_append (ls ++ [cur])]
        simp; omega
  · rw [if_neg hc]
    by_cases h92 : c = 92
    · rw [if_pos h92]
      right
      refine ⟨_, rfl, ?_⟩
      right; right
      refine ⟨hc, by simp, ?_, h.done⟩
      intro hor
      have hcur : cur ≠ [] := hor.elim id (fun h' => absurd h92 h')
      exact .inside (ls := ls) (cur := cur) (Or.inr (Or.inl rfl)) hcur ⟨h.valid, h.data, h.offs, h.small, h.count, h.cur63, h.done⟩
    · rw [if_neg h92]
      by_cases h63 : cur.length + 1 ≤ 63
      · rw [if_pos h63]
        right
        refine ⟨_, rfl, ?_⟩
        right; right
        refine ⟨hc, by simp, ?_, h.done⟩
        intro _
        have := inLabel_push h c s.state h63
        exact .inside (ls := ls) (cur := cur ++ [c]) (Or.inl hst) (by simp) this
      · rw [if_neg h63]; left; rfl

/-- one character keeps the invariant, or ends with an error or a finished name; it adds at most two octets -/
theorem ftChar_inv {s : Ft} (h : Inv s) (c : UInt8) (last : Bool) (hlen : s.data.length < 255) :
    ftChar c last s = .err ∨ ∃ s', ftChar c last s = .ok s' ∧
      ((last = true ∧ Done s' (if s.state = .Escape then 256 else 255)) ∨ (s'.done = false ∧ Inv s')) := by
  have startCase : ∀ {ls : List Label} (s : Ft), AtLabel s ls → s.data.length < 255 →
      ftStart c last s = .err ∨ ∃ s', ftStart c last s = .ok s' ∧ s'.done = false ∧ Inv s' := by
    intro ls s h hlen
    unfold ftStart
    simp only
    by_cases h92 : c = 92
    · rw [if_pos h92]
      right
      subst h92
      unfold ftInitialescape ftEscape
      rw [ensure_bind_ok (by decide), if_pos (by decide)]
      simp only
      rw [ensure_bind_ok (by decide)]
      have hin : InLabel { s with data := s.data ++ [0] ++ [92], count := 1, state := .Ordinary } ls [92] :=
        ⟨h.valid, by simp [h.data], h.offs, h.small, rfl, by simp, h.done⟩
      have hl2 : (s.data ++ [0] ++ [92]).length ≤ 256 := by simp; omega
      have : ftOrdinary 92 last { s with data := s.data ++ [0] ++ [92], count := 1, state := .Ordinary } =
          .ok { s with data := s.data ++ [0] ++ [92], count := 1, state := .Escape } := by
        unfold ftOrdinary; rw [if_neg (by decide), if_pos rfl]; rfl
      simp only [Nat.zero_add]
      rw [this]
      refine ⟨_, rfl, h.done, ?_⟩
      exact .inside (ls := ls) (cur := [92]) (Or.inr (Or.inl rfl)) (by simp) ⟨h.valid, by simp [h.data], h.offs, h.small, rfl, by simp, h.done⟩
    · rw [if_neg h92]
      have hin : InLabel { s with data := s.data ++ [0], count := 0, state := .Ordinary } ls [] :=
        ⟨h.valid, by simp [h.data], h.offs, h.small, rfl, by simp, h.done⟩
      rcases ordinary_inv hin rfl c last (by simp; omega) with h' | ⟨s', h1, h2⟩
      · left; exact h'
      · right
        refine ⟨s', h1, ?_⟩
        rcases h2 with ⟨h3, _, _⟩ | ⟨h3, _, _⟩ | ⟨h3, h4, h5, h6⟩
        · rw [ftOrdinary_inLabel hin _ _ (by simp; omega), if_pos h3, if_pos rfl] at h1; simp at h1
        · rw [ftOrdinary_inLabel hin _ _ (by simp; omega), if_pos h3, if_pos rfl] at h1; simp at h1
        · exact ⟨h6, h5 (Or.inr h92)⟩
  cases h with
  | init h =>
    subst h
    simp only [ftChar, ftInit]
    by_cases h46 : c = 46
    · rw [if_pos h46]
      cases last
      · left; rfl
      · right
        refine ⟨_, rfl, Or.inl ⟨rfl, rfl, [], by simp, rfl, rfl, by simp⟩⟩
    · rw [if_neg h46]
      by_cases h64 : c = 64 ∧ last = true
      · rw [if_pos h64]
        right
        exact ⟨_, rfl, Or.inl ⟨h64.2, rfl, [], by simp, rfl, rfl, by simp⟩⟩
      · rw [if_neg h64]
        have := startCase (ls := []) ⟨[], [0], 0, 0, 0, false, .Start⟩ ⟨by simp, rfl, rfl, by simp, rfl⟩ (by simp)
        rcases this with h | ⟨s', h1, h2, h3⟩
        · left; exact h
        · right; exact ⟨s', h1, Or.inr ⟨h2, h3⟩⟩
  | start hst _ h =>
    simp only [ftChar, hst]
    rcases startCase s h hlen with h | ⟨s', h1, h2, h3⟩
    · left; exact h
    · right; exact ⟨s', h1, Or.inr ⟨h2, h3⟩⟩
  | @inside ls cur hst hne h =>
    rcases hst with hst | hst | hst
    · simp only [ftChar, hst]
      rcases ordinary_inv h hst c last (by omega) with h' | ⟨s', h1, h2⟩
      · left; exact h'
      · right
        refine ⟨s', h1, ?_⟩
        rcases h2 with ⟨_, h4, h5, h6⟩ | ⟨_, _, _, h5, h6⟩ | ⟨_, _, h5, h6⟩
        · left
          refine ⟨h4, h5, ?_⟩
          obtain ⟨ls', g1, g2, g3, g4⟩ := h6
          exact ⟨ls', g1, g2, g3, by simp; omega⟩
        · exact Or.inr ⟨h6, h5⟩
        · exact Or.inr ⟨h6, h5 (Or.inl hne)⟩
    · simp only [ftChar, hst, ftEscape]
      by_cases hd : isDigit c = false
      · rw [if_pos hd]
        by_cases h63 : cur.length + 1 ≤ 63
        · rw [ensure_bind_ok (by simp only [h.count, MAX_LABEL_LEN]; exact h63)]
          have hin := inLabel_push h c .Ordinary h63
          rcases ordinary_inv hin rfl c last (by simp; omega) with h' | ⟨s', h1, h2⟩
          · left; exact h'
          · right
            refine ⟨s', h1, ?_⟩
            rcases h2 with ⟨_, h4, h5, h6⟩ | ⟨_, _, _, h5, h6⟩ | ⟨_, _, h5, h6⟩
            · left
              refine ⟨h4, h5, ?_⟩
              obtain ⟨ls', g1, g2, g3, g4⟩ := h6
              refine ⟨ls', g1, g2, g3, ?_⟩
              simp at g4 ⊢; omega
            · exact Or.inr ⟨h6, h5⟩
            · exact Or.inr ⟨h6, h5 (Or.inl (by simp))⟩
        · rw [ensure_bind_err (by simp only [h.count, MAX_LABEL_LEN]; exact h63)]
          left; rfl
      · rw [if_neg hd]
        right
        refine ⟨{ s with digits := 1, value := c.toNat - 48, state := .Escdecimal }, ?_, Or.inr ⟨h.done, ?_⟩⟩
        · unfold ftEscdecimal
          rw [ensure_bind_ok (by simpa using hd)]
          simp
        · exact .inside (ls := ls) (cur := cur) (Or.inr (Or.inr rfl)) hne
            ⟨h.valid, h.data, h.offs, h.small, h.count, h.cur63, h.done⟩
    · simp only [ftChar, hst, ftEscdecimal]
      by_cases hd : isDigit c = true
      · rw [ensure_bind_ok hd]
        by_cases h3 : s.digits + 1 = 3
        · rw [if_pos h3]
          by_cases hv : s.value * 10 + (c.toNat - 48) ≤ 255
          · rw [ensure_bind_ok hv]
            by_cases h63 : cur.length + 1 ≤ 63
            · rw [ensure_bind_ok (by simp only [h.count, MAX_LABEL_LEN]; exact h63)]
              right
              refine ⟨_, rfl, Or.inr ⟨h.done, ?_⟩⟩
              exact .inside (ls := ls) (cur := cur ++ [c]) (Or.inl rfl) (by simp)
                ⟨h.valid, by simp [h.data], h.offs, h.small, by simp [h.count], by simp; omega, h.done⟩
            · rw [ensure_bind_err (by simp only [h.count, MAX_LABEL_LEN]; exact h63)]; left; rfl
          · rw [ensure_bind_err hv]; left; rfl
        · rw [if_neg h3]
          right
          refine ⟨_, rfl, Or.inr ⟨h.done, ?_⟩⟩
          exact .inside (ls := ls) (cur := cur) (Or.inr (Or.inr rfl)) hne
            ⟨h.valid, h.data, h.offs, h.small, h.count, h.cur63, h.done⟩
      · rw [ensure_bind_err hd]; left; rfl

theorem ftOrdinary_escape {c : UInt8} {last : Bool} {s s' : Ft} (h : ftOrdinary c last s = .ok s')
    (hs : s.state ≠ .Escape) (he : s'.state = .Escape) : c = 92 := by
  unfold ftOrdinary at h
  by_cases h46 : c = 46
  · rw [if_pos h46] at h
    simp only [Res.bind_eq_ok, setCount] at h
    obtain ⟨_, _, s1, ⟨k, _, o, _, x, _, h2⟩, h3⟩ := h
    simp only [Res.pure_eq, Res.ok.injEq] at h2
    subst h2
    cases last
    · simp at h3; subst h3; simp at he
    · simp at h3; subst h3; simp at he; exact absurd he hs
  · rw [if_neg h46] at h
    by_cases h92 : c = 92
    · exact h92
    · rw [if_neg h92] at h
      simp only [Res.bind_eq_ok, Res.pure_eq, Res.ok.injEq] at h
      obtain ⟨_, _, h⟩ := h
      subst h
      exact absurd he hs

/-- the escape state is only entered by reading a backslash -/
theorem ftChar_escape {c : UInt8} {last : Bool} {s s' : Ft} (h : ftChar c last s = .ok s') (he : s'.state = .Escape) :
    c = 92 := by
  have hdec : ∀ {t : Ft}, ftEscdecimal c t = .ok s' → t.state = .Escdecimal → c = 92 := by
    intro t h hst
    unfold ftEscdecimal at h
    simp only [Res.bind_eq_ok] at h
    obtain ⟨_, _, h⟩ := h
    split at h
    · simp only [Res.bind_eq_ok, Res.pure_eq, Res.ok.injEq] at h
      obtain ⟨_, _, _, _, h⟩ := h
      subst h; simp at he
    · simp only [Res.pure_eq, Res.ok.injEq] at h
      subst h; simp only [hst] at he; simp at he
  have hesc : ∀ {t : Ft}, ftEscape c last t = .ok s' → c = 92 := by
    intro t h
    unfold ftEscape at h
    split at h
    · simp only [Res.bind_eq_ok] at h
      obtain ⟨_, _, h⟩ := h
      exact ftOrdinary_escape h (by simp) he
    · exact hdec h rfl
  have hini : ∀ {t : Ft}, ftInitialescape c last t = .ok s' → c = 92 := by
    intro t h
    unfold ftInitialescape at h
    simp only [Res.bind_eq_ok] at h
    obtain ⟨_, _, h⟩ := h
    exact hesc h
  have hstart : ∀ {t : Ft}, ftStart c last t = .ok s' → c = 92 := by
    intro t h
    unfold ftStart at h
    simp only at h
    split at h
    · assumption
    · exact ftOrdinary_escape h (by simp) he
  unfold ftChar at h
  split at h
  · rename_i hst
    unfold ftInit at h
    split at h
    · split at h
      · simp only [Res.pure_eq, Res.ok.injEq] at h; subst h; simp [hst] at he
      · simp at h
    · split at h
      · simp only [Res.pure_eq, Res.ok.injEq] at h; subst h; simp [hst] at he
      · exact hstart h
  · exact hstart h
  · rename_i hst; exact ftOrdinary_escape h (by rw [hst]; simp) he
  · exact hini h
  · exact hesc h
  · rename_i hst; exact hdec h hst

/-- the whole parse of a name -/
theorem ftLoop_inv (text : List UInt8) (s : Ft) (h : Inv s) :
    ftLoop true text s = .err ∨ ∃ ls, ftLoop true text s = .ok (nameWire ls, starts 0 (ls ++ [[]])) ∧
      (∀ l ∈ ls, ValidLabel l) ∧ (nameWire ls).length ≤ 256 ∧
      ((nameWire ls).length = 256 → ∃ t, text = t ++ [46] ∧ (t = [] ∧ s.state = .Escape ∨ ∃ u, t = u ++ [92])) := by
  induction text generalizing s with
  | nil =>
    simp only [ftLoop, ftFinish]
    have hdone : s.done = false := by cases h with
      | init h => subst h; rfl
      | start _ _ h => exact h.done
      | inside _ _ h => exact h.done
    rw [if_neg (by simp [hdone])]
    by_cases hl : s.data.length < MAX_WIRE_LEN
    · rw [ensure_bind_ok hl, assertR_bind_ok (by trivial)]
      by_cases hst : s.state = .Ordinary
      · rw [ensure_bind_ok hst]
        cases h with
        | init h => subst h; simp at hst
        | start h' _ _ => rw [h'] at hst; simp at hst
        | @inside ls cur _ hne h =>
          have hc0 : s.count ≠ 0 := by rw [h.count]; simpa using hne
          rw [assertR_bind_ok hc0, setCount_inLabel h, Res.bind_ok, if_pos (by trivial)]
          right
          refine ⟨ls ++ [cur], ?_, ?_, ?_, ?_⟩
          · have hst' : s.offsets = starts 0 (ls ++ [cur]) := by rw [h.offs, starts_append]; simp
            have hw : s.data.length = (wire (ls ++ [cur])).length := by rw [h.data]; simp
            have : (wire (ls ++ [cur])).length < 256 := by simp only [MAX_WIRE_LEN] at hl; omega
            simp only [Res.pure_eq, Res.ok.injEq, Prod.mk.injEq]
            refine ⟨rfl, ?_⟩
            rw [hst', Nat.mod_eq_of_lt this, starts_append 0 (ls ++ [cur])]; simp
          · intro l hl
            rcases List.mem_append.mp hl with h' | h'
            · exact h.valid l h'
            · simp only [List.mem_singleton] at h'; subst h'
              exact ⟨List.length_pos_iff.mpr hne, h.cur63⟩
          · have hw : s.data.length = (wire (ls ++ [cur])).length := by rw [h.data]; simp
            simp only [nameWire, MAX_WIRE_LEN] at hl ⊢
            rw [List.length_append]; simp only [List.length_singleton]; omega
          · have hw : s.data.length = (wire (ls ++ [cur])).length := by rw [h.data]; simp
            intro h256
            simp only [nameWire] at h256
            rw [List.length_append] at h256
            simp only [List.length_singleton, MAX_WIRE_LEN] at h256 hl
            omega
      · rw [ensure_bind_err hst]; left; rfl
    · rw [ensure_bind_err hl]; left; rfl
  | cons c rest ih =>
    simp only [ftLoop]
    have hdone : s.done = false := by cases h with
      | init h => subst h; rfl
      | start _ _ h => exact h.done
      | inside _ _ h => exact h.done
    by_cases hl : s.data.length ≥ MAX_WIRE_LEN
    · rw [if_pos hl]
      left
      simp only [ftFinish, hdone, Bool.false_eq_true, if_false]
      rw [ensure_bind_err (by omega)]
    · rw [if_neg hl]
      rcases ftChar_inv h c rest.isEmpty (by simp only [MAX_WIRE_LEN] at hl; omega) with h' | ⟨s', h1, h2⟩
      · rw [h']; left; rfl
      · rw [h1, Res.bind_ok]
        rcases h2 with ⟨hlast, hd, ls, g1, g2, g3, g4⟩ | ⟨hd, hi⟩
        · rw [if_pos hd]
          simp only [ftFinish, hd, if_true]
          right
          refine ⟨ls, by rw [g2, g3]; rfl, g1, ?_, ?_⟩
          · rw [← g2]; split at g4 <;> omega
          · intro h256
            have hrest : rest = [] := by simpa using hlast
            subst hrest
            rw [g2] at g4
            have hesc : s.state = .Escape := by
              by_cases he : s.state = .Escape
              · exact he
              · rw [if_neg he] at g4; omega
            refine ⟨[], ?_, Or.inl ⟨rfl, hesc⟩⟩
            -- only a dot can finish
            by_cases hc : c = 46
            · rw [hc]; rfl
            · exfalso
              cases h with
              | init h => subst h; simp at hesc
              | start h' _ _ => rw [h'] at hesc; simp at hesc
              | @inside ls' cur _ hne hin =>
                simp only [ftChar, hesc, ftEscape] at h1
                by_cases hdg : isDigit c = false
                · rw [if_pos hdg] at h1
                  by_cases h63 : cur.length + 1 ≤ 63
                  · rw [ensure_bind_ok (by simp only [hin.count, MAX_LABEL_LEN]; exact h63)] at h1
                    have hin' := inLabel_push hin c .Ordinary h63
                    have := ordinary_inv hin' rfl c true (by simp only [MAX_WIRE_LEN] at hl; simp; omega)
                    simp only [List.isEmpty_nil] at h1
                    rw [h1] at this
                    rcases this with h'' | ⟨s'', e1, e2⟩
                    · simp at h''
                    · simp only [Res.ok.injEq] at e1; subst e1
                      rcases e2 with ⟨e3, _⟩ | ⟨e3, _⟩ | ⟨_, _, _, e3⟩
                      · exact hc e3
                      · exact hc e3
                      · rw [hd] at e3; simp at e3
                  · rw [ensure_bind_err (by simp only [hin.count, MAX_LABEL_LEN]; exact h63)] at h1; simp at h1
                · rw [if_neg hdg] at h1
                  unfold ftEscdecimal at h1
                  rw [ensure_bind_ok (by simpa using hdg)] at h1
                  simp at h1
                  rw [← h1] at hd
                  simp [hin.done] at hd
        · rw [if_neg (by simp [hd])]
          rcases ih s' hi with h' | ⟨ls, e1, e2, e3, e4⟩
          · left; exact h'
          · right
            refine ⟨ls, e1, e2, e3, ?_⟩
            intro h256
            obtain ⟨t, ht, hor⟩ := e4 h256
            refine ⟨c :: t, by rw [ht]; rfl, Or.inr ?_⟩
            rcases hor with ⟨rfl, hesc⟩ | ⟨u, rfl⟩
            · -- the state became Escape by reading a backslash
              refine ⟨[], ?_⟩
              by_cases h92 : c = 92
              · rw [h92]; rfl
              · exfalso
                exact h92 (ftChar_escape h1 hesc)
            · exact ⟨c :: u, rfl⟩

end Name
end R53
