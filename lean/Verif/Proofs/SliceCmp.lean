import Verif.Spec.Slice
import Verif.Proofs.NameOrder
import Verif.Proofs.SeqText
/-!
# `LabelSlice::compare` with and without regard to case
-/
namespace R53
namespace LabelSlice

def diffF (m : Build) (cs : Bool) : Label → Label → Res (Option Int)
  | a :: as, b :: bs => do
    let d ← subI8 m (asI8 (foldByte cs a)) (asI8 (foldByte cs b))
    if d ≠ 0 then pure (some d) else diffF m cs as bs
  | _, _ => .ok none

theorem foldByte_model (cs : Bool) (c : UInt8) : (if cs = true then c else lower_case c) = foldByte cs c := by
  unfold foldByte; rw [lower_case_eq]

theorem cmpBytes_fold (m : Build) (cs : Bool) (d1 d2 : List UInt8) (x y r1 r2 : List UInt8) (p1 p2 : Nat)
    (h1 : d1.drop p1 = x ++ r1) (h2 : d2.drop p2 = y ++ r2) :
    cmpBytes m cs d1 d2 (min x.length y.length) p1 p2 = diffF m cs x y := by
  induction x generalizing y p1 p2 with
  | nil => simp [cmpBytes, diffF]
  | cons a x ih =>
    cases y with
    | nil => simp [cmpBytes, diffF]
    | cons b y =>
      obtain ⟨i1, j1⟩ := drop_cons_idx (List.cons_append ▸ h1)
      obtain ⟨i2, j2⟩ := drop_cons_idx (List.cons_append ▸ h2)
      simp only [List.length_cons, Nat.succ_min_succ, cmpBytes, i1, i2, Res.bind_ok, diffF, foldByte_model]
      congr 1; funext d
      rw [ih y (p1 + 1) (p2 + 1) j1 j2]

def relF (m : Build) (cs : Bool) : List Label → List Label → Nat → Res NameComparisonResult
  | a :: as, b :: bs, n => do
    match ← diffF m cs a b with
    | some d => pure (mismatch d n)
    | none =>
      if (a.length : Int) - (b.length : Int) ≠ 0 then pure (mismatch (truncI8 ((a.length : Int) - (b.length : Int))) n)
      else relF m cs as bs (n + 1)
  | as, bs, n =>
    .ok ⟨truncI8 ((as.length : Int) - (bs.length : Int)), n % 256,
      if (as.length : Int) - (bs.length : Int) < 0 then .SuperDomain
      else if (as.length : Int) - (bs.length : Int) > 0 then .SubDomain else .Equal⟩

theorem cmpLoop_fold (m : Build) (cs : Bool) {s o : LabelSlice} {pre ls post pre' ls' post' : List Label}
    (v : View s pre ls post) (v' : View o pre' ls' post') (ldiff : Int) (l l1 l2 n : Nat)
    (hl : l = min l1 l2) (h1 : l1 ≤ ls.length) (h2 : l2 ≤ ls'.length) (hd : ldiff = (l1 : Int) - (l2 : Int)) :
    cmpLoop m cs s o ldiff l l1 l2 n = relF m cs (ls.take l1).reverse (ls'.take l2).reverse n := by
  induction l generalizing l1 l2 n with
  | zero =>
    have : l1 = 0 ∨ l2 = 0 := by omega
    rcases this with rfl | rfl
    · simp only [List.take_zero, List.reverse_nil, cmpLoop]
      have hlen : (ls'.take l2).reverse.length = l2 := by simp; omega
      subst hd
      simp only [relF, hlen, List.length_nil]
    · have hlen : (ls.take l1).reverse.length = l1 := by simp; omega
      simp only [List.take_zero, List.reverse_nil, cmpLoop]
      subst hd
      cases hx : (ls.take l1).reverse with
      | nil => rw [hx] at hlen; subst hlen; rfl
      | cons a as => rw [hx] at hlen; rw [← hlen]; rfl
  | succ l ih =>
    obtain ⟨k1, rfl⟩ : ∃ k, l1 = k + 1 := ⟨l1 - 1, by omega⟩
    obtain ⟨k2, rfl⟩ : ∃ k, l2 = k + 1 := ⟨l2 - 1, by omega⟩
    obtain ⟨pos1, r1, a1, b1, c1⟩ := v.label k1 (by omega)
    obtain ⟨pos2, r2, a2, b2, c2⟩ := v'.label k2 (by omega)
    have hm1 : ls[k1].length ≤ 63 := v.len63 _ (by simp)
    have hm2 : ls'[k2].length ≤ 63 := v'.len63 _ (by simp)
    rw [take_reverse_succ ls k1 (by omega), take_reverse_succ ls' k2 (by omega)]
    simp only [cmpLoop, relF]
    rw [csub_ok (by omega), csub_ok (by omega)]
    simp only [Res.bind_ok, Nat.add_sub_cancel, a1, a2, b1, b2, u8_len hm1, u8_len hm2]
    rw [cmpBytes_fold m cs s.data o.data ls[k1] ls'[k2] r1 r2 (pos1 + 1) (pos2 + 1) c1 c2]
    congr 1; funext r
    cases r with
    | some d => rfl
    | none =>
      simp only
      rw [ih k1 k2 (n + 1) (by omega) (by omega) (by omega) (by omega)]

theorem compare_fold (m : Build) (cs : Bool) {s o : LabelSlice} {pre ls post pre' ls' post' : List Label}
    (v : View s pre ls post) (v' : View o pre' ls' post') :
    compare m s o cs = relF m cs ls.reverse ls'.reverse 0 := by
  unfold compare
  rw [v.count, v'.count]
  simp only [Res.bind_ok]
  rw [cmpLoop_fold m cs v v' _ _ _ _ _ rfl (Nat.le_refl _) (Nat.le_refl _) rfl]
  simp

/-- do the labels agree as far as both go? -/
def prefixF (cs : Bool) : Label → Label → Bool
  | a :: as, b :: bs => foldByte cs a == foldByte cs b && prefixF cs as bs
  | _, _ => true

theorem prefixF_iff (cs : Bool) (a b : Label) (h : a.length = b.length) : prefixF cs a b = true ↔ a.map (foldByte cs) = b.map (foldByte cs) := by
  induction a generalizing b with
  | nil => cases b with
    | nil => simp [prefixF]
    | cons => simp at h
  | cons x a ih =>
    cases b with
    | nil => simp at h
    | cons y b => simp [prefixF, ih b (by simpa using h)]

theorem diffF_release (cs : Bool) (a b : Label) : ∃ o, diffF .release cs a b = .ok o ∧
    (match o with | none => prefixF cs a b = true | some d => d ≠ 0 ∧ prefixF cs a b = false) := by
  induction a generalizing b with
  | nil => exact ⟨none, by simp [diffF, prefixF]⟩
  | cons x a ih =>
    cases b with
    | nil => exact ⟨none, by simp [diffF, prefixF]⟩
    | cons y b =>
      obtain ⟨d, hd, hz⟩ := subI8_release (foldByte cs x) (foldByte cs y)
      simp only [diffF, hd, Res.bind_ok]
      by_cases h0 : d = 0
      · rw [if_neg (by simpa using h0)]
        obtain ⟨o, ho, hp⟩ := ih b
        refine ⟨o, ho, ?_⟩
        have := hz.mp h0
        cases o <;> simp_all [prefixF]
      · rw [if_pos h0]
        refine ⟨some d, rfl, h0, ?_⟩
        have : ¬ foldByte cs x = foldByte cs y := fun h => h0 (hz.mpr h)
        simp [prefixF, this]

theorem diffF_debug (cs : Bool) (a b : Label) : diffF .debug cs a b = .panic ∨ diffF .debug cs a b = diffF .release cs a b := by
  induction a generalizing b with
  | nil => right; rfl
  | cons x a ih =>
    cases b with
    | nil => right; rfl
    | cons y b =>
      simp only [diffF]
      rcases subI8_debug (foldByte cs x) (foldByte cs y) with h | h
      · left; rw [h]; rfl
      · rw [h]
        obtain ⟨d, hd, hz⟩ := subI8_release (foldByte cs x) (foldByte cs y)
        rw [hd]
        simp only [Res.bind_ok]
        by_cases h0 : d = 0
        · simp only [h0, ne_eq, not_true_eq_false, if_false]; exact ih b
        · right; simp only [ne_eq, h0, not_false_eq_true, if_true]

theorem foldByte_lt128 (cs : Bool) (c : UInt8) (h : c.toNat < 128) : (foldByte cs c).toNat < 128 := by
  unfold foldByte
  split
  · exact h
  · exact lowerByte_lt128 c h

theorem diffF_ascii (m : Build) (cs : Bool) (a b : Label) (ha : AsciiLabel a) (hb : AsciiLabel b) :
    ∃ o, diffF m cs a b = .ok o ∧
    (match o with
     | none => prefixF cs a b = true ∧ octetOrder cs a b = Ord.compare a.length b.length
     | some d => prefixF cs a b = false ∧ (d < 0 ∧ octetOrder cs a b = .lt ∨ 0 < d ∧ octetOrder cs a b = .gt)) := by
  induction a generalizing b with
  | nil =>
    refine ⟨none, by simp [diffF], ?_⟩
    cases b with
    | nil => simp [prefixF, octetOrder]
    | cons y b =>
      simp only [prefixF, octetOrder, List.length_nil, List.length_cons, true_and]
      exact (Nat.compare_eq_lt.mpr (by omega)).symm
  | cons x a ih =>
    cases b with
    | nil =>
      refine ⟨none, by simp [diffF], ?_⟩
      simp only [prefixF, octetOrder, List.length_nil, List.length_cons, true_and]
      exact (Nat.compare_eq_gt.mpr (by omega)).symm
    | cons y b =>
      have hx := foldByte_lt128 cs x (ha x (by simp))
      have hy := foldByte_lt128 cs y (hb y (by simp))
      simp only [diffF]
      rw [subI8_ascii m _ _ hx hy]
      simp only [Res.bind_ok]
      by_cases h0 : (foldByte cs x).toNat = (foldByte cs y).toNat
      · have h0' := UInt8.toNat_inj.mp h0
        rw [if_neg (by omega)]
        obtain ⟨o, ho, hp⟩ := ih b (fun c hc => ha c (by simp [hc])) (fun c hc => hb c (by simp [hc]))
        refine ⟨o, ho, ?_⟩
        have e : Ord.compare (foldByte cs x).toNat (foldByte cs y).toNat = .eq := Nat.compare_eq_eq.mpr h0
        cases o with
        | none =>
          simp only at hp ⊢
          simp only [prefixF, h0', octetOrder, List.length_cons]
          rw [Nat.compare_eq_eq.mpr rfl, hp.1, hp.2]
          simp only [Ordering.eq_then, BEq.rfl, Bool.and_self, true_and]
          rw [Nat.compare_eq_ite_lt, Nat.compare_eq_ite_lt]
          simp
        | some d =>
          simp only at hp ⊢
          simp only [prefixF, h0', octetOrder]
          rw [Nat.compare_eq_eq.mpr rfl, hp.1]
          simpa using hp.2
      · rw [if_pos (by omega)]
        refine ⟨_, rfl, ?_⟩
        have h0' : foldByte cs x ≠ foldByte cs y := fun h => h0 (by rw [h])
        simp only [prefixF, octetOrder, beq_eq_false_iff_ne.mpr h0', Bool.false_and, true_and]
        rcases Nat.lt_or_gt_of_ne h0 with h | h
        · left; refine ⟨by omega, ?_⟩; rw [Nat.compare_eq_lt.mpr h]; rfl
        · right; refine ⟨by omega, ?_⟩; rw [Nat.compare_eq_gt.mpr h]; rfl

theorem commonFold_le (cs : Bool) (a b : List Label) : commonFold cs a b ≤ a.length ∧ commonFold cs a b ≤ b.length := by
  induction a generalizing b with
  | nil => simp [commonFold]
  | cons x a ih =>
    cases b with
    | nil => simp [commonFold]
    | cons y b =>
      have := ih b
      simp only [commonFold]; split <;> simp <;> omega

theorem relF_release (cs : Bool) (as bs : List Label) (n : Nat) (hla : as.length ≤ 128) (hlb : bs.length ≤ 128)
    (hne : as ≠ [] ∧ bs ≠ [] ∨ (as.length : Int) - bs.length ≤ 127 ∧ (bs.length : Int) - as.length ≤ 127)
    (h63a : ∀ l ∈ as, l.length ≤ 63) (h63b : ∀ l ∈ bs, l.length ≤ 63) :
    ∃ r, relF .release cs as bs n = .ok r ∧ r.common_label_count = (n + commonFold cs as bs) % 256 ∧
      r.relation = (if as.length = commonFold cs as bs ∨ bs.length = commonFold cs as bs
        then relationOf (commonFold cs as bs) as.length bs.length
        else if n + commonFold cs as bs = 0 then .None else .CommonAncestor) ∧
      (r.order = 0 ↔ foldLabels cs as = foldLabels cs bs) := by
  induction as generalizing bs n with
  | nil =>
    refine ⟨_, rfl, ?_⟩
    simp only [commonFold, Nat.add_zero, List.length_nil, true_or, if_true, relationOf, true_and]
    rw [truncI8_small _ (by simp only [List.length_nil] at hne; omega)]
    cases bs with
    | nil => simp [foldLabels]
    | cons y bs => simp [foldLabels]; omega
  | cons x as ih =>
    cases bs with
    | nil =>
      refine ⟨_, rfl, ?_⟩
      simp only [commonFold, Nat.add_zero, List.length_nil, or_true, if_true, relationOf, true_and]
      rw [truncI8_small _ (by simp only [List.length_nil, List.length_cons] at hne ⊢; simp at hne; omega)]
      simp [foldLabels]; omega
    | cons y bs =>
      obtain ⟨o, ho, hp⟩ := diffF_release cs x y
      have hx := h63a x (by simp)
      have hy := h63b y (by simp)
      simp only [relF, ho, Res.bind_ok]
      cases o with
      | some d =>
        simp only at hp
        have hxy : x.map (foldByte cs) ≠ y.map (foldByte cs) := by
          intro h
          have hl : x.length = y.length := by have := congrArg List.length h; simpa using this
          have := (prefixF_iff cs x y hl).mpr h
          simp [this] at hp
        refine ⟨_, rfl, ?_⟩
        simp [mismatch, commonFold, hxy, foldLabels, hp.1]
      | none =>
        simp only at hp
        by_cases hl : x.length = y.length
        · rw [if_neg (by omega)]
          have hxy := (prefixF_iff cs x y hl).mp hp
          obtain ⟨r, hr, h1, h2, h3⟩ := ih bs (n + 1) (by simp at hla; omega) (by simp at hlb; omega)
            (by simp at hla hlb hne ⊢; omega)
            (fun l hl => h63a l (by simp [hl])) (fun l hl => h63b l (by simp [hl]))
          refine ⟨r, hr, ?_, ?_, ?_⟩
          · rw [h1]; simp only [commonFold, if_pos hxy]; congr 1; omega
          · rw [h2]
            have hc := commonFold_le cs as bs
            simp only [commonFold, if_pos hxy, List.length_cons, Nat.add_right_cancel_iff]
            by_cases hcc : as.length = commonFold cs as bs ∨ bs.length = commonFold cs as bs
            · rw [if_pos hcc, if_pos hcc]
              simp only [relationOf, Nat.add_right_cancel_iff]
              rcases hcc with h | h <;> simp [← h]
            · rw [if_neg hcc, if_neg hcc]
              congr 1; simp
          · rw [h3]; simp [foldLabels, hxy]
        · rw [if_pos (by omega)]
          have hxy : x.map (foldByte cs) ≠ y.map (foldByte cs) := by
            intro h; have := congrArg List.length h; simp at this; exact hl this
          refine ⟨_, rfl, ?_⟩
          simp only [mismatch, commonFold, if_neg hxy]
          rw [truncI8_small _ (by omega)]
          simp [foldLabels, hxy]; omega

theorem relF_debug (cs : Bool) (as bs : List Label) (n : Nat) :
    relF .debug cs as bs n = .panic ∨ relF .debug cs as bs n = relF .release cs as bs n := by
  induction as generalizing bs n with
  | nil => right; simp only [relF]
  | cons x as ih =>
    cases bs with
    | nil => right; simp only [relF]
    | cons y bs =>
      simp only [relF]
      rcases diffF_debug cs x y with h | h
      · left; rw [h]; rfl
      · rw [h]
        obtain ⟨o, ho, hp⟩ := diffF_release cs x y
        rw [ho]
        simp only [Res.bind_ok]
        cases o with
        | some d => right; rfl
        | none =>
          simp only
          split
          · right; rfl
          · exact ih bs (n + 1)

theorem relF_ascii (m : Build) (cs : Bool) (as bs : List Label) (n : Nat) (hla : as.length ≤ 128) (hlb : bs.length ≤ 128)
    (hne : as ≠ [] ∧ bs ≠ [] ∨ (as.length : Int) - bs.length ≤ 127 ∧ (bs.length : Int) - as.length ≤ 127)
    (h63a : ∀ l ∈ as, l.length ≤ 63) (h63b : ∀ l ∈ bs, l.length ≤ 63)
    (haa : ∀ l ∈ as, AsciiLabel l) (hab : ∀ l ∈ bs, AsciiLabel l) :
    relF m cs as bs n = relF .release cs as bs n ∧
    ∃ r, relF m cs as bs n = .ok r ∧
      (r.order < 0 ∧ labelsOrder cs as bs = .lt ∨ r.order = 0 ∧ labelsOrder cs as bs = .eq ∨
       0 < r.order ∧ labelsOrder cs as bs = .gt) := by
  induction as generalizing bs n with
  | nil =>
    refine ⟨by simp only [relF], _, rfl, ?_⟩
    simp only
    rw [truncI8_small _ (by simp only [List.length_nil] at hne ⊢; simp at hne; omega)]
    cases bs with
    | nil => right; left; simp [labelsOrder]
    | cons y bs => left; simp [labelsOrder]
  | cons x as ih =>
    cases bs with
    | nil =>
      refine ⟨by simp only [relF], _, rfl, ?_⟩
      simp only
      rw [truncI8_small _ (by simp only [List.length_nil, List.length_cons] at hne ⊢; simp at hne; omega)]
      right; right; simp [labelsOrder]
    | cons y bs =>
      have hx := h63a x (by simp)
      have hy := h63b y (by simp)
      obtain ⟨o, ho, hp⟩ := diffF_ascii m cs x y (haa x (by simp)) (hab y (by simp))
      obtain ⟨o', ho', _⟩ := diffF_release cs x y
      have heq : diffF m cs x y = diffF .release cs x y := by
        cases m with
        | release => rfl
        | debug =>
          rcases diffF_debug cs x y with h | h
          · rw [ho] at h; simp at h
          · exact h
      simp only [relF]
      rw [← heq, ho]
      simp only [Res.bind_ok]
      cases o with
      | some d =>
        simp only at hp ⊢
        refine ⟨trivial, _, rfl, ?_⟩
        simp only [mismatch, labelsOrder]
        rcases hp.2 with ⟨h1, h2⟩ | ⟨h1, h2⟩
        · left; rw [h2]; exact ⟨h1, rfl⟩
        · right; right; rw [h2]; exact ⟨h1, rfl⟩
      | none =>
        simp only at hp ⊢
        by_cases hl : x.length = y.length
        · rw [if_neg (by omega), if_neg (by omega)]
          have := ih bs (n + 1) (by simp at hla; omega) (by simp at hlb; omega)
            (by simp at hla hlb hne ⊢; omega)
            (fun l hl => h63a l (by simp [hl])) (fun l hl => h63b l (by simp [hl]))
            (fun l hl => haa l (by simp [hl])) (fun l hl => hab l (by simp [hl]))
          simp only [labelsOrder, hp.2, Nat.compare_eq_eq.mpr hl, Ordering.eq_then]
          exact this
        · rw [if_pos (by omega), if_pos (by omega)]
          refine ⟨rfl, _, rfl, ?_⟩
          simp only [mismatch, labelsOrder, hp.2]
          rw [truncI8_small _ (by omega)]
          rcases Nat.lt_or_gt_of_ne hl with h | h
          · left; rw [Nat.compare_eq_lt.mpr h]; exact ⟨by omega, rfl⟩
          · right; right; rw [Nat.compare_eq_gt.mpr h]; exact ⟨by omega, rfl⟩

/-! ### views -/

theorem View.bytes {s : LabelSlice} {pre ls post : List Label} (v : View s pre ls post) (hw : (wire (pre ++ ls ++ post)).length ≤ 255) :
    s.len = .ok (wire ls).length ∧ s.bytes = .ok (wire ls) := by
  have h0 := v.nonempty
  have hl0 : 0 < ls.length := List.length_pos_iff.2 h0
  have hf := v.first
  have hla := v.last
  have hlen : (pre ++ ls ++ post).length = pre.length + ls.length + post.length := by simp; omega
  have i1 : s.last_label < (pre ++ ls ++ post).length := by omega
  have i2 : s.first_label < (pre ++ ls ++ post).length := by omega
  have e1 : (pre ++ ls ++ post).take s.last_label = pre ++ ls.dropLast := by
    rw [List.append_assoc, List.take_append, List.take_of_length_le (by omega)]
    rw [show s.last_label - pre.length = ls.length - 1 by omega, List.take_append_of_le_length (by omega), List.dropLast_eq_take]
  have e2 : (pre ++ ls ++ post).take s.first_label = pre := by
    rw [hf, List.append_assoc, List.take_left' rfl]
  have e3 : (pre ++ ls ++ post)[s.last_label] = ls.getLast h0 := by
    rw [List.getLast_eq_getElem]
    simp only [List.append_assoc]
    rw [List.getElem_append_right (by omega), List.getElem_append_left (by omega)]
    congr 1; omega
  have e4 : wire ls = wire ls.dropLast ++ labelWire (ls.getLast h0) := by
    have := congrArg wire (List.dropLast_concat_getLast h0)
    rw [wire_append] at this
    rw [← this]; simp [wire]
  have h63 : (ls.getLast h0).length ≤ 63 := v.len63 _ (by simp)
  have hw' : (wire (pre ++ ls ++ post)).length = (wire pre).length + (wire ls).length + (wire post).length := by
    rw [wire_append, wire_append, List.length_append, List.length_append]
  have hw4 : (wire ls).length = (wire ls.dropLast).length + (ls.getLast h0).length + 1 := by
    rw [e4]; simp [labelWire]; omega
  have hlen' : s.len = .ok (wire ls).length := by
    unfold LabelSlice.len
    rw [v.offsets, v.data, starts_idx _ _ i1, Res.bind_ok, wire_idx_len _ _ i1, Res.bind_ok, e3, u8_len h63, cadd8_ok (by omega), Res.bind_ok,
      starts_idx _ _ i2, Res.bind_ok, e1, e2, wire_append, List.length_append, csub_ok (by omega), Res.bind_ok, cadd8_ok (by omega)]
    congr 1; omega
  refine ⟨hlen', ?_⟩
  unfold LabelSlice.bytes
  rw [v.offsets, starts_idx _ _ i2, Res.bind_ok, hlen', Res.bind_ok, e2, v.data, slice_ok (by omega) (by omega)]
  congr 1
  rw [List.append_assoc, wire_append, List.drop_left, wire_append, Nat.add_sub_cancel_left, List.take_left]

theorem View.left {s : LabelSlice} {pre ls post : List Label} (v : View s pre ls post) (i : Nat) :
    (i < ls.length → ∃ s', s.strip_left i = .ok s' ∧ View s' (pre ++ ls.take i) (ls.drop i) post) ∧
    (ls.length ≤ i → s.strip_left i = .panic) := by
  have hf := v.first
  have hla := v.last
  constructor
  · intro h
    refine ⟨{ s with first_label := s.first_label + i }, ?_, ?_⟩
    · unfold strip_left
      rw [v.count, Res.bind_ok, assertR_bind_ok h]; rfl
    · have e : pre ++ ls.take i ++ ls.drop i = pre ++ ls := by rw [List.append_assoc, List.take_append_drop]
      refine ⟨by rw [e]; exact v.data, by rw [e]; exact v.offsets, ?_, ?_, ?_, by rw [e]; exact v.len63⟩
      · show s.first_label + i = _
        rw [List.length_append, List.length_take]; omega
      · show s.last_label + 1 = _
        rw [List.length_append, List.length_take, List.length_drop]; omega
      · intro h'; have := congrArg List.length h'; rw [List.length_drop] at this; simp at this; omega
  · intro h
    unfold strip_left
    rw [v.count, Res.bind_ok]
    unfold assertR
    rw [if_neg (by omega)]; rfl

theorem View.right {s : LabelSlice} {pre ls post : List Label} (v : View s pre ls post) (i : Nat) :
    (i < ls.length → ∃ s', s.strip_right i = .ok s' ∧ View s' pre (ls.take (ls.length - i)) (ls.drop (ls.length - i) ++ post)) ∧
    (ls.length ≤ i → s.strip_right i = .panic) := by
  have hf := v.first
  have hla := v.last
  constructor
  · intro h
    refine ⟨{ s with last_label := s.last_label - i }, ?_, ?_⟩
    · unfold strip_right
      rw [v.count, Res.bind_ok, assertR_bind_ok h, csub_ok (by omega)]; rfl
    · have e : pre ++ ls.take (ls.length - i) ++ (ls.drop (ls.length - i) ++ post) = pre ++ ls ++ post := by
        rw [List.append_assoc, ← List.append_assoc (ls.take _), List.take_append_drop, ← List.append_assoc]
      refine ⟨by rw [e]; exact v.data, by rw [e]; exact v.offsets, v.first, ?_, ?_, by rw [e]; exact v.len63⟩
      · show s.last_label - i + 1 = _
        rw [List.length_take]; omega
      · intro h'; have := congrArg List.length h'; rw [List.length_take] at this; simp at this; omega
  · intro h
    unfold strip_right
    rw [v.count, Res.bind_ok]
    unfold assertR
    rw [if_neg (by omega)]; rfl

end LabelSlice
end R53
