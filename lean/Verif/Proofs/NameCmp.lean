import Verif.Proofs.NameOps
/-! # Equality, hashing, case, subdomain test and comparison -/
namespace R53

/-! ## reading along a list -/

theorem drop_cons_idx {α : Type} {a t : List α} {pos : Nat} {x : α} (h : a.drop pos = x :: t) :
    idx a pos = .ok x ∧ a.drop (pos + 1) = t := by
  constructor
  · have := congrArg (·[0]?) h
    simp only [List.getElem?_drop, Nat.add_zero, List.getElem?_cons_zero] at this
    exact idx_ok this
  · rw [← List.drop_drop, h]; rfl

theorem drop_append_drop {α : Type} {a x t : List α} {pos : Nat} (h : a.drop pos = x ++ t) :
    a.drop (pos + x.length) = t := by
  rw [← List.drop_drop, h, List.drop_left]

namespace Name

theorem eqInner_spec (a b : List UInt8) (x y ra rb : List UInt8) (pos : Nat) (hxy : x.length = y.length)
    (ha : a.drop pos = x ++ ra) (hb : b.drop pos = y ++ rb) :
    eqInner a b x.length pos = .ok (if lowerLabel x = lowerLabel y then some (pos + x.length) else none) := by
  induction x generalizing y pos with
  | nil =>
    cases y with
    | nil => simp [eqInner]
    | cons => simp at hxy
  | cons c x ih =>
    cases y with
    | nil => simp at hxy
    | cons d y =>
      obtain ⟨ha1, ha2⟩ := drop_cons_idx (List.cons_append ▸ ha)
      obtain ⟨hb1, hb2⟩ := drop_cons_idx (List.cons_append ▸ hb)
      simp only [List.length_cons, eqInner, ha1, hb1, Res.bind_ok, lower_case_eq]
      by_cases h : lowerByte c = lowerByte d
      · rw [if_neg (by simpa using h), ih y (pos + 1) (by simpa using hxy) ha2 hb2]
        simp only [lowerLabel, List.map_cons, h, List.cons.injEq, true_and]
        congr 2; congr 1; omega
      · rw [if_pos h]
        simp [lowerLabel, h]

theorem u8_ofNat_inj {a b : Nat} (ha : a ≤ 63) (hb : b ≤ 63) : UInt8.ofNat a = UInt8.ofNat b ↔ a = b := by
  constructor
  · intro h
    have := congrArg UInt8.toNat h
    rwa [u8_len ha, u8_len hb] at this
  · rintro rfl; rfl

theorem eqLoop_spec (a b : List UInt8) (la lb : List Label) (ra rb : List UInt8) (pos : Nat)
    (hl : la.length = lb.length) (h63a : ∀ l ∈ la, l.length ≤ 63) (h63b : ∀ l ∈ lb, l.length ≤ 63)
    (ha : a.drop pos = wire la ++ ra) (hb : b.drop pos = wire lb ++ rb) :
    eqLoop a b la.length pos = .ok (decide (lowerName la = lowerName lb)) := by
  induction la generalizing lb pos with
  | nil =>
    cases lb with
    | nil => simp [eqLoop]
    | cons => simp at hl
  | cons x la ih =>
    cases lb with
    | nil => simp at hl
    | cons y lb =>
      simp only [wire_cons, List.cons_append, List.append_assoc] at ha hb
      obtain ⟨ha1, ha2⟩ := drop_cons_idx ha
      obtain ⟨hb1, hb2⟩ := drop_cons_idx hb
      have hx := h63a x (by simp)
      have hy := h63b y (by simp)
      simp only [List.length_cons, eqLoop, ha1, hb1, Res.bind_ok]
      by_cases hxy : x.length = y.length
      · rw [if_neg (by simp [hxy]), u8_len hx, eqInner_spec a b x y _ _ _ hxy ha2 hb2]
        simp only [Res.bind_ok]
        by_cases hlow : lowerLabel x = lowerLabel y
        · rw [if_pos hlow]
          simp only
          rw [ih lb (pos + 1 + x.length) (by simpa using hl) (fun l h => h63a l (by simp [h]))
            (fun l h => h63b l (by simp [h])) (drop_append_drop ha2) (by rw [hxy]; exact drop_append_drop hb2)]
          congr 1; apply decide_eq_decide.mpr
          simp [lowerName, hlow]
        · rw [if_neg hlow]
          simp [lowerName, hlow]
      · rw [if_pos (by rw [ne_eq, u8_ofNat_inj hx hy]; exact hxy)]
        have : lowerLabel x ≠ lowerLabel y := by
          intro h; have := congrArg List.length h; simp [lowerLabel] at this; exact hxy this
        simp [lowerName, this]

theorem lowerName_append (a b : List Label) : lowerName (a ++ b) = lowerName a ++ lowerName b := by simp [lowerName]
theorem lowerName_length (a : List Label) : (lowerName a).length = a.length := by simp [lowerName]

theorem wire_lower (ls : List Label) (h : ∀ l ∈ ls, l.length ≤ 63) : (wire ls).map lowerByte = wire (lowerName ls) := by
  induction ls with
  | nil => rfl
  | cons l ls ih =>
    have hl := h l (by simp)
    simp only [wire_cons, List.map_cons, List.map_append, lowerName, lowerLabel, List.length_map]
    rw [ih (fun x hx => h x (by simp [hx])), lowerByte_small _ (by rw [u8_len hl]; exact hl)]
    rfl

theorem lower_wire_length (ls : List Label) : (wire (lowerName ls)).length = (wire ls).length := by
  induction ls with
  | nil => rfl
  | cons l ls ih => simp only [lowerName, List.map_cons, wire_length_cons] at *; simp [lowerLabel, ih]

theorem SameName.wire_length {a b : List Label} (h : SameName a b) : (wire a).length = (wire b).length := by
  rw [← lower_wire_length a, ← lower_wire_length b, h]

theorem SameName.length {a b : List Label} (h : SameName a b) : a.length = b.length := by
  have := congrArg List.length h
  simpa [lowerName] using this

theorem eq_ofLabels {a b : List Label} (ha : ValidName a) (hb : ValidName b) :
    eq (ofLabels a) (ofLabels b) = .ok (decide (SameName a b)) := by
  unfold eq
  simp only [ofLabels_len, ofLabels_count]
  by_cases h : (wire a).length = (wire b).length ∧ a.length = b.length
  · rw [if_neg (by omega)]
    have h63 : ∀ {ls : List Label}, ValidName ls → ∀ l ∈ ls ++ [([] : Label)], l.length ≤ 63 := by
      intro ls hv l hl
      rcases List.mem_append.mp hl with h | h
      · exact hv.len63 l h
      · simp at h; subst h; simp
    have := eqLoop_spec (wire (a ++ [[]])) (wire (b ++ [[]])) (a ++ [[]]) (b ++ [[]]) [] [] 0
      (by simp [h.2]) (h63 ha) (h63 hb) (by simp) (by simp)
    simp only [List.length_append, List.length_singleton] at this
    rw [ofLabels_raw, ofLabels_raw, this]
    congr 1; apply decide_eq_decide.mpr
    simp [SameName, lowerName]
  · rw [if_pos (by omega)]
    have : ¬ SameName a b := fun hs => h ⟨SameName.wire_length hs, SameName.length hs⟩
    simp [this]

/-! ## hash -/

theorem map_lower_case (l : List UInt8) : l.map lower_case = l.map lowerByte := by
  congr 1; funext c; exact lower_case_eq c

theorem h63root {ls : List Label} (hv : ValidName ls) : ∀ l ∈ ls ++ [([] : Label)], l.length ≤ 63 := by
  intro l hl
  rcases List.mem_append.mp hl with h | h
  · exact hv.len63 l h
  · simp at h; subst h; simp

theorem hashFeed_ofLabels {a : List Label} (ha : ValidName a) : hashFeed (ofLabels a) = nameWire (lowerName a) := by
  unfold hashFeed
  rw [map_lower_case, ofLabels_raw, wire_lower _ (h63root ha), lowerName_append, nameWire_eq]
  rfl

/-- a wire form determines its labels -/
theorem nameWire_inj {a b : List Label} (ha : ∀ l ∈ a, ValidLabel l) (hb : ∀ l ∈ b, ValidLabel l)
    (h : nameWire a = nameWire b) : a = b := by
  induction a generalizing b with
  | nil =>
    cases b with
    | nil => rfl
    | cons y b =>
      simp only [nameWire, wire_nil, List.nil_append, wire_cons, List.cons_append, List.cons.injEq] at h
      have hy := hb y (by simp)
      have := congrArg UInt8.toNat h.1
      rw [u8_len hy.2] at this
      have := hy.1; simp at *
  | cons x a ih =>
    cases b with
    | nil =>
      simp only [nameWire, wire_nil, List.nil_append, wire_cons, List.cons_append, List.cons.injEq] at h
      have hx := ha x (by simp)
      have := congrArg UInt8.toNat h.1
      rw [u8_len hx.2] at this
      have := hx.1; simp at *
    | cons y b =>
      simp only [nameWire, wire_cons, List.cons_append, List.cons.injEq, List.append_assoc] at h
      have hx := ha x (by simp)
      have hy := hb y (by simp)
      have hl := (u8_ofNat_inj hx.2 hy.2).mp h.1
      obtain ⟨rfl, h2⟩ := List.append_inj h.2 hl
      rw [ih (fun l hl => ha l (by simp [hl])) (fun l hl => hb l (by simp [hl])) h2]

theorem lowerName_valid {a : List Label} (ha : ValidName a) : ValidName (lowerName a) := by
  refine ⟨?_, ?_⟩
  · intro l hl
    simp only [lowerName, List.mem_map] at hl
    obtain ⟨x, hx, rfl⟩ := hl
    simpa [ValidLabel, lowerLabel] using ha.1 x hx
  · have := ha.2
    simp only [nameWire, List.length_append, lower_wire_length] at *
    exact this

theorem ofLabels_inj {a b : List Label} (ha : ValidName a) (hb : ValidName b) (h : ofLabels a = ofLabels b) : a = b := by
  apply nameWire_inj ha.1 hb.1
  rw [nameWire_eq, nameWire_eq]
  exact congrArg Name.raw h

/-! ## as_lowercase -/

theorem lowerInner_spec (raw pre x t : List UInt8) (h : raw = pre ++ (x ++ t)) :
    lowerInner x.length pre.length raw = .ok (pre.length + x.length, pre ++ (x.map lowerByte ++ t)) := by
  induction x generalizing raw pre with
  | nil => subst h; simp [lowerInner]
  | cons c x ih =>
    subst h
    simp only [List.length_cons, lowerInner]
    have h1 := idx_append_right pre ((c :: x) ++ t) 0
    rw [Nat.add_zero] at h1
    rw [h1]
    simp only [idx, List.cons_append, List.getElem?_cons_zero, Res.bind_ok, lower_case_eq]
    have := ih ((pre ++ c :: (x ++ t)).set pre.length (lowerByte c)) (pre ++ [lowerByte c]) (by
      rw [List.set_append_right _ _ (Nat.le_refl _)]; simp)
    rw [List.length_append, List.length_singleton] at this
    rw [this]
    simp only [List.map_cons, List.append_assoc, List.cons_append, List.nil_append]
    congr 2; omega

theorem lowerOuter_spec (ls : List Label) (raw pre t : List UInt8) (h63 : ∀ l ∈ ls, l.length ≤ 63)
    (h : raw = pre ++ (wire ls ++ t)) :
    lowerOuter ls.length pre.length raw = .ok (pre ++ (wire (lowerName ls) ++ t)) := by
  induction ls generalizing raw pre with
  | nil => subst h; simp [lowerOuter, lowerName]
  | cons l ls ih =>
    have hl := h63 l (by simp)
    subst h
    simp only [List.length_cons, lowerOuter]
    have h1 := idx_append_right pre (wire (l :: ls) ++ t) 0
    rw [Nat.add_zero] at h1
    rw [h1]
    simp only [idx, wire_cons, List.cons_append, List.getElem?_cons_zero, Res.bind_ok, u8_len hl]
    have h2 := lowerInner_spec (pre ++ UInt8.ofNat l.length :: (l ++ wire ls ++ t)) (pre ++ [UInt8.ofNat l.length]) l (wire ls ++ t) (by simp)
    rw [List.length_append, List.length_singleton] at h2
    rw [h2]
    simp only [Res.bind_ok]
    have h3 := ih (pre ++ [UInt8.ofNat l.length] ++ (l.map lowerByte ++ (wire ls ++ t))) (pre ++ [UInt8.ofNat l.length] ++ l.map lowerByte)
      (fun x hx => h63 x (by simp [hx])) (by simp)
    simp only [List.length_append, List.length_singleton, List.length_map] at h3
    rw [h3]
    simp [lowerName, lowerLabel]

theorem lower_starts (b : Nat) (ls : List Label) : starts b (lowerName ls) = starts b ls := by
  induction ls generalizing b with
  | nil => rfl
  | cons l ls ih =>
    simp only [lowerName, List.map_cons, starts_cons] at *
    rw [ih]; simp [lowerLabel]

theorem as_lowercase_ofLabels {ls : List Label} (h : ValidName ls) :
    as_lowercase (ofLabels ls) = .ok (ofLabels (lowerName ls)) := by
  unfold as_lowercase
  have := lowerOuter_spec (ls ++ [[]]) (wire (ls ++ [[]])) [] [] (h63root h) (by simp)
  simp only [List.length_append, List.length_singleton, List.length_nil, List.nil_append, List.append_nil] at this
  rw [ofLabels_count, ofLabels_raw, this]
  simp only [Res.bind_ok, ofLabels, Res.pure_eq]
  rw [← lower_starts 0 (ls ++ [[]]), lowerName_append]; rfl

/-! ## is_root, is_wildcard -/

theorem is_root_ofLabels {ls : List Label} (_h : ValidName ls) : is_root (ofLabels ls) = decide (ls = []) := by
  cases ls with
  | nil => rfl
  | cons l ls => simp [is_root]

theorem is_wildcard_ofLabels {ls : List Label} (h : ValidName ls) :
    is_wildcard (ofLabels ls) = .ok (decide (ls.head? = some [42])) := by
  unfold is_wildcard
  cases ls with
  | nil => simp
  | cons l ls =>
    have hl := h.1 l (by simp)
    have h1 := hl.1
    have h2 := hl.2
    rw [if_neg (by simp; omega)]
    simp only [ofLabels_offsets, ofLabels_raw, List.cons_append]
    have hi : idx (starts 0 (l :: (ls ++ [[]]))) 1 = .ok (l.length + 1) := by
      rw [starts_idx _ _ (by simp)]; simp
    rw [hi]
    simp only [Res.bind_ok, List.head?_cons, Option.some.injEq]
    by_cases hl1 : l.length = 1
    · match l, hl1 with
      | [c], _ =>
        rw [if_neg (by simp)]
        simp [idx]
        rfl
    · rw [if_pos (by omega)]
      simp only [Res.pure_eq, Res.ok.injEq]
      symm; rw [decide_eq_false_iff_not]; intro h; subst h; simp at hl1

/-! ## is_subdomain: what the loop computes -/

/-- the loop compares `p[1..=j]` with the octets of `a` ending at `i` -/
theorem subLoop_spec (a p : List UInt8) (j i : Nat) (hj : j < p.length) (hi : i < a.length) (hji : j ≤ i) :
    subLoop a p j i = .ok (decide (((p.drop 1).take j).map lowerByte = ((a.drop (i + 1 - j)).take j).map lowerByte)) := by
  induction j generalizing i with
  | zero => simp [subLoop]
  | succ j ih =>
    simp only [subLoop]
    rw [idx_of_lt hj, idx_of_lt hi]
    simp only [Res.bind_ok, lower_case_eq]
    rw [csub_ok (by omega)]
    have e1 : (p.drop 1).take (j + 1) = (p.drop 1).take j ++ [p[j+1]] := by
      rw [take_succ_last _ _ (by simp; omega)]; simp only [List.getElem_drop]; congr 2; congr 1; omega
    have e2 : (a.drop (i + 1 - (j + 1))).take (j + 1) = (a.drop (i + 1 - (j + 1))).take j ++ [a[i]] := by
      rw [take_succ_last _ _ (by simp; omega)]; simp only [List.getElem_drop]; congr 2; congr 1; omega
    rw [e1, e2, List.map_append, List.map_append, List.map_singleton, List.map_singleton]
    by_cases hc : lowerByte p[j+1] = lowerByte a[i]
    · rw [if_neg (by simpa using hc)]
      simp only [Res.bind_ok]
      rw [ih (i - 1) (by omega) (by omega) (by omega), hc]
      rw [show i - 1 + 1 - j = i + 1 - (j + 1) by omega]
      simp
    · rw [if_pos hc]
      simp only [Res.pure_eq, Res.ok.injEq]
      symm; rw [decide_eq_false_iff_not]
      intro h
      have hl : ((List.take j (List.drop 1 p)).map lowerByte).length = ((List.take j (List.drop (i + 1 - (j + 1)) a)).map lowerByte).length := by
        simp; omega
      have := (List.append_inj h hl).2
      simp at this; exact hc this

theorem is_subdomain_raw (n p : Name) (hp : p.raw ≠ []) (hcount : p.label_count ≤ n.label_count)
    (hlen : p.len ≤ n.len) :
    is_subdomain n p = .ok (decide ((p.raw.drop 1).map lowerByte <:+ n.raw.map lowerByte)) := by
  have h0 : 0 < p.raw.length := List.length_pos_iff.mpr hp
  unfold len at hlen
  unfold is_subdomain
  rw [if_neg (by simp only [len]; omega)]
  simp only [len]
  rw [csub_ok (by omega), Res.bind_ok, csub_ok (by omega), Res.bind_ok,
    subLoop_spec _ _ _ _ (by omega) (by omega) (by omega)]
  congr 2
  rw [List.take_of_length_le (l := List.drop 1 p.raw) (by simp),
    List.take_of_length_le (by simp; omega)]
  rw [List.suffix_iff_eq_drop]
  simp only [List.length_map, List.length_drop, List.map_drop, eq_iff_iff]
  rw [show n.raw.length - 1 + 1 - (p.raw.length - 1) = n.raw.length - (p.raw.length - 1) by omega]

end Name

/-! ## comparison -/

namespace LabelSlice

/-- the octet comparison loop on the labels themselves -/
def bytesDiff (m : Build) : Label → Label → Res (Option Int)
  | a :: as, b :: bs => do
    let d ← subI8 m (asI8 (lowerByte a)) (asI8 (lowerByte b))
    if d ≠ 0 then pure (some d) else bytesDiff m as bs
  | _, _ => .ok none

theorem cmpBytes_spec (m : Build) (d1 d2 : List UInt8) (x y r1 r2 : List UInt8) (p1 p2 : Nat)
    (h1 : d1.drop p1 = x ++ r1) (h2 : d2.drop p2 = y ++ r2) :
    cmpBytes m false d1 d2 (min x.length y.length) p1 p2 = bytesDiff m x y := by
  induction x generalizing y p1 p2 with
  | nil => simp [cmpBytes, bytesDiff]
  | cons a x ih =>
    cases y with
    | nil => simp [cmpBytes, bytesDiff]
    | cons b y =>
      obtain ⟨i1, j1⟩ := drop_cons_idx (List.cons_append ▸ h1)
      obtain ⟨i2, j2⟩ := drop_cons_idx (List.cons_append ▸ h2)
      simp only [List.length_cons, Nat.succ_min_succ, cmpBytes, i1, i2, Res.bind_ok, bytesDiff, lower_case_eq,
        Bool.false_eq_true, if_false]
      congr 1; funext d
      rw [ih y (p1 + 1) (p2 + 1) j1 j2]

/-- the label comparison loop on label lists, most significant first -/
def relSpec (m : Build) : List Label → List Label → Nat → Res NameComparisonResult
  | a :: as, b :: bs, n => do
    match ← bytesDiff m a b with
    | some d => pure (mismatch d n)
    | none =>
      if (a.length : Int) - (b.length : Int) ≠ 0 then pure (mismatch (truncI8 ((a.length : Int) - (b.length : Int))) n)
      else relSpec m as bs (n + 1)
  | as, bs, n =>
    .ok ⟨truncI8 ((as.length : Int) - (bs.length : Int)), n % 256,
      if (as.length : Int) - (bs.length : Int) < 0 then .SuperDomain
      else if (as.length : Int) - (bs.length : Int) > 0 then .SubDomain else .Equal⟩

/-- `s` shows the labels `ls` of the sequence `pre ++ ls ++ post` -/
structure View (s : LabelSlice) (pre ls post : List Label) : Prop where
  data : s.data = wire (pre ++ ls ++ post)
  offsets : s.offsets = starts 0 (pre ++ ls ++ post)
  first : s.first_label = pre.length
  last : s.last_label + 1 = pre.length + ls.length
  nonempty : ls ≠ []
  len63 : ∀ l ∈ pre ++ ls ++ post, l.length ≤ 63

theorem View.count {s : LabelSlice} {pre ls post : List Label} (v : View s pre ls post) :
    s.label_count = .ok ls.length := by
  have := v.last
  have := v.first
  have : ls.length ≠ 0 := by simpa using v.nonempty
  unfold label_count
  rw [csub_ok (by omega)]
  simp; omega

theorem View.label {s : LabelSlice} {pre ls post : List Label} (v : View s pre ls post) (i : Nat) (hi : i < ls.length) :
    ∃ pos rest, idx s.offsets (i + s.first_label) = .ok pos ∧ idx s.data pos = .ok (UInt8.ofNat ls[i].length) ∧
      s.data.drop (pos + 1) = ls[i] ++ rest := by
  have hlt : i + pre.length < (pre ++ ls ++ post).length := by simp; omega
  have hg : (pre ++ ls ++ post)[i + pre.length] = ls[i] := by
    simp only [List.append_assoc]
    rw [List.getElem_append_right (by omega)]
    simp only [Nat.add_sub_cancel]
    rw [List.getElem_append_left hi]
  refine ⟨(wire ((pre ++ ls ++ post).take (i + pre.length))).length, wire ((pre ++ ls ++ post).drop (i + pre.length + 1)), ?_, ?_, ?_⟩
  · rw [v.offsets, v.first, starts_idx _ _ hlt]
  · rw [v.data, wire_idx_len _ _ hlt, hg]
  · rw [v.data, ← List.drop_drop, wire_drop, List.drop_eq_getElem_cons hlt, hg]
    simp

theorem take_reverse_succ {α : Type} (l : List α) (i : Nat) (h : i < l.length) :
    (l.take (i + 1)).reverse = l[i] :: (l.take i).reverse := by
  rw [take_succ_last l i h, List.reverse_append]; rfl

theorem cmpLoop_spec (m : Build) {s o : LabelSlice} {pre ls post pre' ls' post' : List Label}
    (v : View s pre ls post) (v' : View o pre' ls' post') (ldiff : Int) (l l1 l2 n : Nat)
    (hl : l = min l1 l2) (h1 : l1 ≤ ls.length) (h2 : l2 ≤ ls'.length) (hd : ldiff = (l1 : Int) - (l2 : Int)) :
    cmpLoop m false s o ldiff l l1 l2 n = relSpec m (ls.take l1).reverse (ls'.take l2).reverse n := by
  induction l generalizing l1 l2 n with
  | zero =>
    have : l1 = 0 ∨ l2 = 0 := by omega
    rcases this with rfl | rfl
    · simp only [List.take_zero, List.reverse_nil, cmpLoop]
      have hlen : (ls'.take l2).reverse.length = l2 := by simp; omega
      subst hd
      simp only [relSpec, hlen, List.length_nil]
    · have hlen : (ls.take l1).reverse.length = l1 := by simp; omega
      simp only [List.take_zero, List.reverse_nil, cmpLoop]
      subst hd
      cases hx : (ls.take l1).reverse with
      | nil => rw [hx] at hlen; subst hlen; rfl
      | cons a as => rw [hx] at hlen; rw [← hlen]; rfl
  | succ l ih =>
    obtain ⟨k1, rfl⟩ : ∃ k, l1 = k + 1 := ⟨l1 - 1, by omega⟩
    obtain ⟨k2, rfl⟩ : ∃ k, l2 = k + 1 := ⟨l2 - 1, by omega⟩
    obtain ⟨pos1, r1, a1, b1, c1⟩ := v.label k1 (by omega)
    obtain ⟨pos2, r2, a2, b2, c2⟩ := v'.label k2 (by omega)
    have hm1 : ls[k1].length ≤ 63 := v.len63 _ (by simp)
    have hm2 : ls'[k2].length ≤ 63 := v'.len63 _ (by simp)
    rw [take_reverse_succ ls k1 (by omega), take_reverse_succ ls' k2 (by omega)]
    simp only [cmpLoop, relSpec]
    rw [csub_ok (by omega), csub_ok (by omega)]
    simp only [Res.bind_ok, Nat.add_sub_cancel, a1, a2, b1, b2, u8_len hm1, u8_len hm2]
    rw [cmpBytes_spec m s.data o.data ls[k1] ls'[k2] r1 r2 (pos1 + 1) (pos2 + 1) c1 c2]
    congr 1; funext r
    cases r with
    | some d => rfl
    | none =>
      simp only
      rw [ih k1 k2 (n + 1) (by omega) (by omega) (by omega) (by omega)]

theorem compare_view (m : Build) {s o : LabelSlice} {pre ls post pre' ls' post' : List Label}
    (v : View s pre ls post) (v' : View o pre' ls' post') :
    compare m s o false = relSpec m ls.reverse ls'.reverse 0 := by
  unfold compare
  rw [v.count, v'.count]
  simp only [Res.bind_ok]
  rw [cmpLoop_spec m v v' _ _ _ _ _ rfl (Nat.le_refl _) (Nat.le_refl _) rfl]
  simp

theorem view_of_name {ls : List Label} (h : ValidName ls) :
    View ⟨(Name.ofLabels ls).raw, (Name.ofLabels ls).offsets, 0, ls.length⟩ [] (ls ++ [[]]) [] := by
  refine ⟨by simp, by simp, rfl, by simp, by simp, ?_⟩
  simpa using Name.h63root h

theorem from_name_ofLabels (ls : List Label) :
    from_name (Name.ofLabels ls) = .ok ⟨(Name.ofLabels ls).raw, (Name.ofLabels ls).offsets, 0, ls.length⟩ := by
  unfold from_name
  rw [Name.ofLabels_count, csub_ok (by omega)]
  rfl

end LabelSlice

theorem Name.get_relation_ofLabels (m : Build) {a b : List Label} (ha : ValidName a) (hb : ValidName b) :
    Name.get_relation m (ofLabels a) (ofLabels b) = LabelSlice.relSpec m ([] :: a.reverse) ([] :: b.reverse) 0 := by
  unfold get_relation
  rw [LabelSlice.from_name_ofLabels, LabelSlice.from_name_ofLabels]
  simp only [Res.bind_ok]
  rw [LabelSlice.compare_view m (LabelSlice.view_of_name ha) (LabelSlice.view_of_name hb)]
  simp

end R53
