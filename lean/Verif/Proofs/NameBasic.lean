import Verif.Model.Name
/-! # Lemmas on wire forms, offsets and the case table -/
namespace R53

theorem forall_u8' {P : UInt8 → Prop} (h : ∀ n : Fin 256, P (UInt8.ofNat n.val)) (x : UInt8) : P x := by
  have := h ⟨x.toNat, x.toNat_lt⟩
  simpa using this

theorem map_to_lower_length : MAP_TO_LOWER.length = 256 := by decide +kernel

/-- the table is ASCII lower-casing -/
theorem lower_case_eq (c : UInt8) : lower_case c = lowerByte c := by
  revert c; apply forall_u8'; decide +kernel

theorem lowerByte_idem (c : UInt8) : lowerByte (lowerByte c) = lowerByte c := by
  revert c; apply forall_u8'; decide +kernel

theorem lowerByte_small (c : UInt8) (h : c.toNat ≤ 63) : lowerByte c = c := by
  revert c; apply forall_u8'; decide +kernel

theorem lowerByte_lt128 (c : UInt8) (h : c.toNat < 128) : (lowerByte c).toNat < 128 := by
  revert c; apply forall_u8'; decide +kernel

theorem lowerByte_ge128 (c : UInt8) (h : 128 ≤ c.toNat) : lowerByte c = c := by
  revert c; apply forall_u8'; decide +kernel

/-! ## wire and starts -/

@[simp] theorem wire_nil : wire [] = [] := rfl
@[simp] theorem wire_cons (l : Label) (ls : List Label) : wire (l :: ls) = UInt8.ofNat l.length :: (l ++ wire ls) := by
  simp [wire, labelWire]
@[simp] theorem wire_append (a b : List Label) : wire (a ++ b) = wire a ++ wire b := by
  simp [wire]
theorem wire_root : wire [([] : Label)] = [0] := by simp
@[simp] theorem starts_nil (b : Nat) : starts b [] = [] := rfl
@[simp] theorem starts_cons (b : Nat) (l : Label) (ls : List Label) : starts b (l :: ls) = b :: starts (b + l.length + 1) ls := rfl
@[simp] theorem starts_length (b : Nat) (ls : List Label) : (starts b ls).length = ls.length := by
  induction ls generalizing b with
  | nil => rfl
  | cons l ls ih => simp [ih]

theorem starts_append (b : Nat) (xs ys : List Label) :
    starts b (xs ++ ys) = starts b xs ++ starts (b + (wire xs).length) ys := by
  induction xs generalizing b with
  | nil => simp
  | cons x xs ih => simp [ih]; congr 1; omega

theorem starts_getElem? (b : Nat) (ls : List Label) (i : Nat) (h : i < ls.length) :
    (starts b ls)[i]? = some (b + (wire (ls.take i)).length) := by
  induction ls generalizing b i with
  | nil => simp at h
  | cons l ls ih =>
    cases i with
    | zero => simp
    | succ i =>
      simp only [starts_cons, List.getElem?_cons_succ, List.take_succ_cons, wire_cons, List.length_cons, List.length_append]
      rw [ih _ _ (by simpa using h)]
      congr 1; omega

theorem starts_take (b : Nat) (ls : List Label) (i : Nat) : (starts b ls).take i = starts b (ls.take i) := by
  induction ls generalizing b i with
  | nil => simp
  | cons l ls ih => cases i with
    | zero => simp
    | succ i => simp [ih]

theorem starts_drop (b : Nat) (ls : List Label) (i : Nat) :
    (starts b ls).drop i = starts (b + (wire (ls.take i)).length) (ls.drop i) := by
  induction ls generalizing b i with
  | nil => simp
  | cons l ls ih => cases i with
    | zero => simp
    | succ i => simp only [starts_cons, List.drop_succ_cons, ih, List.take_succ_cons, wire_cons, List.length_cons, List.length_append]; congr 1; omega

theorem wire_length_cons (l : Label) (ls : List Label) : (wire (l :: ls)).length = l.length + 1 + (wire ls).length := by
  simp; omega

theorem wire_take_drop (ls : List Label) (i : Nat) : wire (ls.take i) ++ wire (ls.drop i) = wire ls := by
  rw [← wire_append, List.take_append_drop]

theorem wire_drop (ls : List Label) (i : Nat) : (wire ls).drop (wire (ls.take i)).length = wire (ls.drop i) := by
  rw [← wire_take_drop ls i, List.drop_left]

theorem wire_take (ls : List Label) (i : Nat) : (wire ls).take (wire (ls.take i)).length = wire (ls.take i) := by
  have := wire_take_drop ls i
  rw [← this, List.take_left]

theorem wire_take_le (ls : List Label) (i : Nat) : (wire (ls.take i)).length ≤ (wire ls).length := by
  rw [← wire_take_drop ls i]; simp

theorem wire_length_ge (ls : List Label) : ls.length ≤ (wire ls).length := by
  induction ls with
  | nil => simp
  | cons l ls ih => simp; omega

theorem wire_length_ge2 (ls : List Label) (h : ∀ l ∈ ls, 1 ≤ l.length) : 2 * ls.length ≤ (wire ls).length := by
  induction ls with
  | nil => simp
  | cons l ls ih =>
    have h1 := h l (by simp)
    have h2 := ih (fun x hx => h x (by simp [hx]))
    simp; omega

theorem nameWire_eq (ls : List Label) : nameWire ls = wire (ls ++ [[]]) := by
  simp [nameWire]

theorem ValidName.count {ls : List Label} (h : ValidName ls) : ls.length ≤ 127 := by
  have h1 := wire_length_ge2 ls (fun l hl => (h.1 l hl).1)
  have h2 := h.2
  simp [nameWire] at h2
  omega

theorem ValidName.wire_le {ls : List Label} (h : ValidName ls) : (wire ls).length ≤ 254 := by
  have h2 := h.2
  simp [nameWire] at h2
  omega

theorem ValidName.len63 {ls : List Label} (h : ValidName ls) (l : Label) (hl : l ∈ ls) : l.length ≤ 63 :=
  (h.1 l hl).2

theorem validName_nil : ValidName [] := by decide

theorem ValidName.sublist {ls ls' : List Label} (h : ValidName ls) (hs : ls'.Sublist ls) : ValidName ls' := by
  refine ⟨fun l hl => h.1 l (hs.subset hl), ?_⟩
  have : (wire ls').length ≤ (wire ls).length := by
    clear h
    induction hs with
    | slnil => simp
    | cons a _ ih => simp; omega
    | cons_cons a _ ih => simp; omega
  have := h.wire_le
  simp [nameWire]; omega

/-! ## reading a wire sequence -/

theorem idx_append_right {α : Type} (a b : List α) (i : Nat) : idx (a ++ b) (a.length + i) = idx b i := by
  simp only [idx]
  rw [List.getElem?_append_right (by omega)]
  simp

/-- first octet of label `i` -/
theorem wire_idx_len (ls : List Label) (i : Nat) (h : i < ls.length) :
    idx (wire ls) (wire (ls.take i)).length = .ok (UInt8.ofNat (ls[i]).length) := by
  have := congrArg (fun x => x[0]?) (wire_drop ls i)
  simp only [List.getElem?_drop, Nat.add_zero] at this
  rw [List.drop_eq_getElem_cons h] at this
  simp only [wire_cons, List.getElem?_cons_zero] at this
  exact idx_ok this

theorem starts_idx (ls : List Label) (i : Nat) (h : i < ls.length) :
    idx (starts 0 ls) i = .ok (wire (ls.take i)).length := by
  have := starts_getElem? 0 ls i h
  simp only [Nat.zero_add] at this
  exact idx_ok this

theorem u8_len {n : Nat} (h : n ≤ 63) : (UInt8.ofNat n).toNat = n := by
  simp [UInt8.toNat_ofNat']; omega

theorem subAll_starts (x b : Nat) (ls : List Label) :
    LabelSequence.subAll x (starts (b + x) ls) = .ok (starts b ls) := by
  induction ls generalizing b with
  | nil => rfl
  | cons l ls ih =>
    simp only [starts_cons, LabelSequence.subAll]
    rw [csub_ok (by omega)]
    simp only [Res.bind_ok]
    rw [show b + x + l.length + 1 = (b + l.length + 1) + x by omega, ih]
    simp

theorem subAll_starts' (x : Nat) (ls : List Label) :
    LabelSequence.subAll x (starts x ls) = .ok (starts 0 ls) := by
  have := subAll_starts x 0 ls
  rwa [Nat.zero_add] at this

theorem take_succ_last {α : Type} (l : List α) (i : Nat) (h : i < l.length) : l.take (i + 1) = l.take i ++ [l[i]] := by
  rw [List.take_add_one, List.getElem?_eq_getElem h]; rfl

/-- end of label `i` -/
theorem wire_take_succ (ls : List Label) (i : Nat) (h : i < ls.length) :
    (wire (ls.take (i + 1))).length = (wire (ls.take i)).length + ls[i].length + 1 := by
  rw [take_succ_last ls i h, wire_append]; simp only [List.length_append, wire_cons, wire_nil, List.append_nil, List.length_cons]; omega

end R53
