import Verif.Proofs.NameBasic
/-! # Name operations commute with list operations on labels -/
namespace R53
namespace Name

@[simp] theorem ofLabels_raw (ls : List Label) : (ofLabels ls).raw = wire (ls ++ [[]]) := rfl
@[simp] theorem ofLabels_offsets (ls : List Label) : (ofLabels ls).offsets = starts 0 (ls ++ [[]]) := rfl
@[simp] theorem ofLabels_count (ls : List Label) : (ofLabels ls).label_count = ls.length + 1 := by
  simp [label_count]
theorem ofLabels_len (ls : List Label) : (ofLabels ls).len = (wire ls).length + 1 := by
  simp [len]

theorem drop_root (ls : List Label) (k : Nat) (h : k ≤ ls.length) : (ls ++ [([] : Label)]).drop k = ls.drop k ++ [[]] := by
  rw [List.drop_append_of_le_length h]
theorem take_root (ls : List Label) (k : Nat) (h : k ≤ ls.length) : (ls ++ [([] : Label)]).take k = ls.take k := by
  rw [List.take_append_of_le_length h]

/-- dropping from the wire form at the start of label `k` -/
theorem raw_from (ls : List Label) (k : Nat) (h : k ≤ ls.length) :
    slice (wire (ls ++ [[]])) (wire (ls.take k)).length (wire (ls ++ [[]])).length = .ok (wire (ls.drop k ++ [[]])) := by
  have h1 := wire_drop (ls ++ [[]]) k
  have h2 := wire_take_le (ls ++ [[]]) k
  rw [take_root ls k h] at h1 h2
  rw [drop_root ls k h] at h1
  rw [slice_ok h2 (Nat.le_refl _), h1]
  congr 1
  apply List.take_of_length_le
  rw [← h1]; simp

theorem start_lt {ls : List Label} (h : ValidName ls) (k : Nat) : (wire (ls.take k)).length < 256 := by
  have := wire_take_le ls k
  have := h.wire_le
  omega

theorem strip_left_ofLabels {ls : List Label} (h : ValidName ls) (k : Nat) :
    strip_left (ofLabels ls) k = if k ≤ ls.length then .ok (ofLabels (ls.drop k)) else .panic := by
  unfold strip_left
  by_cases hk : k ≤ ls.length
  · rw [assertR_bind_ok (by simp; omega), if_pos hk]
    by_cases h0 : k = 0
    · subst h0; simp
    · rw [if_neg h0]
      simp only [ofLabels_offsets, ofLabels_raw]
      rw [starts_idx _ _ (by simp; omega), take_root ls k hk]
      simp only [Res.bind_ok]
      rw [Nat.mod_eq_of_lt (start_lt h k), starts_drop, take_root ls k hk, Nat.zero_add, subAll_starts', drop_root ls k hk]
      simp only [Res.bind_ok]
      rw [raw_from ls k hk]
      rfl
  · rw [assertR_bind_panic (by simp; omega), if_neg hk]

theorem into_ancestor_ofLabels {ls : List Label} (h : ValidName ls) (k : Nat) :
    into_ancestor (ofLabels ls) k = if k ≤ ls.length then .ok (ofLabels (ls.drop k)) else .panic := by
  unfold into_ancestor
  by_cases hk : k ≤ ls.length
  · rw [assertR_bind_ok (by simp; omega), if_pos hk]
    by_cases h0 : k = 0
    · subst h0; simp
    · rw [if_neg h0]
      simp only [ofLabels_offsets, ofLabels_raw]
      rw [starts_idx _ _ (by simp; omega), take_root ls k hk]
      simp only [Res.bind_ok]
      rw [slice_ok (by simp; omega) (Nat.le_refl _)]
      simp only [Res.bind_ok]
      rw [List.take_of_length_le (l := List.drop k (starts 0 (ls ++ [[]]))) (by simp), Nat.mod_eq_of_lt (start_lt h k), starts_drop, take_root ls k hk, Nat.zero_add, subAll_starts', drop_root ls k hk]
      simp only [Res.bind_ok]
      rw [raw_from ls k hk]
      rfl
  · rw [assertR_bind_panic (by simp; omega), if_neg hk]

/-- keep the first `k` labels: the octet after them becomes the root label -/
theorem raw_cut (ls : List Label) (k : Nat) (h : k ≤ ls.length) :
    ((wire (ls ++ [[]])).take ((wire (ls.take k)).length + 1)).set (wire (ls.take k)).length 0
      = wire (ls.take k ++ [[]]) := by
  have h1 := wire_take_drop (ls ++ [[]]) k
  rw [take_root ls k h, drop_root ls k h] at h1
  rw [← h1, List.take_length_add_append]
  have : ∃ x t, wire (ls.drop k ++ [[]]) = x :: t := by
    cases ls.drop k with
    | nil => exact ⟨0, [], by simp⟩
    | cons l t => exact ⟨_, _, by simp; exact ⟨rfl, rfl⟩⟩
  obtain ⟨x, t, hx⟩ := this
  rw [hx, List.set_append_right _ _ (by omega)]
  simp

theorem strip_right_ofLabels {ls : List Label} (_h : ValidName ls) (k : Nat) :
    strip_right (ofLabels ls) k =
      if k ≤ ls.length then .ok (ofLabels (ls.take (ls.length - k))) else .panic := by
  unfold strip_right
  by_cases hk : k ≤ ls.length
  · rw [assertR_bind_ok (by simp; omega), if_pos hk]
    by_cases h0 : k = 0
    · subst h0; simp
    · rw [if_neg h0]
      simp only [ofLabels_offsets, ofLabels_raw, ofLabels_count]
      rw [csub_ok (by omega), show ls.length + 1 - k - 1 = ls.length - k by omega]
      simp only [Res.bind_ok]
      have hle : ls.length - k ≤ ls.length := by omega
      rw [starts_idx _ _ (by simp; omega), take_root ls _ hle]
      simp only [Res.bind_ok]
      have hlt : (wire (ls.take (ls.length - k))).length + 1 ≤ (wire (ls ++ [[]])).length := by
        have := wire_take_le ls (ls.length - k); simp; omega
      rw [slice_ok (by omega) hlt]
      simp only [Res.bind_ok, List.drop_zero, Nat.sub_zero]
      rw [idx_of_lt (by simp at hlt ⊢; omega)]
      simp only [Res.bind_ok]
      rw [slice_ok (by omega) (by simp), starts_drop]
      simp only [Res.bind_ok, List.take_zero, wire_nil, List.length_nil, List.drop_zero, Nat.sub_zero, Nat.add_zero]
      rw [raw_cut ls _ hle, starts_take, Res.pure_eq, ofLabels]
      congr 2
      rw [take_succ_last _ _ (by simp; omega), take_root ls _ hle, starts_append, starts_append]
      simp
  · rw [assertR_bind_panic (by simp; omega), if_neg hk]

theorem into_child_ofLabels {ls : List Label} (_h : ValidName ls) (k : Nat) :
    into_child (ofLabels ls) k =
      if k ≤ ls.length then .ok (ofLabels (ls.take (ls.length - k))) else .panic := by
  unfold into_child
  by_cases hk : k ≤ ls.length
  · rw [assertR_bind_ok (by simp; omega), if_pos hk]
    by_cases h0 : k = 0
    · subst h0; simp
    · rw [if_neg h0]
      simp only [ofLabels_offsets, ofLabels_raw, ofLabels_count]
      rw [csub_ok (by omega), show ls.length + 1 - k - 1 = ls.length - k by omega]
      simp only [Res.bind_ok]
      have hle : ls.length - k ≤ ls.length := by omega
      rw [starts_idx _ _ (by simp; omega), take_root ls _ hle]
      simp only [Res.bind_ok]
      have hlt : (wire (ls.take (ls.length - k))).length + 1 ≤ (wire (ls ++ [[]])).length := by
        have := wire_take_le ls (ls.length - k); simp; omega
      rw [idx_of_lt (by simp at hlt ⊢; omega)]
      simp only [Res.bind_ok]
      rw [raw_cut ls _ hle, starts_take, Res.pure_eq, ofLabels]
      congr 2
      rw [show ls.length + 1 - k = ls.length - k + 1 by omega, take_succ_last _ _ (by simp; omega), take_root ls _ hle, starts_append, starts_append]
      simp
  · rw [assertR_bind_panic (by simp; omega), if_neg hk]

/-- labels selected by `split start count`, the root label counting as label number `ls.length` -/
theorem split_ofLabels {ls : List Label} (h : ValidName ls) (st ct : Nat) :
    split (ofLabels ls) st ct =
      if st ≤ ls.length then .ok (ofLabels ((ls.drop st).take ct)) else .err := by
  unfold split
  by_cases hst : st ≤ ls.length
  · rw [ensure_bind_ok (by simp; omega), if_pos hst]
    simp only [ofLabels_count]
    by_cases hfull : ls.length + 1 ≤ st + ct
    · -- everything up to and including the root
      have hc : (if st + ct > ls.length + 1 then ls.length + 1 - st else ct) = ls.length + 1 - st := by
        split <;> omega
      rw [hc, if_pos (by omega)]
      simp only [ofLabels_offsets, ofLabels_raw]
      rw [starts_idx _ _ (by simp; omega), take_root ls st hst]
      simp only [Res.bind_ok]
      rw [starts_drop, take_root ls st hst, drop_root ls st hst, Nat.zero_add]
      have hne : 0 < (ls.drop st ++ [([] : Label)]).length := by simp
      have : idx (starts (wire (ls.take st)).length (ls.drop st ++ [([] : Label)])) 0 = .ok (wire (ls.take st)).length := by
        apply idx_ok; rw [starts_getElem? _ _ _ hne]; simp
      rw [this]
      simp only [Res.bind_ok]
      have hle := wire_take_le ls st
      rw [csub_ok (by rw [ofLabels_len]; omega)]
      simp only [Res.bind_ok]
      rw [raw_from ls st hst, List.take_of_length_le (l := starts _ _) (by simp; omega), subAll_starts']
      simp only [Res.bind_ok, Res.pure_eq]
      rw [List.drop_of_length_le (l := starts _ _) (by simp; omega), List.append_nil, List.take_of_length_le (by simp; omega)]
      rfl
    · have hc : (if st + ct > ls.length + 1 then ls.length + 1 - st else ct) = ct := by
        rw [if_neg (by omega)]
      rw [hc, if_neg (by omega)]
      simp only [ofLabels_offsets, ofLabels_raw]
      rw [slice_ok (by omega) (by simp; omega)]
      simp only [Res.bind_ok]
      have e1 : List.take (st + ct + 1 - st) (List.drop st (starts 0 (ls ++ [[]])))
          = starts (wire (ls.take st)).length ((ls.drop st ++ [[]]).take (ct + 1)) := by
        rw [starts_drop, take_root ls st hst, drop_root ls st hst, Nat.zero_add, starts_take]
        congr 2; omega
      have hls : ct ≤ (ls.drop st).length := by simp; omega
      have e2 : (ls.drop st ++ [([] : Label)]).take ct = (ls.drop st).take ct := List.take_append_of_le_length hls
      rw [e1]
      have hlen : ((ls.drop st ++ [([] : Label)]).take (ct + 1)).length = ct + 1 := by
        simp; omega
      have i0 : idx (starts (wire (ls.take st)).length ((ls.drop st ++ [[]]).take (ct + 1))) 0 = .ok (wire (ls.take st)).length := by
        apply idx_ok; rw [starts_getElem? _ _ _ (by omega)]; simp
      have ie : idx (starts (wire (ls.take st)).length ((ls.drop st ++ [[]]).take (ct + 1))) ct
          = .ok ((wire (ls.take st)).length + (wire ((ls.drop st).take ct)).length) := by
        apply idx_ok; rw [starts_getElem? _ _ _ (by omega), List.take_take, Nat.min_eq_left (by omega), e2]
      rw [i0]; simp only [Res.bind_ok]
      rw [ie]; simp only [Res.bind_ok]
      have hw := h.wire_le
      have hsum : (wire (ls.take st)).length + (wire ((ls.drop st).take ct)).length + (wire ((ls.drop st).drop ct)).length = (wire ls).length := by
        rw [← wire_take_drop ls st, ← wire_take_drop (ls.drop st) ct]; simp only [List.length_append]; omega
      rw [csub_ok (by omega)]
      simp only [Res.bind_ok]
      rw [cadd8_ok (by omega)]
      simp only [Res.bind_ok]
      rw [slice_ok (by omega) (by simp; omega)]
      simp only [Res.bind_ok]
      rw [starts_idx _ _ (by simp; omega), take_root ls st hst]
      simp only [Res.bind_ok]
      rw [List.take_of_length_le (l := starts _ _) (by rw [starts_length]; omega), subAll_starts']
      simp only [Res.bind_ok, Res.pure_eq]
      rw [List.drop_of_length_le (l := starts _ _) (by rw [starts_length]; omega), List.append_nil, ofLabels]
      congr 2
      · have h1 := wire_drop (ls ++ [[]]) st
        rw [take_root ls st hst, drop_root ls st hst] at h1
        rw [h1, Nat.add_sub_cancel_left]
        have h2 := wire_take (ls.drop st ++ [[]]) ct
        rw [e2] at h2
        rw [h2]; simp
      · rw [take_succ_last _ _ (by simp; omega), e2, starts_append, starts_append]
        simp
  · rw [ensure_bind_err (by simp; omega), if_neg hst]

theorem parent_ofLabels {ls : List Label} (h : ValidName ls) (k : Nat) :
    parent (ofLabels ls) k = if k ≤ ls.length then .ok (ofLabels (ls.drop k))
      else if k = ls.length + 1 then .err else .panic := by
  unfold parent
  rw [ofLabels_count]
  by_cases hk : k ≤ ls.length + 1
  · rw [csub_ok hk]
    simp only [Res.bind_ok]
    rw [split_ofLabels h]
    by_cases hk' : k ≤ ls.length
    · simp only [if_pos hk']
      rw [List.take_of_length_le (by simp; omega)]
    · rw [if_neg hk', if_neg hk', if_pos (by omega)]
  · rw [if_neg (by omega), if_neg (by omega)]
    simp [csub, hk]

/-! ## reverse -/

theorem revLoop_ofLabels {ls : List Label} (h : ValidName ls) (i : Nat) (hi : i ≤ ls.length) (acc : List Label)
    (hacc : (wire acc).length + (wire (ls.take i)).length ≤ 254) :
    revLoop (ofLabels ls) i (wire acc) (starts 0 acc) (wire acc).length
      = .ok (ofLabels (acc ++ (ls.take i).reverse)) := by
  induction i generalizing acc with
  | zero =>
    simp only [revLoop, ofLabels, List.take_zero, List.reverse_nil, List.append_nil]
    rw [Nat.mod_eq_of_lt (by omega), starts_append]
    simp
  | succ i ih =>
    simp only [revLoop, ofLabels_offsets, ofLabels_raw]
    rw [starts_idx _ _ (by simp; omega), take_root ls i (by omega)]
    simp only [Res.bind_ok]
    rw [starts_idx _ _ (by simp; omega), take_root ls (i + 1) hi]
    simp only [Res.bind_ok]
    have hs := wire_take_succ ls i (by omega)
    have hle := wire_take_le ls (i + 1)
    rw [slice_ok (by omega) (by simp; omega)]
    simp only [Res.bind_ok]
    rw [csub_ok (by omega)]
    simp only [Res.bind_ok]
    have hd := wire_drop (ls ++ [[]]) i
    rw [take_root ls i (by omega), drop_root ls i (by omega)] at hd
    rw [hd]
    have ht : List.take ((wire (ls.take (i + 1))).length - (wire (ls.take i)).length) (wire (ls.drop i ++ [[]])) = wire [ls[i]] := by
      rw [hs, List.drop_eq_getElem_cons (by omega), List.cons_append, wire_cons]
      rw [show (wire (ls.take i)).length + ls[i].length + 1 - (wire (ls.take i)).length = ls[i].length + 1 by omega]
      simp
    rw [ht, Nat.mod_eq_of_lt (by omega)]
    have := ih (by omega) (acc ++ [ls[i]]) (by
      simp only [wire_append, List.length_append] at hacc ⊢
      have : (wire [ls[i]]).length = ls[i].length + 1 := by simp
      omega)
    have e1 : wire acc ++ wire [ls[i]] = wire (acc ++ [ls[i]]) := by rw [wire_append]
    have e2 : starts 0 acc ++ [(wire acc).length] = starts 0 (acc ++ [ls[i]]) := by rw [starts_append]; simp
    have e3 : (wire acc).length + ((wire (ls.take (i + 1))).length - (wire (ls.take i)).length) = (wire (acc ++ [ls[i]])).length := by
      rw [wire_append]; simp only [List.length_append]
      have : (wire [ls[i]]).length = ls[i].length + 1 := by simp
      omega
    rw [e1, e2, e3, this, take_succ_last ls i (by omega), List.reverse_append, List.append_assoc]
    rfl

theorem reverse_ofLabels {ls : List Label} (h : ValidName ls) : reverse (ofLabels ls) = .ok (ofLabels ls.reverse) := by
  unfold reverse
  rw [ofLabels_count]
  by_cases h0 : ls = []
  · subst h0; simp
  · rw [if_neg (by have : ls.length ≠ 0 := by simpa using h0
                   omega), csub_ok (by omega)]
    simp only [Res.bind_ok, Nat.add_sub_cancel]
    have hw := h.wire_le
    have := revLoop_ofLabels h ls.length (Nat.le_refl _) [] (by simp; omega)
    simpa using this

theorem wire_perm_length {a b : List Label} (h : a.Perm b) : (wire a).length = (wire b).length := by
  induction h with
  | nil => rfl
  | cons x _ ih => simp [ih]
  | swap x y l => simp; omega
  | trans _ _ ih1 ih2 => omega

theorem ValidName.perm {a b : List Label} (h : ValidName a) (hp : a.Perm b) : ValidName b := by
  refine ⟨fun l hl => h.1 l (hp.mem_iff.mpr hl), ?_⟩
  have := h.2
  have := wire_perm_length hp
  simp [nameWire] at *; omega

/-! ## concat -/

theorem sumLens_ofLabels (nss : List (List Label)) (l c : Nat) :
    sumLens (nss.map ofLabels) (l, c) = .ok (l + (wire nss.flatten).length, c + nss.flatten.length) := by
  induction nss generalizing l c with
  | nil => simp [sumLens]
  | cons x xs ih =>
    simp only [List.map_cons, sumLens, ofLabels_count, ofLabels_len]
    rw [csub_ok (by omega), Res.bind_ok, csub_ok (by omega), Res.bind_ok, ih]
    simp only [Nat.add_sub_cancel, List.flatten_cons, wire_append, List.length_append]
    congr 2 <;> omega

theorem copyRaw_ofLabels (nss : List (List Label)) (h : nss ≠ []) :
    copyRaw (nss.map ofLabels) = .ok (wire (nss.flatten ++ [[]])) := by
  induction nss with
  | nil => exact absurd rfl h
  | cons x xs ih =>
    cases xs with
    | nil => simp [copyRaw]
    | cons y ys =>
      simp only [List.map_cons, copyRaw]
      rw [ofLabels_len, csub_ok (by omega)]
      simp only [Res.bind_ok, Nat.add_sub_cancel, ofLabels_raw]
      rw [slice_ok (by omega) (by simp)]
      simp only [Res.bind_ok]
      have := ih (by simp)
      simp only [List.map_cons] at this
      rw [this]
      simp

theorem addAll_starts (x b : Nat) (ls : List Label) (h : ls ≠ [] → b + x + (wire ls).length ≤ 256) :
    addAll x (starts b ls) = .ok (starts (b + x) ls) := by
  induction ls generalizing b with
  | nil => rfl
  | cons l ls ih =>
    have h1 := h (by simp)
    simp only [wire_length_cons] at h1
    simp only [starts_cons, addAll]
    rw [cadd8_ok (by omega)]
    simp only [Res.bind_ok]
    rw [ih (b + l.length + 1) (by intro _; omega)]
    simp only [Res.bind_ok, Res.pure_eq]
    congr 3; omega

theorem copyOffsets_ofLabels (nss : List (List Label)) (acc : List Label)
    (h : (wire (acc ++ nss.flatten)).length ≤ 254) :
    copyOffsets (nss.map ofLabels) (starts 0 (acc ++ [[]])) = .ok (starts 0 (acc ++ nss.flatten ++ [[]])) := by
  induction nss generalizing acc with
  | nil => simp [copyOffsets]
  | cons x xs ih =>
    simp only [List.map_cons, copyOffsets, starts_length, List.length_append, List.length_singleton]
    rw [csub_ok (by omega)]
    simp only [Res.bind_ok, Nat.add_sub_cancel]
    rw [starts_idx _ _ (by simp), take_root acc _ (Nat.le_refl _), List.take_length]
    simp only [Res.bind_ok, ofLabels_count, ofLabels_offsets]
    rw [slice_ok (by omega) (by simp)]
    simp only [Res.bind_ok]
    simp only [List.flatten_cons, wire_append, List.length_append] at h
    have key : ∀ x : List Label, (wire x).length + (wire acc).length ≤ 254 →
        addAll (wire acc).length (((starts 0 (x ++ [[]])).drop 1).take (x.length + 1 - 1))
          = .ok ((starts (wire acc).length (x ++ [[]])).drop 1) := by
      intro x hx
      rw [List.take_of_length_le (by simp)]
      cases x with
      | nil => rfl
      | cons l ls =>
        simp only [List.cons_append, starts_cons, List.drop_succ_cons, List.drop_zero]
        simp only [wire_length_cons] at hx
        rw [addAll_starts _ _ _ (by intro _; simp; omega)]
        congr 2; omega
    rw [key x (by omega)]
    simp only [Res.bind_ok]
    have e : starts 0 (acc ++ [[]]) ++ List.drop 1 (starts (wire acc).length (x ++ [[]])) = starts 0 (acc ++ x ++ [[]]) := by
      rw [List.append_assoc, starts_append 0 acc, starts_append 0 acc, Nat.zero_add, List.append_assoc]
      congr 1
      cases x <;> simp
    rw [e, ih (acc ++ x) (by simp only [wire_append, List.length_append]; omega)]
    simp

theorem concat_all_ofLabels {ls : List Label} (_h : ValidName ls) (nss : List (List Label)) (hne : nss ≠ []) :
    concat_all (ofLabels ls) (nss.map ofLabels) =
      if (nameWire (ls ++ nss.flatten)).length ≤ 255 ∧ (ls ++ nss.flatten).length + 1 ≤ 128
      then .ok (ofLabels (ls ++ nss.flatten)) else .err := by
  unfold concat_all
  rw [sumLens_ofLabels]
  simp only [Res.bind_ok, ofLabels_len, ofLabels_count]
  have e1 : (nameWire (ls ++ nss.flatten)).length = (wire ls).length + 1 + (wire nss.flatten).length := by
    simp [nameWire]; omega
  have e2 : (ls ++ nss.flatten).length + 1 = ls.length + 1 + nss.flatten.length := by simp; omega
  rw [e1, e2]
  by_cases h1 : (wire ls).length + 1 + (wire nss.flatten).length ≤ 255
  · rw [ensure_bind_ok (by simpa [MAX_WIRE_LEN] using h1)]
    by_cases h2 : ls.length + 1 + nss.flatten.length ≤ 128
    · rw [ensure_bind_ok (by simpa [MAX_LABEL_COUNT] using h2), if_pos ⟨h1, h2⟩]
      rw [csub_ok (by omega)]
      simp only [Res.bind_ok, Nat.add_sub_cancel, ofLabels_raw, ofLabels_offsets]
      rw [slice_ok (by omega) (by simp)]
      simp only [Res.bind_ok]
      rw [copyRaw_ofLabels nss hne]
      simp only [Res.bind_ok]
      rw [copyOffsets_ofLabels nss ls (by simp; omega)]
      simp [ofLabels]
    · rw [ensure_bind_err (by simpa [MAX_LABEL_COUNT] using h2), if_neg (by omega)]
  · rw [ensure_bind_err (by simpa [MAX_WIRE_LEN] using h1), if_neg (by omega)]

end Name
end R53
