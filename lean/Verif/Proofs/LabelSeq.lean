import Verif.Proofs.NameRel
/-!
# Label sequences
-/
namespace R53

/-- a run of labels that fits a name: at most 255 octets, labels of at most 63 octets -/
def SeqOK (ls : List Label) : Prop := (∀ l ∈ ls, l.length ≤ 63) ∧ (wire ls).length ≤ 255

instance (ls : List Label) : Decidable (SeqOK ls) := by unfold SeqOK; infer_instance

theorem SeqOK.root {ls : List Label} (h : ValidName ls) : SeqOK (ls ++ [[]]) :=
  ⟨Name.h63root h, by have := h.wire_le; simp; omega⟩

theorem SeqOK.sublist {a b : List Label} (h : SeqOK a) (hs : b.Sublist a) : SeqOK b := by
  refine ⟨fun l hl => h.1 l (hs.subset hl), ?_⟩
  have : (wire b).length ≤ (wire a).length := by
    clear h
    induction hs with
    | slnil => simp
    | cons a _ ih => simp; omega
    | cons_cons a _ ih => simp; omega
  have := h.2
  omega

namespace LabelSequence

theorem drain_ok {α : Type} {l : List α} {a b : Nat} (h1 : a ≤ b) (h2 : b ≤ l.length) :
    drain l a b = .ok ((l.drop a).take (b - a), l.take a ++ l.drop b) := by
  unfold drain; rw [slice_ok h1 h2]; rfl

/-- octets of labels `a .. a+n` -/
theorem wire_mid (ls : List Label) (a n : Nat) :
    ((wire ls).drop (wire (ls.take a)).length).take ((wire (ls.take (a + n))).length - (wire (ls.take a)).length)
      = wire ((ls.drop a).take n) := by
  rw [wire_drop]
  have h : (wire (ls.take (a + n))).length = (wire (ls.take a)).length + (wire ((ls.drop a).take n)).length := by
    rw [List.take_add, wire_append, List.length_append]
  rw [h, Nat.add_sub_cancel_left, wire_take]

theorem take_full_or {ls : List Label} (a n : Nat) : ls.take (a + n) = ls.take a ++ (ls.drop a).take n := List.take_add

theorem split_ofLabels {ls : List Label} (h : SeqOK ls) (st ct : Nat) :
    split (ofLabels ls) st ct =
      if st < ls.length ∧ 0 < ct then
        .ok (ofLabels ((ls.drop st).take ct), ofLabels (ls.take st ++ ls.drop (st + ct)))
      else .err := by
  unfold split
  simp only [label_count, ofLabels, starts_length]
  by_cases hc : st < ls.length ∧ 0 < ct
  · rw [ensure_bind_ok (by omega), if_pos hc]
    -- the clamped count
    obtain ⟨n, hn, hn0, hle, htake, hdrop⟩ : ∃ n, (if st + ct > ls.length then ls.length - st else ct) = n ∧ 0 < n ∧
        st + n ≤ ls.length ∧ (ls.drop st).take ct = (ls.drop st).take n ∧ ls.drop (st + ct) = ls.drop (st + n) := by
      by_cases hb : st + ct > ls.length
      · refine ⟨ls.length - st, by rw [if_pos hb], by omega, by omega, ?_, ?_⟩
        · rw [List.take_of_length_le (by simp; omega), List.take_of_length_le (by simp)]
        · rw [List.drop_of_length_le (by omega), List.drop_of_length_le (by omega)]
      · exact ⟨ct, by rw [if_neg hb], hc.2, by omega, rfl, rfl⟩
    rw [hn, htake, hdrop]
    clear hn htake hdrop
    have hlast : st + n - 1 < ls.length := by omega
    have hsucc : (wire (ls.take (st + n))).length =
        (wire (ls.take (st + n - 1))).length + (ls[st + n - 1].length + 1) := by
      have := wire_take_succ ls (st + n - 1) hlast
      rw [show st + n - 1 + 1 = st + n by omega] at this; omega
    have h63 := h.1 ls[st + n - 1] (List.getElem_mem hlast)
    have hle' := wire_take_le ls (st + n)
    have h255 := h.2
    have hmono : (wire (ls.take st)).length ≤ (wire (ls.take (st + n))).length := by
      rw [List.take_add, wire_append]; simp
    rw [starts_idx ls _ hlast, Res.bind_ok, wire_idx_len ls _ hlast, Res.bind_ok, u8_len h63,
      cadd8_ok (by omega), Res.bind_ok, cadd8_ok (by omega), Res.bind_ok, starts_idx ls st (by omega), Res.bind_ok,
      ← hsucc, csub_ok hmono, Res.bind_ok, drain_ok hmono hle', Res.bind_ok,
      show st + n - 1 + 1 = st + n by omega, drain_ok (by omega) (by simp; omega), Res.bind_ok]
    simp only
    rw [wire_mid, wire_take, wire_drop, Nat.add_sub_cancel_left, starts_drop, starts_drop, starts_take, starts_take]
    simp only [Nat.zero_add]
    have hL : (wire (ls.take (st + n))).length = (wire (ls.take st)).length + (wire ((ls.drop st).take n)).length := by
      rw [List.take_add, wire_append, List.length_append]
    by_cases h0 : st = 0
    · subst h0
      rw [if_pos rfl]
      simp only [List.take_zero, wire_nil, List.length_nil, Nat.sub_zero, starts_nil, List.nil_append, List.drop_zero]
      rw [subAll_starts']
      rfl
    · rw [if_neg h0]
      rw [show (starts 0 (ls.take st) ++ starts (wire (ls.take (st + n))).length (ls.drop (st + n))).drop st
          = starts (wire (ls.take (st + n))).length (ls.drop (st + n)) by
        rw [List.drop_append_of_le_length (by simp; omega), List.drop_of_length_le (by simp; omega), List.nil_append]]
      rw [show (starts 0 (ls.take st) ++ starts (wire (ls.take (st + n))).length (ls.drop (st + n))).take st
          = starts 0 (ls.take st) by
        rw [List.take_append_of_le_length (by simp; omega), List.take_of_length_le (by simp; omega)]]
      rw [hL, Nat.add_sub_cancel_left, subAll_starts, Res.bind_ok]
      have i0 : idx (starts (wire (ls.take st)).length ((ls.drop st).take n)) 0 = .ok (wire (ls.take st)).length := by
        apply idx_ok; rw [starts_getElem? _ _ _ (by simp; omega)]; simp
      rw [i0, Res.bind_ok, subAll_starts', Res.bind_ok]
      simp only [Res.pure_eq, Res.ok.injEq, Prod.mk.injEq, true_and, LabelSequence.mk.injEq]
      refine ⟨by rw [wire_append], ?_⟩
      rw [starts_append, Nat.zero_add]
  · rw [ensure_bind_err (by omega), if_neg hc]

end LabelSequence

namespace Name

theorem into_label_sequence_ofLabels {ls : List Label} (h : ValidName ls) (a b : Nat) :
    into_label_sequence (ofLabels ls) a b =
      if a ≤ b ∧ b ≤ ls.length then .ok (LabelSequence.ofLabels (((ls ++ [[]]).take (b + 1)).drop a)) else .panic := by
  have hs := SeqOK.root h
  have hcl : (ls ++ [([] : Label)]).length = ls.length + 1 := by simp
  unfold into_label_sequence
  simp only [ofLabels_raw, ofLabels_offsets]
  generalize ls ++ [([] : Label)] = L at *
  by_cases hb : b < L.length
  · have hsucc := wire_take_succ L b hb
    have h63 := hs.1 L[b] (List.getElem_mem hb)
    have hle := wire_take_le L (b + 1)
    have h255 := hs.2
    rw [starts_idx L _ hb, Res.bind_ok, wire_idx_len L _ hb, Res.bind_ok, u8_len h63, cadd8_ok (by omega), Res.bind_ok,
      cadd8_ok (by omega), Res.bind_ok, show (wire (L.take b)).length + (L[b].length + 1) = (wire (L.take (b + 1))).length by omega,
      LabelSequence.drain_ok hle (Nat.le_refl _), Res.bind_ok]
    simp only [starts_length]
    rw [LabelSequence.drain_ok (by omega) (by simp), Res.bind_ok]
    simp only
    rw [wire_take, List.drop_of_length_le (Nat.le_refl _), List.drop_of_length_le (l := starts 0 L) (by simp),
      List.append_nil, List.append_nil, starts_take]
    by_cases ha : a ≤ b
    · rw [if_pos (show a ≤ b ∧ b ≤ ls.length by omega)]
      by_cases h0 : a = 0
      · subst h0; rw [if_neg (by omega)]; rfl
      · rw [if_pos h0]
        have hal : a < (L.take (b + 1)).length := by simp; omega
        rw [starts_idx _ _ hal, Res.bind_ok, LabelSequence.drain_ok (by omega) (wire_take_le _ _), Res.bind_ok,
          LabelSequence.drain_ok (by omega) (by simp; omega), Res.bind_ok]
        simp only [List.take_zero, List.nil_append]
        rw [wire_drop, starts_drop, Nat.zero_add]
        have i0 : idx (starts (wire ((L.take (b + 1)).take a)).length ((L.take (b + 1)).drop a)) 0
            = .ok (wire ((L.take (b + 1)).take a)).length := by
          apply idx_ok; rw [starts_getElem? _ _ _ (by simp; omega)]; simp
        rw [i0, Res.bind_ok, subAll_starts', Res.bind_ok]
        rfl
    · rw [if_neg (show ¬ (a ≤ b ∧ b ≤ ls.length) by omega), if_pos (show a ≠ 0 by omega)]
      have : idx (starts 0 (L.take (b + 1))) a = .panic := by
        unfold idx; rw [List.getElem?_eq_none (by simp; omega)]
      rw [this]; rfl
  · rw [if_neg (by omega)]
    have : idx (starts 0 L) b = .panic := by
      unfold idx; rw [List.getElem?_eq_none (by simp; omega)]
    rw [this]; rfl

end Name

namespace LabelSequence

/-- the last octet of a label run -/
def lastOctet (ls : List Label) : Option UInt8 := (wire ls).getLast?

theorem is_absolute_ofLabels {ls : List Label} (hne : ls ≠ []) :
    is_absolute (ofLabels ls) = .ok (decide (lastOctet ls = some 0)) := by
  unfold is_absolute ofLabels
  simp only
  have hpos : 0 < (wire ls).length := by
    have := wire_length_ge ls
    have : 0 < ls.length := List.length_pos_iff.mpr hne
    omega
  rw [csub_ok (by omega), Res.bind_ok, idx_of_lt (by omega), Res.bind_ok]
  have : lastOctet ls = some (wire ls)[(wire ls).length - 1] := by
    unfold lastOctet
    rw [List.getLast?_eq_getElem?, List.getElem?_eq_getElem (by omega)]
  rw [this]
  simp only [Res.pure_eq, Res.ok.injEq, Option.some.injEq]
  rfl

theorem lastOctet_root (ls : List Label) : lastOctet (ls ++ [[]]) = some 0 := by
  simp [lastOctet]

theorem scan_ofLabels (seqs : List (List Label)) (mid last : Bool) (len cnt : Nat) (hne : ∀ s ∈ seqs, s ≠ []) :
    scan (seqs.map ofLabels) (mid, last, len, cnt) =
      .ok (mid || seqs.dropLast.any (fun s => decide (lastOctet s = some 0)),
           last && (match seqs.getLast? with | none => true | some s => decide (lastOctet s = some 0)),
           len + (wire seqs.flatten).length, cnt + seqs.flatten.length) := by
  induction seqs generalizing mid last len cnt with
  | nil => simp [scan]
  | cons x xs ih =>
    simp only [List.map_cons, scan]
    rw [is_absolute_ofLabels (hne x (by simp)), Res.bind_ok]
    cases xs with
    | nil =>
      simp only [List.map_nil, ne_eq, not_true_eq_false, if_false, scan]
      simp [LabelSequence.len, label_count, ofLabels]
    | cons y ys =>
      rw [if_pos (by simp)]
      rw [ih _ _ _ _ (fun s hs => hne s (by simp [hs]))]
      simp only [List.dropLast_cons₂, List.any_cons, List.getLast?_cons_cons, List.flatten_cons, wire_append,
        List.length_append, LabelSequence.len, label_count, ofLabels, starts_length, Bool.or_assoc, Nat.add_assoc]

theorem walk_wire (ls rest : List Label) (data : List UInt8) (pos : Nat) (h63 : ∀ l ∈ ls, l.length ≤ 63)
    (hd : data.drop pos = wire (ls ++ rest)) (hp : pos + (wire ls).length ≤ 256) :
    walk data ls.length pos = .ok (starts pos ls) := by
  induction ls generalizing pos with
  | nil => rfl
  | cons l ls ih =>
    have hl := h63 l (by simp)
    simp only [List.length_cons, walk]
    rw [List.cons_append, wire_cons] at hd
    obtain ⟨h1, h2⟩ := drop_cons_idx hd
    rw [h1, Res.bind_ok, u8_len hl]
    have h3 := drop_append_drop h2
    rw [wire_length_cons] at hp
    rw [show pos + l.length + 1 = pos + 1 + l.length by omega,
      ih _ (fun x hx => h63 x (by simp [hx])) h3 (by omega)]
    simp only [Res.bind_ok, Res.pure_eq, starts_cons]
    rw [Nat.mod_eq_of_lt (by omega), show pos + l.length + 1 = pos + 1 + l.length by omega]

theorem flatMap_data (seqs : List (List Label)) :
    (seqs.map ofLabels).flatMap (·.data) = wire seqs.flatten := by
  induction seqs with
  | nil => rfl
  | cons x xs ih => simp only [List.map_cons, List.flatMap_cons, ih, List.flatten_cons, wire_append, ofLabels]

theorem wire_offsets_count (ls : List Label) : (starts 0 ls).length = ls.length := by simp

/-- `concat_all` on sequences, exactly -/
theorem concat_all_ofLabels {s : List Label} (seqs : List (List Label)) (hs : s ≠ []) (hne : ∀ x ∈ seqs, x ≠ [])
    (h63 : ∀ l ∈ s ++ seqs.flatten, l.length ≤ 63) :
    concat_all (ofLabels s) (seqs.map ofLabels) =
      if lastOctet s = some 0 then
        if seqs = [] then .ok ⟨wire s, starts 0 s⟩ else .err
      else if (∀ x ∈ seqs.dropLast, lastOctet x ≠ some 0) ∧ (∀ x, seqs.getLast? = some x → lastOctet x = some 0) ∧
          (wire (s ++ seqs.flatten)).length ≤ 255 ∧ (s ++ seqs.flatten).length ≤ 128 then
        .ok ⟨wire (s ++ seqs.flatten), starts 0 (s ++ seqs.flatten)⟩
      else .err := by
  unfold concat_all
  rw [is_absolute_ofLabels hs, Res.bind_ok]
  by_cases ha : lastOctet s = some 0
  · simp only [ha, decide_true, if_true]
    simp only [List.map_eq_nil_iff]
    rfl
  · simp only [ha, decide_false, if_false, Bool.false_eq_true]
    rw [scan_ofLabels seqs _ _ _ _ hne, Res.bind_ok]
    simp only [Bool.false_or, Bool.true_and]
    have hlen : (ofLabels s).len + (wire seqs.flatten).length = (wire (s ++ seqs.flatten)).length := by
      simp [LabelSequence.len, ofLabels]
    have hcnt : (ofLabels s).label_count + seqs.flatten.length = (s ++ seqs.flatten).length := by
      simp [label_count, ofLabels]
    rw [hlen, hcnt]
    have hmid : seqs.dropLast.any (fun s => decide (lastOctet s = some 0)) = false ↔ ∀ x ∈ seqs.dropLast, lastOctet x ≠ some 0 := by
      simp [List.any_eq_false]
    have hlast : (match seqs.getLast? with | none => true | some s => decide (lastOctet s = some 0)) = true ↔
        ∀ x, seqs.getLast? = some x → lastOctet x = some 0 := by
      cases seqs.getLast? <;> simp
    by_cases h1 : (∀ x ∈ seqs.dropLast, lastOctet x ≠ some 0) ∧ (∀ x, seqs.getLast? = some x → lastOctet x = some 0)
    · rw [ensure_bind_ok ⟨hmid.mpr h1.1, hlast.mpr h1.2⟩]
      by_cases h2 : (wire (s ++ seqs.flatten)).length ≤ 255
      · rw [ensure_bind_ok (by exact h2)]
        by_cases h3 : (s ++ seqs.flatten).length ≤ 128
        · rw [ensure_bind_ok (by exact h3), if_pos ⟨h1.1, h1.2, h2, h3⟩, flatMap_data]
          have hd : (ofLabels s).data ++ wire seqs.flatten = wire (s ++ seqs.flatten) := by simp [ofLabels]
          rw [hd, walk_wire (s ++ seqs.flatten) [] _ 0 h63 (by simp) (by omega)]
          rfl
        · rw [ensure_bind_err (by exact h3), if_neg (fun h => h3 h.2.2.2)]
      · rw [ensure_bind_err (by exact h2), if_neg (fun h => h2 h.2.2.1)]
    · rw [ensure_bind_err (fun h => h1 ⟨hmid.mp h.1, hlast.mp h.2⟩), if_neg (fun h => h1 ⟨h.1, h.2.1⟩)]

end LabelSequence
end R53
