import Verif.Spec.Present
import Verif.Props.LabelSeq
/-!
# C05, C80: the text of any name
-/
namespace R53

theorem presentOctet_eq (c : UInt8) : presentOctet c = LabelSlice.dispByte c := by
  revert c; apply forall_u8'; decide +kernel

theorem present_nil {l : Label} : present l = [] ↔ l = [] := by
  cases l with
  | nil => simp [present]
  | cons c l =>
    have : presentOctet c ≠ [] := by revert c; apply forall_u8'; decide +kernel
    simp [present, this]

/-! ## reading what was written -/

theorem read_octet (c : UInt8) (l : Label) (t : List UInt8) : rfcRead .no l (presentOctet c ++ t) = rfcRead .no (l ++ [c]) t := by
  have key : ∀ c : UInt8,
      (c ∈ [0x22, 0x28, 0x29, 0x2E, 0x3B, 0x5C, 0x40, 0x24] → digit? c = false) ∧
      (c ∉ [0x22, 0x28, 0x29, 0x2E, 0x3B, 0x5C, 0x40, 0x24] → c ≠ 92 ∧ c ≠ 46) ∧
      digit? (48 + c / 100) = true ∧ digit? (48 + c / 10 % 10) = true ∧ digit? (48 + c % 10) = true ∧
      ddd (48 + c / 100) (48 + c / 10 % 10) (48 + c % 10) = some c := by
    apply forall_u8'; decide +kernel
  obtain ⟨k1, k2, k3, k4, k5, k6⟩ := key c
  unfold presentOctet
  by_cases h1 : c ∈ [0x22, 0x28, 0x29, 0x2E, 0x3B, 0x5C, 0x40, 0x24]
  · rw [if_pos h1]
    simp only [List.cons_append, List.nil_append, rfcRead, if_true, k1 h1, Bool.false_eq_true, if_false]
  · rw [if_neg h1]
    split
    · simp only [List.cons_append, List.nil_append, rfcRead, if_neg (k2 h1).1, if_neg (k2 h1).2]
    · simp only [List.cons_append, List.nil_append, rfcRead, if_true, k3, k4, k5, k6, Option.bind_some]

theorem read_label (l k : Label) (t : List UInt8) : rfcRead .no k (present l ++ t) = rfcRead .no (k ++ l) t := by
  induction l generalizing k with
  | nil => simp [present]
  | cons c l ih =>
    have : present (c :: l) = presentOctet c ++ present l := by simp [present]
    rw [this, List.append_assoc, read_octet, ih]; simp

theorem read_run (l : Label) (ls : List Label) (h : ∀ k ∈ (l :: ls).dropLast, k ≠ []) :
    rfcRead .no [] (List.intercalate [46] ((l :: ls).map present)) = some (l :: ls) := by
  induction ls generalizing l with
  | nil =>
    have := read_label l [] []
    simp only [List.append_nil, List.nil_append] at this
    simp [List.intercalate, this, rfcRead]
  | cons k ls ih =>
    have hl : l ≠ [] := h l (by simp)
    have := ih k (fun x hx => h x (by simp [hx]))
    rw [List.map_cons, LabelSequence.intercalate_cons]
    rw [List.map_cons, LabelSequence.intercalate_cons] at this
    simp only [List.map_cons, List.flatMap_cons, List.cons_append]
    rw [read_label]
    simp only [rfcRead, List.nil_append]
    rw [if_neg (by decide), if_pos trivial, if_neg hl, this]; rfl

theorem run_inner {ls : List Label} (h : IsRun ls) : ∀ k ∈ ls.dropLast, k ≠ [] := by
  obtain ⟨-, n, hv, rfl | rfl⟩ := h
  · intro k hk e; subst e; have := (hv.1 [] (List.dropLast_subset _ hk)).1; simp at this
  · intro k hk e; subst e
    rw [List.dropLast_concat] at hk
    have := (hv.1 [] hk).1; simp at this

theorem map_present_root {ls : List Label} : ls.map present = [[]] ↔ ls = [[]] := by
  cases ls with
  | nil => simp
  | cons l ls => cases ls <;> simp [present_nil]

/-- the text of a run of labels, read as the RFC says, gives these labels: with the root label if the run has it, without if not -/
theorem c80_text_rfc (ls : List Label) (h : IsRun ls) : rfcLabels (joinDots (ls.map present)) = some ls := by
  unfold rfcLabels joinDots
  by_cases hr : ls = [[]]
  · subst hr; decide +kernel
  · have hm : ¬ ls.map present = [[]] := fun e => hr (map_present_root.1 e)
    simp only [if_neg hm]
    clear hm
    cases ls with
    | nil => exact absurd rfl h.1
    | cons l ls =>
      have hl : l ≠ [] := by
        cases ls with
        | nil => intro e; subst e; exact hr rfl
        | cons k ls => exact run_inner h l (by simp)
      have hp : present l ≠ [] := fun e => hl (present_nil.1 e)
      obtain ⟨c, u, hu⟩ : ∃ c u, present l = c :: u := by
        cases e : present l with
        | nil => exact absurd e hp
        | cons c u => exact ⟨c, u, rfl⟩
      have hh : List.intercalate [46] ((l :: ls).map present) ≠ [46] := by
        rw [List.map_cons, LabelSequence.intercalate_cons]
        intro e
        have h1 := read_label l [] ((ls.map present).flatMap (46 :: ·))
        rw [e] at h1
        have h2 : present l = [46] := by
          rw [hu] at e ⊢
          simp only [List.cons_append, List.cons.injEq, List.append_eq_nil_iff] at e
          rw [e.1, e.2.1]
        have key : ∀ c : UInt8, ∀ v : List UInt8, presentOctet c ++ v ≠ [46] := by
          intro c v e
          have : ∀ c : UInt8, (presentOctet c).head? ≠ some 46 ∧ presentOctet c ≠ [] := by apply forall_u8'; decide +kernel
          cases hc : presentOctet c with
          | nil => exact (this c).2 hc
          | cons x y => rw [hc] at e; simp only [List.cons_append, List.cons.injEq] at e; have := (this c).1; rw [hc, e.1] at this; exact this rfl
        cases l with
        | nil => exact hl rfl
        | cons c l => exact key c (present l) (by simpa [present] using h2)
      rw [if_neg (by rw [List.map_cons, LabelSequence.intercalate_cons, hu]; simp), if_neg hh]
      exact read_run l ls (run_inner h)

/-! ## what is written -/

theorem dispLoop_any (ls tail : List Label) (buf : List UInt8) (hb : buf ≠ []) (hv : ∀ l ∈ ls, ValidLabel l) (ht : tail = [] ∨ tail = [[]]) :
    LabelSlice.dispLoop (wire (ls ++ tail)) buf = .ok (buf ++ (ls ++ tail).flatMap (46 :: present ·)) := by
  induction ls generalizing buf with
  | nil =>
    rcases ht with rfl | rfl
    · rw [List.append_nil, wire_nil, LabelSlice.dispLoop]; simp
    · rw [List.nil_append, wire_root, LabelSlice.dispLoop]; simp [present]
  | cons l ls ih =>
    have hl := hv l (by simp)
    have hu := u8_len hl.2
    rw [List.cons_append, wire_cons, LabelSlice.dispLoop]
    have h0 : UInt8.ofNat l.length ≠ 0 := by
      intro h'; have := congrArg UInt8.toNat h'; rw [hu] at this; simp at this; have := hl.1; subst_vars; simp_all
    simp only [if_neg h0, if_neg hb, hu]
    rw [if_neg (by simp), List.take_left, List.drop_left, ih _ (by simp) (fun x hx => hv x (by simp [hx]))]
    have : l.flatMap LabelSlice.dispByte = present l := by
      unfold present; exact congrArg (l.flatMap ·) (funext fun c => (presentOctet_eq c).symm)
    simp [this]

theorem disp_run {ls : List Label} (h : IsRun ls) : LabelSlice.dispLoop (wire ls) [] = .ok (joinDots (ls.map present)) := by
  by_cases hr : ls = [[]]
  · subst hr
    rw [wire_root, LabelSlice.dispLoop]; simp [joinDots, present]
  unfold joinDots
  rw [if_neg (by rw [map_present_root]; exact hr)]
  obtain ⟨n, tail, rfl, hv, ht⟩ : ∃ n tail, ls = n ++ tail ∧ ValidName n ∧ (tail = [] ∨ tail = [[]]) := by
    obtain ⟨-, n, hv, rfl | rfl⟩ := h
    · exact ⟨_, [], by simp, hv, .inl rfl⟩
    · exact ⟨n, _, rfl, hv, .inr rfl⟩
  cases n with
  | nil =>
    rcases ht with rfl | rfl
    · exact absurd rfl h.1
    · exact absurd rfl hr
  | cons l n =>
    have hl := hv.1 l (by simp)
    have hu := u8_len hl.2
    have hne : l ≠ [] := by intro h'; have := hl.1; rw [h'] at this; simp at this
    have h0 : UInt8.ofNat l.length ≠ 0 := by
      intro h'; have := congrArg UInt8.toNat h'; rw [hu] at this; simp at this; have := hl.1; subst_vars; simp_all
    rw [List.cons_append, wire_cons, LabelSlice.dispLoop]
    simp only [if_neg h0, hu]
    have hp : l.flatMap LabelSlice.dispByte = present l := by
      unfold present; exact congrArg (l.flatMap ·) (funext fun c => (presentOctet_eq c).symm)
    rw [if_neg (by simp), List.take_left, List.drop_left, if_pos trivial, List.nil_append, hp,
      dispLoop_any n tail _ (fun e => hne (present_nil.1 e)) (fun x hx => hv.1 x (by simp [hx])) ht, List.map_cons, LabelSequence.intercalate_cons]
    simp [List.flatMap_map]

/-- a label sequence prints as its labels in the notation of RFC 1035 joined by dots, whatever their octets -/
theorem c80_text (ls : List Label) (h : IsRun ls) : LabelSequence.to_string (LabelSequence.ofLabels ls) = .ok (joinDots (ls.map present)) := by
  obtain ⟨s, e1, h1⟩ := LabelSlice.c80_slice_new.2 ls h
  obtain ⟨-, -, h2⟩ := LabelSlice.c80_slice_octets s ls h1
  unfold LabelSequence.to_string LabelSlice.to_string
  rw [e1, Res.bind_ok, h2, Res.bind_ok, disp_run h]

/-- so does every slice of a name or sequence -/
theorem c80_slice_text (s : LabelSlice) (ls : List Label) (h : s.Shows ls) : s.to_string = .ok (joinDots (ls.map present)) := by
  obtain ⟨-, -, h2⟩ := LabelSlice.c80_slice_octets s ls h
  unfold LabelSlice.to_string
  rw [h2, Res.bind_ok, disp_run h.run]

/-- a name prints as its text in the notation of RFC 1035, whatever its octets, and a reader that follows the RFC gets the same labels.
Names with different labels have different texts. -/
theorem c05_text (ls : List Label) (h : ValidName ls) :
    Name.to_string (Name.ofLabels ls) = .ok (joinDots ((ls ++ [[]]).map present)) ∧
    rfcLabels (joinDots ((ls ++ [[]]).map present)) = some (ls ++ [[]]) ∧
    ∀ ks, ValidName ks → Name.to_string (Name.ofLabels ks) = Name.to_string (Name.ofLabels ls) → ks = ls := by
  have run : ∀ ls : List Label, ValidName ls → IsRun (ls ++ [[]]) := fun ls h => ⟨by simp, ls, h, .inr rfl⟩
  have text : ∀ ls : List Label, ValidName ls → Name.to_string (Name.ofLabels ls) = .ok (joinDots ((ls ++ [[]]).map present)) := by
    intro ls h
    obtain ⟨s, e, hs⟩ := LabelSlice.c80_slice_new.1 ls h
    have := c80_slice_text s _ hs
    unfold Name.to_string
    rw [e]; exact this
  refine ⟨text ls h, c80_text_rfc _ (run ls h), fun ks hk e => ?_⟩
  rw [text ls h, text ks hk] at e
  have h1 := c80_text_rfc _ (run ls h)
  have h2 := c80_text_rfc _ (run ks hk)
  rw [Res.ok.inj e, h1] at h2
  exact (List.append_inj_left' (Option.some.inj h2) rfl).symm

/-- a name of special, invisible and large octets -/
theorem c05_text_example : ValidName [[0, 46, 92, 49], [255, 97]] ∧
    Name.to_string (Name.ofLabels [[0, 46, 92, 49], [255, 97]]) = .ok [92, 48, 48, 48, 92, 46, 92, 92, 49, 46, 92, 50, 53, 53, 97, 46] ∧
    rfcLabels [92, 48, 48, 48, 92, 46, 92, 92, 49, 46, 92, 50, 53, 53, 97, 46] = some [[0, 46, 92, 49], [255, 97], []] := by
  decide +kernel

end R53
