import Verif.Proofs.LabelSeq
import Verif.Props.NameCmp
/-!
# C13–C18: taking names apart and putting them together
-/
namespace R53
namespace Name

/-! ## C13 -/

/-- `split(start, count)`: labels `start .. start+count` under the root; `Err` only past the root label -/
theorem c13_split {ls : List Label} (h : ValidName ls) (start count : Nat) :
    split (ofLabels ls) start count =
      (if start ≤ ls.length then .ok (ofLabels ((ls.drop start).take count)) else .err) ∧
    ValidName ((ls.drop start).take count) :=
  ⟨split_ofLabels h start count, h.sublist ((List.take_sublist _ _).trans (List.drop_sublist _ _))⟩

/-- `strip_left(k)` and `into_ancestor(k)`: all but the first `k` labels; assertion failure past the root -/
theorem c13_strip_left {ls : List Label} (h : ValidName ls) (k : Nat) :
    strip_left (ofLabels ls) k = (if k ≤ ls.length then .ok (ofLabels (ls.drop k)) else .panic) ∧
    into_ancestor (ofLabels ls) k = strip_left (ofLabels ls) k ∧ ValidName (ls.drop k) :=
  ⟨strip_left_ofLabels h k, by rw [into_ancestor_ofLabels h, strip_left_ofLabels h], h.sublist (List.drop_sublist _ _)⟩

/-- `strip_right(k)` and `into_child(k)`: all but the last `k` labels, under the root -/
theorem c13_strip_right {ls : List Label} (h : ValidName ls) (k : Nat) :
    strip_right (ofLabels ls) k =
      (if k ≤ ls.length then .ok (ofLabels (ls.take (ls.length - k))) else .panic) ∧
    into_child (ofLabels ls) k = strip_right (ofLabels ls) k ∧ ValidName (ls.take (ls.length - k)) :=
  ⟨strip_right_ofLabels h k, by rw [into_child_ofLabels h, strip_right_ofLabels h], h.sublist (List.take_sublist _ _)⟩

/-- `parent(k)`: all but the first `k` labels; one past the root is `Err`, further is a panic (with overflow checks; without: `c96_parent`) -/
theorem c13_parent {ls : List Label} (h : ValidName ls) (k : Nat) :
    parent (ofLabels ls) k = (if k ≤ ls.length then .ok (ofLabels (ls.drop k))
      else if k = ls.length + 1 then .err else .panic) ∧ ValidName (ls.drop k) :=
  ⟨parent_ofLabels h k, h.sublist (List.drop_sublist _ _)⟩

/-- cutting a name in two and joining the halves gives the name back -/
theorem c13_cut_join {ls : List Label} (h : ValidName ls) (k : Nat) (hk : k ≤ ls.length) :
    ∃ l r, strip_right (ofLabels ls) (ls.length - k) = .ok l ∧ strip_left (ofLabels ls) k = .ok r ∧
      concat l r = .ok (ofLabels ls) := by
  refine ⟨ofLabels (ls.take k), ofLabels (ls.drop k), ?_, ?_, ?_⟩
  · rw [strip_right_ofLabels h, if_pos (by omega)]; congr 3; omega
  · rw [strip_left_ofLabels h, if_pos hk]
  · have := concat_all_ofLabels (h.sublist (List.take_sublist k ls)) [ls.drop k] (by simp)
    unfold concat
    simp only [List.map_cons, List.map_nil, List.flatten_cons, List.flatten_nil, List.append_nil,
      List.take_append_drop] at this
    rw [this, if_pos ⟨h.2, by have := h.count; omega⟩]

example : split (ofLabels wwwUp) 1 1 = .ok (ofLabels (wwwUp.drop 1)) ∧
    strip_right (ofLabels wwwUp) 1 = .ok (ofLabels [[119, 119, 119]]) ∧ parent (ofLabels wwwUp) 4 = .panic := by decide

/-! ## C14 -/

/-- `concat_all` with at least one suffix: the labels in order, `Err` exactly over the limit, no panic -/
theorem c14_concat_all_partial {ls : List Label} (h : ValidName ls) (nss : List (List Label)) (hne : nss ≠ []) :
    concat_all (ofLabels ls) (nss.map ofLabels) =
      if (nameWire (ls ++ nss.flatten)).length ≤ 255 ∧ (ls ++ nss.flatten).length + 1 ≤ 128
      then .ok (ofLabels (ls ++ nss.flatten)) else .err :=
  concat_all_ofLabels h nss hne

/-- `concat`: the labels of both in order, `Err` exactly when over the limit; the result is valid -/
theorem c14_concat {a b : List Label} (ha : ValidName a) (hb : ValidName b) :
    concat (ofLabels a) (ofLabels b) =
      (if (nameWire (a ++ b)).length ≤ 255 then .ok (ofLabels (a ++ b)) else .err) ∧
    ((nameWire (a ++ b)).length ≤ 255 → ValidName (a ++ b)) := by
  have hv : (nameWire (a ++ b)).length ≤ 255 → ValidName (a ++ b) := fun h =>
    ⟨fun l hl => (List.mem_append.mp hl).elim (ha.1 l) (hb.1 l), h⟩
  refine ⟨?_, hv⟩
  have := concat_all_ofLabels ha [b] (by simp)
  unfold concat
  simp only [List.map_cons, List.map_nil, List.flatten_cons, List.flatten_nil, List.append_nil] at this
  rw [this]
  by_cases h : (nameWire (a ++ b)).length ≤ 255
  · rw [if_pos h, if_pos ⟨h, by have := (hv h).count; omega⟩]
  · rw [if_neg h, if_neg (fun h' => h h'.1)]

/-- VIOLATION: `concat_all(&[])` panics, on every name -/
theorem c14_concat_nothing_panics {ls : List Label} (h : ValidName ls) : concat_all (ofLabels ls) [] = .panic := by
  have := h.count
  have := h.wire_le
  unfold concat_all
  simp only [sumLens, Res.bind_ok]
  rw [ensure_bind_ok (by rw [ofLabels_len]; simp only [MAX_WIRE_LEN]; omega),
    ensure_bind_ok (by rw [ofLabels_count]; simp only [MAX_LABEL_COUNT]; omega),
    csub_ok (by rw [ofLabels_len]; omega), Res.bind_ok, slice_ok (by omega) (by simp [len]), Res.bind_ok]
  rfl

example : concat (ofLabels [[119, 119, 119]]) (ofLabels [[101, 120]]) = .ok (ofLabels [[119, 119, 119], [101, 120]]) ∧
    concat (ofLabels (List.replicate 60 [1, 2, 3])) (ofLabels (List.replicate 4 [1, 2, 3])) = .err := by
  constructor
  · decide
  · rw [(c14_concat (by decide +kernel) (by decide +kernel)).1, if_neg (by decide +kernel)]

/-! ## C15 -/

theorem c15_reverse {ls : List Label} (h : ValidName ls) :
    reverse (ofLabels ls) = .ok (ofLabels ls.reverse) ∧ ValidName ls.reverse :=
  ⟨reverse_ofLabels h, ValidName.perm h (List.reverse_perm ls).symm⟩

theorem c15_involution {ls : List Label} (h : ValidName ls) :
    (reverse (ofLabels ls) >>= reverse) = .ok (ofLabels ls) := by
  rw [reverse_ofLabels h, Res.bind_ok, reverse_ofLabels (c15_reverse h).2, List.reverse_reverse]

example : reverse (ofLabels wwwUp) = .ok (ofLabels [[69, 120, 97, 109, 112, 108, 101], [119, 119, 119]]) := by decide

/-! ## C16 -/

/-- the result has every label lower-cased, is valid, and equals the original -/
theorem c16_as_lowercase {ls : List Label} (h : ValidName ls) :
    as_lowercase (ofLabels ls) = .ok (ofLabels (lowerName ls)) ∧ ValidName (lowerName ls) ∧
    eq (ofLabels ls) (ofLabels (lowerName ls)) = .ok true := by
  refine ⟨as_lowercase_ofLabels h, lowerName_valid h, ?_⟩
  rw [eq_ofLabels h (lowerName_valid h)]
  simp only [Res.ok.injEq, decide_eq_true_eq, SameName, lowerName, List.map_map]
  apply List.map_congr_left
  intro l _
  simp only [Function.comp, lowerLabel, List.map_map]
  apply List.map_congr_left
  intro c _
  exact (lowerByte_idem c).symm

theorem lowerName_idem (ls : List Label) : lowerName (lowerName ls) = lowerName ls := by
  simp only [lowerName, List.map_map]
  apply List.map_congr_left
  intro l _
  simp only [Function.comp, lowerLabel, List.map_map]
  apply List.map_congr_left
  intro c _
  exact lowerByte_idem c

theorem c16_idempotent {ls : List Label} (h : ValidName ls) :
    (as_lowercase (ofLabels ls) >>= as_lowercase) = as_lowercase (ofLabels ls) := by
  rw [as_lowercase_ofLabels h, Res.bind_ok, as_lowercase_ofLabels (lowerName_valid h), lowerName_idem]

/-- two names are equal exactly when their lower-cased octets are identical -/
theorem c16_eq_iff {a b : List Label} (ha : ValidName a) (hb : ValidName b) :
    eq (ofLabels a) (ofLabels b) = .ok true ↔
      ∃ x y, as_lowercase (ofLabels a) = .ok x ∧ as_lowercase (ofLabels b) = .ok y ∧ x.raw = y.raw := by
  rw [eq_ofLabels ha hb, as_lowercase_ofLabels ha, as_lowercase_ofLabels hb]
  simp only [Res.ok.injEq, decide_eq_true_eq]
  constructor
  · intro h; exact ⟨_, _, rfl, rfl, by rw [show lowerName a = lowerName b from h]⟩
  · rintro ⟨x, y, rfl, rfl, h⟩
    simp only [ofLabels_raw] at h
    rw [← nameWire_eq, ← nameWire_eq] at h
    exact nameWire_inj (lowerName_valid ha).1 (lowerName_valid hb).1 h

example : as_lowercase (ofLabels wwwLo) = .ok (ofLabels [[119, 119, 119], [101, 120, 97, 109, 112, 108, 101]]) := by
  decide

/-! ## C18 -/

theorem c18_is_root {ls : List Label} (h : ValidName ls) : is_root (ofLabels ls) = true ↔ ls = [] := by
  rw [is_root_ofLabels h]; simp

theorem c18_is_wildcard {ls : List Label} (h : ValidName ls) :
    (∃ r, is_wildcard (ofLabels ls) = .ok r) ∧
    (is_wildcard (ofLabels ls) = .ok true ↔ ∃ t, ls = [42] :: t) := by
  rw [is_wildcard_ofLabels h]
  refine ⟨⟨_, rfl⟩, ?_⟩
  cases ls with
  | nil => simp
  | cons l t => simp

example : is_wildcard (ofLabels [[42], [97]]) = .ok true ∧ is_wildcard (ofLabels [[42, 42], [97]]) = .ok false ∧
    is_root (ofLabels [[42]]) = false := by decide

end Name

/-! ## C17 -/

namespace LabelSequence

/-- labels `first ..= last` of a name (the root label has the last number) -/
theorem c17_into_label_sequence {ls : List Label} (h : ValidName ls) (first last : Nat) :
    Name.into_label_sequence (Name.ofLabels ls) first last =
      if first ≤ last ∧ last ≤ ls.length
      then .ok (ofLabels (((ls ++ [[]]).take (last + 1)).drop first)) else .panic :=
  Name.into_label_sequence_ofLabels h first last

/-- `split` returns exactly the requested labels and leaves exactly the others; both parts again fit -/
theorem c17_split {ls : List Label} (h : SeqOK ls) (start count : Nat) :
    split (ofLabels ls) start count =
      (if start < ls.length ∧ 0 < count then
        .ok (ofLabels ((ls.drop start).take count), ofLabels (ls.take start ++ ls.drop (start + count)))
      else .err) ∧
    SeqOK ((ls.drop start).take count) ∧ SeqOK (ls.take start ++ ls.drop (start + count)) ∧
    ls.take start ++ (ls.drop start).take count ++ ls.drop (start + count) = ls := by
  refine ⟨split_ofLabels h start count, h.sublist ((List.take_sublist _ _).trans (List.drop_sublist _ _)), ?_, ?_⟩
  · apply h.sublist
    have h1 : ls.take start ++ ls.drop start = ls := List.take_append_drop _ _
    have h2 : (ls.drop (start + count)).Sublist (ls.drop start) := by
      rw [← List.drop_drop]; exact List.drop_sublist _ _
    have h3 := (List.Sublist.refl (ls.take start)).append h2
    rwa [h1] at h3
  · rw [← List.take_add, List.take_append_drop]

/-- a run of labels is absolute when it ends in the root label -/
def Absolute (ls : List Label) : Prop := ls.getLast? = some []

instance (ls : List Label) : Decidable (Absolute ls) := by unfold Absolute; infer_instance

/-- no label ends in a zero octet -/
def NoZeroEnd (ls : List Label) : Prop := ∀ l ∈ ls, l.getLast? ≠ some 0

theorem lastOctet_abs {ls : List Label} (hne : ls ≠ []) (hz : NoZeroEnd ls) : lastOctet ls = some 0 ↔ Absolute ls := by
  obtain ⟨t, l, rfl⟩ : ∃ t l, ls = t ++ [l] := ⟨ls.dropLast, ls.getLast hne, (List.dropLast_concat_getLast hne).symm⟩
  unfold lastOctet Absolute
  simp only [wire_append, wire_cons, wire_nil, List.append_nil, List.getLast?_append, List.getLast?_singleton,
    Option.some_or, Option.some.injEq]
  cases l with
  | nil => simp
  | cons x l =>
    have := hz (x :: l) (by simp)
    simp only [List.getLast?_cons_cons] at *
    have h : (x :: l).getLast? = some ((x :: l).getLast (by simp)) := List.getLast?_eq_some_getLast (by simp)
    rw [h] at this ⊢
    simp at this ⊢
    exact this

/-- joining a relative run with suffixes, the last of them absolute and no other: the name with all
labels in order; `Err` exactly at a misplaced absolute part or over the limit. For runs whose labels
do not end in a zero octet, and at least one suffix (see the violations below). -/
theorem c17_concat_all_partial {s : List Label} (seqs : List (List Label)) (hs : s ≠ []) (hne : ∀ x ∈ seqs, x ≠ [])
    (h63 : ∀ l ∈ s ++ seqs.flatten, l.length ≤ 63) (hz : NoZeroEnd (s ++ seqs.flatten)) (hseq : seqs ≠ [])
    (hv : ∀ l ∈ (s ++ seqs.flatten).dropLast, l ≠ []) :
    concat_all (ofLabels s) (seqs.map ofLabels) =
      if ¬ Absolute s ∧ (∀ x ∈ seqs.dropLast, ¬ Absolute x) ∧ (∀ x, seqs.getLast? = some x → Absolute x) ∧
          (wire (s ++ seqs.flatten)).length ≤ 255
      then .ok (Name.ofLabels (s ++ seqs.flatten).dropLast) else .err := by
  have hzs : NoZeroEnd s := fun l hl => hz l (by simp [hl])
  have hzx : ∀ x ∈ seqs, NoZeroEnd x := fun x hx l hl => hz l (by
    rw [List.mem_append]; right; exact List.mem_flatten.mpr ⟨x, hx, hl⟩)
  rw [concat_all_ofLabels seqs hs hne h63]
  simp only [lastOctet_abs hs hzs]
  by_cases ha : Absolute s
  · rw [if_pos ha, if_neg hseq, if_neg (fun h => h.1 ha)]
  · rw [if_neg ha]
    have e1 : (∀ x ∈ seqs.dropLast, lastOctet x ≠ some 0) ↔ ∀ x ∈ seqs.dropLast, ¬ Absolute x := by
      constructor <;> intro h x hx <;> have h' := h x hx <;>
        have hm := (List.dropLast_sublist _).subset hx
      · rwa [Ne, lastOctet_abs (hne x hm) (hzx x hm)] at h'
      · rwa [Ne, lastOctet_abs (hne x hm) (hzx x hm)]
    have e2 : (∀ x, seqs.getLast? = some x → lastOctet x = some 0) ↔ ∀ x, seqs.getLast? = some x → Absolute x := by
      constructor <;> intro h x hx <;> have h' := h x hx <;>
        have hm := List.mem_of_getLast? hx
      · rwa [lastOctet_abs (hne x hm) (hzx x hm)] at h'
      · rwa [lastOctet_abs (hne x hm) (hzx x hm)]
    simp only [e1, e2]
    by_cases hc : (∀ x ∈ seqs.dropLast, ¬ Absolute x) ∧ (∀ x, seqs.getLast? = some x → Absolute x) ∧
        (wire (s ++ seqs.flatten)).length ≤ 255
    · have hlast : ∃ t, s ++ seqs.flatten = t ++ [[]] := by
        obtain ⟨x, hx⟩ : ∃ x, seqs.getLast? = some x := ⟨_, List.getLast?_eq_some_getLast hseq⟩
        have hax := hc.2.1 x hx
        obtain ⟨u, hu⟩ := List.getLast?_eq_some_iff.mp hx
        obtain ⟨v, hv'⟩ := List.getLast?_eq_some_iff.mp hax
        subst hu
        refine ⟨s ++ u.flatten ++ v, ?_⟩
        rw [hv']; simp
      obtain ⟨t, ht⟩ := hlast
      rw [ht] at hv hc ⊢
      simp only [List.dropLast_concat] at hv ⊢
      have hcount : (t ++ [([] : Label)]).length ≤ 128 := by
        have h1 := wire_length_ge2 t (fun l hl => by
          have := hv l hl
          exact List.length_pos_iff.mpr this)
        have h2 := hc.2.2
        simp only [wire_append, List.length_append] at h2
        simp at h2 ⊢; omega
      rw [if_pos ⟨hc.1, hc.2.1, hc.2.2, hcount⟩, if_pos ⟨ha, hc⟩]
      rfl
    · rw [if_neg (fun h => hc ⟨h.1, h.2.1, h.2.2.1⟩), if_neg (fun h => hc h.2)]

/-- the run ends in the root label, or its last label ends in a zero octet: the code cannot tell these apart -/
def zeroEnd (ls : List Label) : Bool :=
  match ls.getLast? with
  | none => false
  | some l => l.isEmpty || l.getLast? == some 0

theorem lastOctet_zeroEnd {ls : List Label} (hne : ls ≠ []) : lastOctet ls = some 0 ↔ zeroEnd ls = true := by
  obtain ⟨t, l, rfl⟩ : ∃ t l, ls = t ++ [l] := ⟨ls.dropLast, ls.getLast hne, (List.dropLast_concat_getLast hne).symm⟩
  unfold lastOctet zeroEnd
  rcases List.eq_nil_or_concat l with rfl | ⟨x, c, rfl⟩
  · simp
  · have e : wire (t ++ [x ++ [c]]) = (wire t ++ UInt8.ofNat (x ++ [c]).length :: x) ++ [c] := by simp
    rw [List.concat_eq_append, e, List.getLast?_concat, List.getLast?_concat]
    simp

theorem scan_empty (seqs : List (List Label)) (acc : Bool × Bool × Nat × Nat) (h : [] ∈ seqs) : scan (seqs.map ofLabels) acc = .panic := by
  induction seqs generalizing acc with
  | nil => cases h
  | cons x xs ih =>
    obtain ⟨mid, last, len, cnt⟩ := acc
    simp only [List.map_cons, scan]
    by_cases hx : x = []
    · subst hx; rfl
    · rw [is_absolute_ofLabels hx, Res.bind_ok]
      rcases List.mem_cons.1 h with h | h
      · exact absurd h.symm hx
      · exact ih _ h

/-- what `concat_all` answers, for all runs: a run is taken for absolute exactly when `zeroEnd`; an absolute run takes no suffix, of the
suffixes exactly the last must be absolute, and the limits are checked; without suffixes a relative run is answered as it is (a name that
is not one, `c17_relative_name`); empty runs panic -/
theorem c17_exact (s : List Label) (seqs : List (List Label)) (h63 : ∀ l ∈ s ++ seqs.flatten, l.length ≤ 63) :
    concat_all (ofLabels s) (seqs.map ofLabels) =
      if s = [] then .panic
      else if zeroEnd s then (if seqs = [] then .ok ⟨wire s, starts 0 s⟩ else .err)
      else if [] ∈ seqs then .panic
      else if (∀ x ∈ seqs.dropLast, zeroEnd x = false) ∧ (∀ x ∈ seqs.getLast?, zeroEnd x = true) ∧
          (wire (s ++ seqs.flatten)).length ≤ 255 ∧ (s ++ seqs.flatten).length ≤ 128 then
        .ok ⟨wire (s ++ seqs.flatten), starts 0 (s ++ seqs.flatten)⟩
      else .err := by
  by_cases hs : s = []
  · subst hs; rfl
  rw [if_neg hs]
  by_cases he : [] ∈ seqs
  · by_cases hz : zeroEnd s = true
    · rw [if_pos hz]
      unfold concat_all
      rw [is_absolute_ofLabels hs, Res.bind_ok]
      have := (lastOctet_zeroEnd hs).2 hz
      simp only [this, decide_true, if_true, List.map_eq_nil_iff]
      rfl
    · rw [if_neg hz, if_pos he]
      unfold concat_all
      rw [is_absolute_ofLabels hs, Res.bind_ok]
      have : ¬ lastOctet s = some 0 := fun h => hz ((lastOctet_zeroEnd hs).1 h)
      simp only [this, decide_false, Bool.false_eq_true, if_false]
      rw [scan_empty _ _ he]; rfl
  · have hne : ∀ x ∈ seqs, x ≠ [] := fun x hx e => he (e ▸ hx)
    rw [concat_all_ofLabels seqs hs hne h63, if_neg he]
    have h1 : (∀ x ∈ seqs.dropLast, lastOctet x ≠ some 0) ↔ ∀ x ∈ seqs.dropLast, zeroEnd x = false :=
      forall₂_congr fun x hx => by rw [ne_eq, lastOctet_zeroEnd (hne x ((List.dropLast_sublist seqs).subset hx)), Bool.not_eq_true]
    have h2 : (∀ x, seqs.getLast? = some x → lastOctet x = some 0) ↔ ∀ x ∈ seqs.getLast?, zeroEnd x = true :=
      forall₂_congr fun x hx => lastOctet_zeroEnd (hne x (List.mem_of_getLast? hx))
    simp only [h1, h2, lastOctet_zeroEnd hs]

/-- all four outcomes occur -/
theorem c17_exact_example : concat_all (ofLabels [[97], [98]]) [ofLabels [[99]], ofLabels [[100], []]] = .ok (Name.ofLabels [[97], [98], [99], [100]]) ∧
    concat_all (ofLabels [[97]]) [ofLabels [[99, 0]], ofLabels [[100], []]] = .err ∧
    concat_all (ofLabels [[97]]) [ofLabels [[99, 0]]] = .ok ⟨[1, 97, 2, 99, 0], [0, 2]⟩ ∧
    concat_all (ofLabels [[97]]) [ofLabels [[98]], ofLabels []] = .panic := by decide

/-- taking a name apart anywhere and joining the two runs again gives the name back (for names whose
labels do not end in a zero octet) -/
theorem c17_cut_join_partial {ls : List Label} (h : ValidName ls) (hz : NoZeroEnd ls) (k : Nat) (h0 : 0 < k) (hk : k ≤ ls.length) :
    ∃ p q, Name.into_label_sequence (Name.ofLabels ls) 0 (k - 1) = .ok p ∧
      Name.into_label_sequence (Name.ofLabels ls) k ls.length = .ok q ∧
      concat_all p [q] = .ok (Name.ofLabels ls) := by
  refine ⟨ofLabels (ls.take k), ofLabels (ls.drop k ++ [[]]), ?_, ?_, ?_⟩
  · rw [Name.into_label_sequence_ofLabels h, if_pos (by omega), List.drop_zero, show k - 1 + 1 = k by omega,
      List.take_append_of_le_length hk]
  · rw [Name.into_label_sequence_ofLabels h, if_pos (by omega), List.take_of_length_le (by simp),
      List.drop_append_of_le_length hk]
  · have hj : ls.take k ++ [ls.drop k ++ [[]]].flatten = ls ++ [[]] := by
      simp only [List.flatten_cons, List.flatten_nil, List.append_nil, ← List.append_assoc, List.take_append_drop]
    have hnt : ls.take k ≠ [] := by
      intro h'; have := congrArg List.length h'; rw [List.length_take, List.length_nil] at this; omega
    have := c17_concat_all_partial (s := ls.take k) [ls.drop k ++ [[]]] hnt (by simp)
      (by rw [hj]; exact Name.h63root h)
      (by rw [hj]; intro l hl; rcases List.mem_append.mp hl with h' | h'
          · exact hz l h'
          · simp at h'; subst h'; simp)
      (by simp)
      (by rw [hj]; simp only [List.dropLast_concat]; intro l hl h'; have := (h.1 l hl).1; subst h'; simp at this)
    rw [hj] at this
    simp only [List.map_cons, List.map_nil, List.dropLast_concat] at this
    rw [this, if_pos]
    refine ⟨?_, by simp, ?_, ?_⟩
    · intro h'
      have hm := List.mem_of_getLast? h'
      have := (h.1 [] (List.mem_of_mem_take hm)).1
      simp at this
    · intro x hx; simp at hx; subst hx; simp [Absolute]
    · have := h.2; rw [nameWire_eq] at this; exact this

example : split (ofLabels [[1], [2, 2], [3], []]) 1 2 = .ok (ofLabels [[2, 2], [3]], ofLabels [[1], []]) ∧
    concat_all (ofLabels [[1]]) [ofLabels [[2, 2]], ofLabels [[3], []]] = .ok (Name.ofLabels [[1], [2, 2], [3]]) := by
  decide

/-- VIOLATION: without suffixes a relative run becomes a `Name` that is not terminated by the root -/
theorem c17_relative_name : concat_all (ofLabels [[97]]) [] = .ok ⟨[1, 97], [0]⟩ ∧ ¬ Name.WF ⟨[1, 97], [0]⟩ := by
  refine ⟨by decide, ?_⟩
  rintro ⟨ls, _, h⟩
  have : ([1, 97] : List UInt8).getLast? = (wire (ls ++ [[]])).getLast? := by
    rw [Name.ofLabels, Name.mk.injEq] at h; rw [h.1]
  simp at this

/-- VIOLATION: a relative run whose last octet is zero is taken for absolute and rejected -/
theorem c17_zero_octet_rejected : ¬ Absolute [[97, 0]] ∧
    concat_all (ofLabels [[97, 0]]) [ofLabels [[98], []]] = .err ∧
    concat_all (ofLabels [[97, 1]]) [ofLabels [[98], []]] = .ok (Name.ofLabels [[97, 1], [98]]) := by decide

/-- VIOLATION: after all labels were split off, `concat_all` on the empty rest panics -/
theorem c17_empty_panics : (split (ofLabels [[97]]) 0 1 >>= fun p => concat_all p.2 []) = .panic := by decide

end LabelSequence
end R53
