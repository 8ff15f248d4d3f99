import Verif.Spec.History
import Verif.Props.Zone
/-!
# C105: what a domain tree answers, and how it came to hold what it holds
-/
namespace R53
open Dom
variable {T : Type}

theorem meet_meet (a c d : List Label) : meet a (meet c d) = meet a c ∨ meet a (meet c d) = meet a d := by
  have total : ∀ {x y : List Label}, x <:+ a → y <:+ a → x.length ≤ y.length → x <:+ y := fun hx hy hl => List.suffix_of_suffix_length_le hx hy hl
  have half : ∀ (c d : List Label), (meet a c).length ≤ (meet a d).length → meet a (meet c d) = meet a c := by
    intro c d hl
    have h1 : meet a c <:+ d := (total (meet_left a c) (meet_left a d) hl).trans (meet_right a d)
    have h2 : meet a c <:+ meet c d := meet_max (meet_right a c) h1
    refine meet_eq (meet_left a c) h2 fun j hj1 hj2 => ?_
    exact meet_max hj1 (hj2.trans (meet_left c d))
  have comm : meet c d = meet d c := meet_eq (meet_right d c) (meet_left d c) fun j h1 h2 => meet_max h2 h1
  rcases Nat.le_total (meet a c).length (meet a d).length with h | h
  · exact .inl (half c d h)
  · right; rw [comm]; exact half d c h

theorem meet_comm (c d : List Label) : meet c d = meet d c := meet_eq (meet_right d c) (meet_left d c) fun j h1 h2 => meet_max h2 h1

theorem meet_self (c : List Label) : meet c c = c := meet_eq (List.suffix_refl _) (List.suffix_refl _) fun _ h _ => h

theorem settled_iff (ops : List (TOp T)) (k : List Label) : Settled ops k ↔ ∃ a b, lastPut ops a ≠ none ∧ lastPut ops b ≠ none ∧ meet a b = k := by
  unfold Settled
  simp only [c83_meet]

theorem lastPut_snoc (ops : List (TOp T)) (ls : List Label) (v : Option T) (k : List Label) :
    lastPut (ops ++ [.insert ls v]) k = if k = lowerName ls then some v else lastPut ops k := by
  unfold lastPut
  rw [List.filterMap_append]
  by_cases h : k = lowerName ls
  · subst h; simp [TOp.puts]
  · simp [TOp.puts, h, Ne.symm h]

/-- the table after insertions only -/
structure Filled (ops : List (TOp T)) (N : Nodes T) : Prop where
  put : ∀ k v, lastPut ops k = some v → N.at? k = some ⟨v, false, false⟩
  blank : ∀ k, lastPut ops k = none → Settled ops k → N.at? k = some ⟨none, false, false⟩
  other : ∀ k, ¬ Settled ops k → N.at? k = none

theorem Filled.at_some {ops : List (TOp T)} {N : Nodes T} (h : Filled ops N) {k : List Label} : N.at? k ≠ none ↔ Settled ops k := by
  constructor
  · intro hk
    exact Classical.byContradiction fun hn => hk (h.other k hn)
  · intro hk
    cases hl : lastPut ops k with
    | none => rw [h.blank k hl hk]; simp
    | some v => rw [h.put k v hl]; simp

theorem Filled.seen {ops : List (TOp T)} {N : Nodes T} (h : Filled ops N) {k : List Label} (hk : Settled ops k) :
    N.at? k = some ⟨(lastPut ops k).join, false, false⟩ := by
  cases hl : lastPut ops k with
  | none => rw [h.blank k hl hk]; rfl
  | some v => rw [h.put k v hl]; rfl

theorem Filled.of_seen {ops : List (TOp T)} {N : Nodes T} (h1 : ∀ k, Settled ops k → N.at? k = some ⟨(lastPut ops k).join, false, false⟩)
    (h2 : ∀ k, ¬ Settled ops k → N.at? k = none) : Filled ops N := by
  refine ⟨fun k v hl => ?_, fun k hl hs => ?_, h2⟩
  · have hs : Settled ops k := (settled_iff ops k).2 ⟨k, k, by simp [hl], by simp [hl], meet_self k⟩
    rw [h1 k hs, hl]; rfl
  · rw [h1 k hs, hl]; rfl

theorem Nodes.mem_at {N : Nodes T} {x : List Label × Seen T} (h : x ∈ N) : N.at? x.1 ≠ none := by
  unfold Nodes.at?
  cases hf : N.find? fun y => y.1 = x.1 with
  | none => exact absurd (by simp) (List.find?_eq_none.1 hf x h)
  | some y => simp

theorem Nodes.at_mem {N : Nodes T} {k : List Label} (h : N.at? k ≠ none) : ∃ x ∈ N, x.1 = k := by
  unfold Nodes.at? at h
  cases hf : N.find? fun y => y.1 = k with
  | none => rw [hf] at h; exact absurd rfl h
  | some y => exact ⟨y, List.mem_of_find?_eq_some hf, by simpa using List.find?_some hf⟩

theorem Nodes.at_blanks (B : List (List Label)) (N : Nodes T) (j : List Label) :
    Nodes.at? ((B.map fun k => (k, (⟨none, false, false⟩ : Seen T))) ++ N) j = if j ∈ B then some ⟨none, false, false⟩ else N.at? j := by
  induction B with
  | nil => simp
  | cons b B ih =>
    rw [List.map_cons, List.cons_append, Nodes.at_cons, ih]
    by_cases h : b = j
    · simp [h]
    · have h' : ¬ j = b := fun e => h e.symm
      simp [h, h']

/-- the ends that insertion of a name settles -/
theorem settled_snoc (ops : List (TOp T)) (ls : List Label) (v : Option T) (k : List Label) :
    Settled (ops ++ [.insert ls v]) k ↔ Settled ops k ∨ k = lowerName ls ∨ ∃ j, Settled ops j ∧ meet (lowerName ls) j = k := by
  simp only [settled_iff, lastPut_snoc]
  have put : ∀ a, (if a = lowerName ls then some v else lastPut ops a) ≠ none ↔ a = lowerName ls ∨ lastPut ops a ≠ none := by
    intro a; split <;> simp_all
  constructor
  · rintro ⟨a, b, ha, hb, rfl⟩
    rcases (put a).1 ha with rfl | ha
    · rcases (put b).1 hb with rfl | hb
      · exact .inr (.inl (meet_self _))
      · exact .inr (.inr ⟨b, ⟨b, b, hb, hb, meet_self b⟩, rfl⟩)
    · rcases (put b).1 hb with rfl | hb
      · exact .inr (.inr ⟨a, ⟨a, a, ha, ha, meet_self a⟩, meet_comm _ _⟩)
      · exact .inl ⟨a, b, ha, hb, rfl⟩
  · rintro (⟨a, b, ha, hb, rfl⟩ | rfl | ⟨j, ⟨a, b, ha, hb, rfl⟩, rfl⟩)
    · exact ⟨a, b, (put a).2 (.inr ha), (put b).2 (.inr hb), rfl⟩
    · exact ⟨_, _, (put _).2 (.inl rfl), (put _).2 (.inl rfl), meet_self _⟩
    · rcases meet_meet (lowerName ls) a b with e | e
      · exact ⟨_, a, (put _).2 (.inl rfl), (put a).2 (.inr ha), e.symm⟩
      · exact ⟨_, b, (put _).2 (.inl rfl), (put b).2 (.inr hb), e.symm⟩

theorem Filled.insert {ops : List (TOp T)} {N : Nodes T} (h : Filled ops N) (ls : List Label) (v : Option T) :
    Filled (ops ++ [.insert ls v]) (N.insert (lowerName ls) v) := by
  unfold Nodes.insert
  by_cases hn : (N.at? (lowerName ls)).isSome = true
  · rw [if_pos hn]
    have hset : Settled ops (lowerName ls) := h.at_some.1 (Option.isSome_iff_ne_none.1 hn)
    have hiff : ∀ k, Settled (ops ++ [.insert ls v]) k ↔ Settled ops k := by
      intro k
      rw [settled_snoc]
      refine ⟨?_, .inl⟩
      rintro (hk | rfl | ⟨j, hj, rfl⟩)
      · exact hk
      · exact hset
      · obtain ⟨c, d, hc, hd, e⟩ := (settled_iff ops _).1 hset
        obtain ⟨a, b, ha, hb, rfl⟩ := (settled_iff ops _).1 hj
        rw [← e]
        refine (settled_iff ops _).2 ?_
        rcases meet_meet (meet c d) a b with e1 | e1 <;> rw [e1, meet_comm]
        · rcases meet_meet a c d with e2 | e2 <;> rw [e2]
          · exact ⟨a, c, ha, hc, rfl⟩
          · exact ⟨a, d, ha, hd, rfl⟩
        · rcases meet_meet b c d with e2 | e2 <;> rw [e2]
          · exact ⟨b, c, hb, hc, rfl⟩
          · exact ⟨b, d, hb, hd, rfl⟩
    refine Filled.of_seen (fun k hk => ?_) fun k hk => ?_
    · rw [hiff] at hk
      rw [Nodes.at_change, lastPut_snoc, h.seen hk]
      split <;> rfl
    · rw [hiff] at hk
      rw [Nodes.at_change, h.other k hk]
      split <;> rfl
  · rw [if_neg hn]
    have hn : N.at? (lowerName ls) = none := by simpa using hn
    have hb : ∀ k, k ∈ N.branches (lowerName ls) ↔ (∃ j, Settled ops j ∧ meet (lowerName ls) j = k) ∧ k ≠ lowerName ls ∧ ¬ Settled ops k := by
      intro k
      unfold Nodes.branches
      rw [List.mem_filter, List.mem_dedup, List.mem_map, decide_eq_true_eq]
      have e1 : N.at? k = none ↔ ¬ Settled ops k := by rw [← h.at_some]; simp
      have e2 : (∃ x ∈ N, meet (lowerName ls) x.1 = k) ↔ ∃ j, Settled ops j ∧ meet (lowerName ls) j = k := by
        constructor
        · rintro ⟨x, hx, e⟩
          exact ⟨x.1, h.at_some.1 (Nodes.mem_at hx), e⟩
        · rintro ⟨j, hj, e⟩
          obtain ⟨x, hx, rfl⟩ := Nodes.at_mem (h.at_some.2 hj)
          exact ⟨x, hx, e⟩
      rw [e1, e2]
    have hat : ∀ k, Nodes.at? ((lowerName ls, ⟨v, false, false⟩) :: ((N.branches (lowerName ls)).map fun k => (k, (⟨none, false, false⟩ : Seen T))) ++ N) k =
        if lowerName ls = k then some ⟨v, false, false⟩ else if k ∈ N.branches (lowerName ls) then some ⟨none, false, false⟩ else N.at? k := by
      intro k
      rw [List.cons_append, Nodes.at_cons, Nodes.at_blanks]
    refine Filled.of_seen (fun k hk => ?_) fun k hk => ?_
    · rw [hat, lastPut_snoc]
      by_cases hk1 : lowerName ls = k
      · rw [if_pos hk1, if_pos hk1.symm]; rfl
      · rw [if_neg hk1, if_neg (Ne.symm hk1)]
        rw [settled_snoc] at hk
        by_cases hk2 : Settled ops k
        · rw [if_neg fun hm => ((hb k).1 hm).2.2 hk2]
          exact h.seen hk2
        · have hm : k ∈ N.branches (lowerName ls) := by
            refine (hb k).2 ⟨?_, Ne.symm hk1, hk2⟩
            rcases hk with hk | hk | hk
            · exact absurd hk hk2
            · exact absurd hk.symm hk1
            · exact hk
          rw [if_pos hm]
          have : lastPut ops k = none := by
            refine Classical.byContradiction fun hl => hk2 ?_
            exact (settled_iff ops k).2 ⟨k, k, hl, hl, meet_self k⟩
          rw [this]; rfl
    · rw [settled_snoc] at hk
      rw [hat, if_neg fun e => hk (.inr (.inl e.symm)), if_neg fun hm => hk (.inr (.inr ((hb k).1 hm).1))]
      exact h.other k fun e => hk (.inl e)

theorem Filled.nil : Filled ([] : List (TOp T)) [] := ⟨fun k v h => by simp [lastPut] at h, fun k _ ⟨a, _, ha, _⟩ => absurd rfl ha, fun k _ => rfl⟩

theorem filled (ops : List (TOp T)) (ho : OnlyInserts ops) : Filled ops (Table.empty.after ops).nodes ∧ (Table.empty.after ops).lost = 0 := by
  induction h : ops.length generalizing ops with
  | zero =>
    rw [List.length_eq_zero_iff.1 h]
    exact ⟨Filled.nil, rfl⟩
  | succ n ih =>
    obtain ⟨init, last, rfl⟩ : ∃ i l, ops = i ++ [l] := by
      have hne : ops ≠ [] := by intro e; rw [e] at h; cases h
      exact ⟨ops.dropLast, ops.getLast hne, (List.dropLast_concat_getLast hne).symm⟩
    obtain ⟨ls, v, rfl⟩ := ho last (by simp)
    obtain ⟨h1, h2⟩ := ih init (fun op hop => ho op (by simp [hop])) (by simpa using h)
    rw [Table.after_snoc]
    exact ⟨h1.insert ls v, h2⟩

/-- A tree filled by insertions, in any order and with any repetitions: a name is found exactly if it was put in or two names put in branch there; `find` answers with the
longest such end of the name asked for, and the value put there last. -/
theorem c105_find_partial (m : Build) (ops : List (TOp T)) (s : Dom T) (h : TreeReached m ops s) (ho : OnlyInserts ops) (ls : List Label) (hv : ValidName ls)
    (ha : m = .debug → ∀ l ∈ ls, ∀ c ∈ l, c.toNat < 128) :
    ((∀ k, k <:+ lowerName ls → ¬ Settled ops k) → found m s ls = .ok (.NotFound, none)) ∧
    ∀ k, k <:+ lowerName ls → Settled ops k → (∀ j, j <:+ lowerName ls → Settled ops j → j.length ≤ k.length) →
      found m s ls = .ok (if k = lowerName ls then .ExactMatch else .PartialMatch, (lastPut ops k).join) := by
  obtain ⟨f1, f2⟩ := c83_find m ops s h ls hv ha
  have hF := (filled ops ho).1
  constructor
  · intro hk
    have hc : (Table.empty.after ops).nodes.closest (lowerName ls) = none := by
      cases hc : (Table.empty.after ops).nodes.closest (lowerName ls) with
      | none => rfl
      | some k =>
        obtain ⟨c1, c2, _⟩ := (c83_closest _ _ _).1 hc
        exact absurd (hF.at_some.1 c2) (hk k c1)
    unfold found
    rw [f1 hc]; rfl
  · intro k hk1 hk2 hk3
    have hc : (Table.empty.after ops).nodes.closest (lowerName ls) = some k :=
      (c83_closest _ _ _).2 ⟨hk1, hF.at_some.2 hk2, fun j hj hj' => hk3 j hj (hF.at_some.1 hj')⟩
    obtain ⟨p, n, g1, _, g2, g3⟩ := f2 k hc
    rw [hF.seen hk2] at g3
    simp only [Option.some.injEq, Seen.mk.injEq] at g3
    unfold found
    rw [g1, Res.bind_ok]
    unfold Dom.FindResult.get_value
    rw [if_neg (by dsimp only; split <;> simp), g2]
    simp only [Res.bind_ok, Res.pure_eq, g3.1]

/-- some end of a name is the longest with a property, or none has it -/
theorem longest (P : List Label → Prop) (n : List Label) : (∀ k, k <:+ n → ¬ P k) ∨ ∃ k, k <:+ n ∧ P k ∧ ∀ j, j <:+ n → P j → j.length ≤ k.length := by
  induction n with
  | nil =>
    rcases Classical.em (P []) with h | h
    · exact .inr ⟨[], List.suffix_refl _, h, fun j hj _ => hj.length_le⟩
    · exact .inl fun k hk => by rw [List.suffix_nil.1 hk]; exact h
  | cons l n ih =>
    rcases Classical.em (P (l :: n)) with h | h
    · exact .inr ⟨_, List.suffix_refl _, h, fun j hj _ => hj.length_le⟩
    · rcases ih with ih | ⟨k, h1, h2, h3⟩
      · left
        intro k hk
        rcases List.suffix_cons_iff.1 hk with rfl | hk
        · exact h
        · exact ih k hk
      · refine .inr ⟨k, h1.trans (List.suffix_cons _ _), h2, fun j hj hP => ?_⟩
        rcases List.suffix_cons_iff.1 hj with rfl | hj
        · exact absurd hP h
        · exact h3 j hj hP

/-- Two trees filled by insertions, in whatever order, with whatever repetitions and in either build, that were last told the same: every search finds the same, and they have the
same number of nodes. -/
theorem c105_order_partial (m m' : Build) (ops ops' : List (TOp T)) (s s' : Dom T) (h : TreeReached m ops s) (h' : TreeReached m' ops' s') (ho : OnlyInserts ops)
    (ho' : OnlyInserts ops') (he : ∀ k, lastPut ops k = lastPut ops' k) :
    (∀ ls, ValidName ls → (m = .debug ∨ m' = .debug → ∀ l ∈ ls, ∀ c ∈ l, c.toNat < 128) → ∃ x, found m s ls = .ok x ∧ found m' s' ls = .ok x) ∧ s.len = s'.len := by
  have hs : ∀ k, Settled ops k ↔ Settled ops' k := by
    intro k
    unfold Settled
    simp only [he]
  constructor
  · intro ls hv ha
    obtain ⟨a1, a2⟩ := c105_find_partial m ops s h ho ls hv fun e => ha (.inl e)
    obtain ⟨b1, b2⟩ := c105_find_partial m' ops' s' h' ho' ls hv fun e => ha (.inr e)
    rcases longest (Settled ops) (lowerName ls) with hk | ⟨k, k1, k2, k3⟩
    · exact ⟨_, a1 hk, b1 fun k hk' => fun e => hk k hk' ((hs k).2 e)⟩
    · refine ⟨_, a2 k k1 k2 k3, ?_⟩
      rw [b2 k k1 ((hs k).1 k2) fun j hj hj' => k3 j hj ((hs j).2 hj'), he]
  · have count : ∀ (m : Build) (ops : List (TOp T)) (s : Dom T), TreeReached m ops s → s.len = (Table.empty.after ops).nodes.length + (Table.empty.after ops).lost ∧
        ((Table.empty.after ops).nodes.map fun x => x.1).Nodup := by
      rintro m ops s ⟨hok, outs, e⟩
      obtain ⟨s1, e1, e2, _, e3⟩ := c83_history m ops hok
      rw [e] at e1
      simp only [Prod.mk.injEq] at e1
      rw [e1.2]
      exact ⟨e2, e3⟩
    obtain ⟨c1, c2⟩ := count m ops s h
    obtain ⟨d1, d2⟩ := count m' ops' s' h'
    obtain ⟨g1, g2⟩ := filled ops ho
    obtain ⟨g1', g2'⟩ := filled ops' ho'
    have hp : ((Table.empty.after ops).nodes.map fun x => x.1).Perm ((Table.empty.after ops').nodes.map fun x => x.1) := by
      rw [List.perm_ext_iff_of_nodup c2 d2]
      have key : ∀ {N : Nodes T} {ops : List (TOp T)}, Filled ops N → ∀ k, k ∈ (N.map fun x => x.1) ↔ Settled ops k := by
        intro N ops hF k
        rw [← hF.at_some]
        constructor
        · intro hk
          obtain ⟨x, hx, rfl⟩ := List.mem_map.1 hk
          exact Nodes.mem_at hx
        · intro hk
          obtain ⟨x, hx, rfl⟩ := Nodes.at_mem hk
          exact List.mem_map_of_mem hx
      intro k
      rw [key g1, key g1', hs]
    have := hp.length_eq
    rw [List.length_map, List.length_map] at this
    omega

/-- the order of insertions of different names does not matter -/
theorem c105_shuffle_partial (m m' : Build) (l l' : List (List Label × Option T)) (hp : l.Perm l') (hd : (l.map fun x => lowerName x.1).Nodup) (s s' : Dom T)
    (h : TreeReached m (l.map fun x => .insert x.1 x.2) s) (h' : TreeReached m' (l'.map fun x => .insert x.1 x.2) s') :
    (∀ ls, ValidName ls → (m = .debug ∨ m' = .debug → ∀ l ∈ ls, ∀ c ∈ l, c.toNat < 128) → ∃ x, found m s ls = .ok x ∧ found m' s' ls = .ok x) ∧ s.len = s'.len := by
  refine c105_order_partial m m' _ _ s s' h h' ?_ ?_ fun k => ?_
  · intro op ho; obtain ⟨x, _, rfl⟩ := List.mem_map.1 ho; exact ⟨_, _, rfl⟩
  · intro op ho; obtain ⟨x, _, rfl⟩ := List.mem_map.1 ho; exact ⟨_, _, rfl⟩
  · have form : ∀ l : List (List Label × Option T), lastPut (l.map fun x => TOp.insert x.1 x.2) k = ((l.filter fun x => lowerName x.1 = k).map fun x => x.2).getLast? := by
      intro l
      unfold lastPut
      congr 1
      induction l with
      | nil => rfl
      | cons x l ih =>
        rw [List.map_cons, List.filterMap_cons, List.filter_cons]
        by_cases hx : lowerName x.1 = k
        · simp [TOp.puts, hx, ih]
        · simp [TOp.puts, hx, ih]
    have one : ∀ l : List (List Label × Option T), (l.map fun x => lowerName x.1).Nodup → (l.filter fun x => lowerName x.1 = k).length ≤ 1 := by
      intro l hl
      induction l with
      | nil => simp
      | cons x l ih =>
        rw [List.map_cons, List.nodup_cons] at hl
        rw [List.filter_cons]
        by_cases hx : lowerName x.1 = k
        · have : l.filter (fun x => lowerName x.1 = k) = [] := by
            rw [List.filter_eq_nil_iff]
            intro y hy
            simp only [decide_eq_true_eq]
            intro e
            exact hl.1 (List.mem_map.2 ⟨y, hy, by rw [e, hx]⟩)
          simp [hx, this]
        · simp [hx, ih hl.2]
    rw [form, form]
    have hf := (hp.filter fun x => decide (lowerName x.1 = k))
    have h1 := one l hd
    generalize l.filter (fun x => decide (lowerName x.1 = k)) = a at hf h1
    generalize l'.filter (fun x => decide (lowerName x.1 = k)) = b at hf
    have hl := hf.length_eq
    match a, b, h1, hl with
    | [], [], _, _ => rfl
    | [x], [y], _, _ => rw [List.singleton_perm_singleton.1 hf]
    | [], _ :: _, _, hl => simp at hl
    | [_], [], _, hl => simp at hl
    | [_], _ :: _ :: _, _, hl => simp at hl
    | _ :: _ :: _, _, h1, _ => simp at h1

/-- what a search says, in words of the table -/
theorem found_table (m : Build) (ops : List (TOp T)) (s : Dom T) (h : TreeReached m ops s) (ls : List Label) (hv : ValidName ls) (ha : m = .debug → ∀ l ∈ ls, ∀ c ∈ l, c.toNat < 128) :
    ((Table.empty.after ops).nodes.closest (lowerName ls) = none ∧ found m s ls = .ok (.NotFound, none)) ∨
    ∃ k, (Table.empty.after ops).nodes.closest (lowerName ls) = some k ∧
      found m s ls = .ok (if k = lowerName ls then .ExactMatch else .PartialMatch, (Table.empty.after ops).valueOf k) := by
  obtain ⟨f1, f2⟩ := c83_find m ops s h ls hv ha
  cases hc : (Table.empty.after ops).nodes.closest (lowerName ls) with
  | none =>
    left
    refine ⟨rfl, ?_⟩
    unfold found
    rw [f1 hc]; rfl
  | some k =>
    right
    refine ⟨k, rfl, ?_⟩
    obtain ⟨p, n, g1, _, g2, g3⟩ := f2 k hc
    unfold found
    rw [g1, Res.bind_ok]
    unfold Dom.FindResult.get_value
    rw [if_neg (by dsimp only; split <;> simp), g2]
    simp only [Res.bind_ok, Res.pure_eq, Table.valueOf, g3, Option.bind_some]

/-- Two trees with any histories, removals included, that hold the same values under the same names: a value found in one under the name asked for is found in the other, and no
search finds two different values. What may differ is whether a node without a value is in the way (`c105_violated`). -/
theorem c105_values_partial (m m' : Build) (ops ops' : List (TOp T)) (s s' : Dom T) (h : TreeReached m ops s) (h' : TreeReached m' ops' s')
    (he : ∀ k, (Table.empty.after ops).valueOf k = (Table.empty.after ops').valueOf k) (ls : List Label) (hv : ValidName ls)
    (ha : m = .debug ∨ m' = .debug → ∀ l ∈ ls, ∀ c ∈ l, c.toNat < 128) :
    ∃ x x', found m s ls = .ok x ∧ found m' s' ls = .ok x' ∧ (∀ v, x = (.ExactMatch, some v) ↔ x' = (.ExactMatch, some v)) ∧ (x = x' ∨ x.2 = none ∨ x'.2 = none) := by
  have valued : ∀ {M : Table T} {k : List Label} {v : T}, M.valueOf k = some v → M.nodes.at? k ≠ none := by
    intro M k v hk e
    rw [Table.valueOf, e] at hk; cases hk
  have exact_half : ∀ (m m' : Build) (ops ops' : List (TOp T)) (s s' : Dom T), TreeReached m ops s → TreeReached m' ops' s' → (m = .debug ∨ m' = .debug → ∀ l ∈ ls, ∀ c ∈ l, c.toNat < 128) →
      (∀ k, (Table.empty.after ops).valueOf k = (Table.empty.after ops').valueOf k) → ∀ v, found m s ls = .ok (.ExactMatch, some v) → found m' s' ls = .ok (.ExactMatch, some v) := by
    intro m m' ops ops' s s' h h' ha he v hf
    rcases found_table m ops s h ls hv (fun e => ha (.inl e)) with ⟨_, e⟩ | ⟨k, hc, e⟩
    · rw [e] at hf; simp at hf
    · rw [e] at hf
      simp only [Res.ok.injEq, Prod.mk.injEq] at hf
      obtain ⟨hk, hval⟩ := hf
      have hk : k = lowerName ls := by
        by_cases hk' : k = lowerName ls
        · exact hk'
        · rw [if_neg hk'] at hk; simp at hk
      subst hk
      rw [he] at hval
      rcases found_table m' ops' s' h' ls hv (fun e => ha (.inr e)) with ⟨hc', e'⟩ | ⟨k', hc', e'⟩
      · rw [Nodes.closest_self _ _ (Option.isSome_iff_ne_none.2 (valued hval))] at hc'; cases hc'
      · rw [Nodes.closest_self _ _ (Option.isSome_iff_ne_none.2 (valued hval))] at hc'
        cases hc'
        rw [e', if_pos rfl, hval]
  have two : ∃ x x', found m s ls = .ok x ∧ found m' s' ls = .ok x' ∧ (x = x' ∨ x.2 = none ∨ x'.2 = none) := by
    rcases found_table m ops s h ls hv (fun e => ha (.inl e)) with ⟨_, e⟩ | ⟨k, hc, e⟩
    · rcases found_table m' ops' s' h' ls hv (fun e => ha (.inr e)) with ⟨_, e'⟩ | ⟨k', _, e'⟩
      · exact ⟨_, _, e, e', .inl rfl⟩
      · exact ⟨_, _, e, e', .inr (.inl rfl)⟩
    · rcases found_table m' ops' s' h' ls hv (fun e => ha (.inr e)) with ⟨_, e'⟩ | ⟨k', hc', e'⟩
      · exact ⟨_, _, e, e', .inr (.inr rfl)⟩
      · refine ⟨_, _, e, e', ?_⟩
        cases hx : (Table.empty.after ops).valueOf k with
        | none => exact .inr (.inl rfl)
        | some v =>
          cases hx' : (Table.empty.after ops').valueOf k' with
          | none => exact .inr (.inr rfl)
          | some v' =>
            left
            obtain ⟨c1, _, c3⟩ := (c83_closest _ _ _).1 hc
            obtain ⟨d1, _, d3⟩ := (c83_closest _ _ _).1 hc'
            have l1 := d3 k c1 (valued (by rw [← he]; exact hx))
            have l2 := c3 k' d1 (valued (by rw [he]; exact hx'))
            have hkk : k = k' := (List.suffix_of_suffix_length_le c1 d1 l1).eq_of_length_le l2
            subst hkk
            rw [he, hx'] at hx
            rw [hx]
  obtain ⟨x, x', e, e', hd⟩ := two
  refine ⟨x, x', e, e', fun v => ⟨fun hx => ?_, fun hx => ?_⟩, hd⟩
  · have := exact_half m m' ops ops' s s' h h' ha he v (by rw [e, hx])
    rw [e'] at this; exact Res.ok.inj this
  · have := exact_half m' m ops' ops s' s h' h (fun e => ha e.symm) (fun k => (he k).symm) v (by rw [e', hx])
    rw [e] at this; exact Res.ok.inj this

/-- what was removed leaves its trace: the same name is found or not, though the trees hold the same -/
theorem c105_violated (m : Build) : ∃ s s' : Dom Nat, TreeReached m [.insert TreeSample.bacom (some 1)] s ∧
    TreeReached m [.insert TreeSample.bacom (some 1), .insert TreeSample.cacom (some 2), .removeNode TreeSample.cacom] s' ∧
    (∀ k, (Table.empty.after [TOp.insert TreeSample.bacom (some 1)]).valueOf k =
      (Table.empty.after [TOp.insert TreeSample.bacom (some 1), .insert TreeSample.cacom (some 2), .removeNode TreeSample.cacom]).valueOf k) ∧
    found m s TreeSample.acom = .ok (.NotFound, none) ∧ found m s' TreeSample.acom = .ok (.ExactMatch, none) ∧ s.len = 1 ∧ s'.len = 2 := by
  have hok : ∀ op ∈ ([.insert TreeSample.bacom (some 1), .insert TreeSample.cacom (some 2), .removeNode TreeSample.cacom] : List (TOp Nat)), op.OK m := by
    refine fun op ho => TOp.OK.mono (?_ : op.OK .debug) m
    intro ls hls
    simp only [List.mem_cons, List.not_mem_nil, or_false] at ho
    rcases ho with rfl | rfl | rfl <;> simp only [TOp.names, List.mem_singleton] at hls <;> subst hls <;> decide
  obtain ⟨s, hs, hl, _⟩ := c83_history m [.insert TreeSample.bacom (some 1)] fun op ho => hok op (by simp at ho ⊢; exact .inl ho)
  obtain ⟨s', hs', hl', _⟩ := c83_history m _ hok
  have h1 : TreeReached m [.insert TreeSample.bacom (some 1)] s := ⟨fun op ho => hok op (by simp at ho ⊢; exact .inl ho), _, hs⟩
  have h2 : TreeReached m _ s' := ⟨hok, _, hs'⟩
  have t1 : (Table.empty.after [TOp.insert TreeSample.bacom (some 1)]).nodes = [(lowerName TreeSample.bacom, ⟨some 1, false, false⟩)] := by decide +kernel
  have t2 : (Table.empty.after [TOp.insert TreeSample.bacom (some 1), .insert TreeSample.cacom (some 2), .removeNode TreeSample.cacom]).nodes =
      [(lowerName TreeSample.acom, ⟨none, false, false⟩), (lowerName TreeSample.bacom, ⟨some 1, false, false⟩)] := by decide +kernel
  refine ⟨s, s', h1, h2, fun k => ?_, ?_, ?_, by rw [hl]; decide +kernel, by rw [hl']; decide +kernel⟩
  · unfold Table.valueOf
    rw [t1, t2, Nodes.at_cons, Nodes.at_cons, Nodes.at_cons]
    by_cases hk : lowerName TreeSample.bacom = k
    · subst hk; rw [if_pos rfl, if_neg (by decide)]
    · rw [if_neg hk]
      split <;> rfl
  · rcases found_table m _ s h1 TreeSample.acom (by decide) (fun _ => by decide) with ⟨_, e⟩ | ⟨k, hc, _⟩
    · exact e
    · rw [t1] at hc
      have : Nodes.closest [(lowerName TreeSample.bacom, (⟨some 1, false, false⟩ : Seen Nat))] (lowerName TreeSample.acom) = none := by decide +kernel
      rw [this] at hc; cases hc
  · have hcl : Nodes.closest [(lowerName TreeSample.acom, (⟨none, false, false⟩ : Seen Nat)), (lowerName TreeSample.bacom, ⟨some 1, false, false⟩)] (lowerName TreeSample.acom) =
        some (lowerName TreeSample.acom) := by decide +kernel
    rcases found_table m _ s' h2 TreeSample.acom (by decide) (fun _ => by decide) with ⟨hc, _⟩ | ⟨k, hc, e⟩
    · rw [t2, hcl] at hc; cases hc
    · rw [t2, hcl] at hc
      cases hc
      rw [e, if_pos rfl]
      have : (Table.empty.after [TOp.insert TreeSample.bacom (some 1), .insert TreeSample.cacom (some 2), .removeNode TreeSample.cacom]).valueOf (lowerName TreeSample.acom) = none := by
        decide +kernel
      rw [this]

/-- the premises are met: three names in two orders, one of them told twice; `a.com.` is found though it was never put in -/
theorem c105_example : ∃ s s' : Dom Nat,
    TreeReached .debug [.insert TreeSample.bacom (some 1), .insert TreeSample.cacom (some 2), .insert TreeSample.net (some 3)] s ∧
    TreeReached .release [.insert TreeSample.net (some 3), .insert TreeSample.cacom (some 4), .insert TreeSample.bacom (some 1), .insert TreeSample.cacom (some 2)] s' ∧
    OnlyInserts ([.insert TreeSample.net (some 3), .insert TreeSample.cacom (some 4), .insert TreeSample.bacom (some 1), .insert TreeSample.cacom (some 2)] : List (TOp Nat)) ∧
    (∀ k, lastPut ([.insert TreeSample.bacom (some 1), .insert TreeSample.cacom (some 2), .insert TreeSample.net (some 3)] : List (TOp Nat)) k =
      lastPut [.insert TreeSample.net (some 3), .insert TreeSample.cacom (some 4), .insert TreeSample.bacom (some 1), .insert TreeSample.cacom (some 2)] k) ∧
    found .debug s TreeSample.acom = .ok (.ExactMatch, none) ∧ found .release s' TreeSample.acom = .ok (.ExactMatch, none) ∧ s.len = 5 := by
  have hok : ∀ ops : List (TOp Nat), (∀ op ∈ ops, op ∈ ([.insert TreeSample.bacom (some 1), .insert TreeSample.cacom (some 2), .insert TreeSample.net (some 3), .insert TreeSample.cacom (some 4)] : List (TOp Nat))) →
      ∀ op ∈ ops, op.OK .debug := by
    intro ops hops op ho ls hls
    have ho := hops op ho
    simp only [List.mem_cons, List.not_mem_nil, or_false] at ho
    rcases ho with rfl | rfl | rfl | rfl <;> simp only [TOp.names, List.mem_singleton] at hls <;> subst hls <;> decide
  have k1 := hok [.insert TreeSample.bacom (some 1), .insert TreeSample.cacom (some 2), .insert TreeSample.net (some 3)] (by
    intro op ho; simp only [List.mem_cons, List.not_mem_nil, or_false] at ho ⊢
    rcases ho with rfl | rfl | rfl <;> simp)
  have k2 := hok [.insert TreeSample.net (some 3), .insert TreeSample.cacom (some 4), .insert TreeSample.bacom (some 1), .insert TreeSample.cacom (some 2)] (by
    intro op ho; simp only [List.mem_cons, List.not_mem_nil, or_false] at ho ⊢
    rcases ho with rfl | rfl | rfl | rfl <;> simp)
  obtain ⟨s, hs, hl, _⟩ := c83_history .debug _ k1
  obtain ⟨s', hs', hl', _⟩ := c83_history .release _ (fun op ho => (k2 op ho).mono _)
  have o1 : OnlyInserts ([.insert TreeSample.bacom (some 1), .insert TreeSample.cacom (some 2), .insert TreeSample.net (some 3)] : List (TOp Nat)) := by
    intro op ho; simp only [List.mem_cons, List.not_mem_nil, or_false] at ho
    rcases ho with rfl | rfl | rfl <;> exact ⟨_, _, rfl⟩
  have o2 : OnlyInserts ([.insert TreeSample.net (some 3), .insert TreeSample.cacom (some 4), .insert TreeSample.bacom (some 1), .insert TreeSample.cacom (some 2)] : List (TOp Nat)) := by
    intro op ho; simp only [List.mem_cons, List.not_mem_nil, or_false] at ho
    rcases ho with rfl | rfl | rfl | rfl <;> exact ⟨_, _, rfl⟩
  have he : ∀ k, lastPut ([.insert TreeSample.bacom (some 1), .insert TreeSample.cacom (some 2), .insert TreeSample.net (some 3)] : List (TOp Nat)) k =
      lastPut [.insert TreeSample.net (some 3), .insert TreeSample.cacom (some 4), .insert TreeSample.bacom (some 1), .insert TreeSample.cacom (some 2)] k := by
    intro k
    have n1 : lowerName TreeSample.bacom ≠ lowerName TreeSample.cacom := by decide
    have n2 : lowerName TreeSample.bacom ≠ lowerName TreeSample.net := by decide
    have n3 : lowerName TreeSample.cacom ≠ lowerName TreeSample.net := by decide
    unfold lastPut
    by_cases h1 : lowerName TreeSample.bacom = k
    · subst h1; simp [TOp.puts, n1.symm, n2.symm]
    by_cases h2 : lowerName TreeSample.cacom = k
    · subst h2; simp [TOp.puts, n1, n3.symm]
    by_cases h3 : lowerName TreeSample.net = k
    · subst h3; simp [TOp.puts, n2, n3]
    · simp [TOp.puts, h1, h2, h3]
  have r1 : TreeReached .debug _ s := ⟨k1, _, hs⟩
  have r2 : TreeReached .release _ s' := ⟨fun op ho => (k2 op ho).mono _, _, hs'⟩
  have hf : found .debug s TreeSample.acom = .ok (.ExactMatch, none) := by
    rw [(c105_find_partial .debug _ s r1 o1 TreeSample.acom (by decide) (by decide)).2 (lowerName TreeSample.acom) (List.suffix_refl _) ?_ fun j hj _ => hj.length_le, if_pos rfl]
    · have : lastPut ([.insert TreeSample.bacom (some 1), .insert TreeSample.cacom (some 2), .insert TreeSample.net (some 3)] : List (TOp Nat)) (lowerName TreeSample.acom) = none := by decide +kernel
      rw [this]; rfl
    · exact (settled_iff _ _).2 ⟨lowerName TreeSample.bacom, lowerName TreeSample.cacom, by decide +kernel, by decide +kernel, by decide +kernel⟩
  obtain ⟨⟨x, e1, e2⟩, _⟩ := (c105_order_partial .debug .release _ _ s s' r1 r2 o1 o2 he).imp_left fun h => h TreeSample.acom (by decide) (by decide)
  refine ⟨s, s', r1, r2, o2, he, hf, ?_, by rw [hl]; decide +kernel⟩
  rw [e1] at hf
  rw [e2, hf]

end R53
