import Verif.Props.Server
import Verif.Props.Grammar
/-!
# C104: from zone text to an answer
-/
namespace R53
open Name (ofLabels)

section tables
variable {T : Type}

theorem Nodes.at_change (N : Nodes T) (k : List Label) (f : Seen T → Seen T) (j : List Label) : (N.change k f).at? j = if j = k then (N.at? j).map f else N.at? j := by
  unfold Nodes.at? Nodes.change
  induction N with
  | nil => split <;> rfl
  | cons x N ih =>
    rw [List.map_cons, List.find?_cons, List.find?_cons]
    have hk : (if x.1 = k then (x.1, f x.2) else x).1 = x.1 := by split <;> rfl
    simp only [hk]
    by_cases hx : x.1 = j
    · subst hx
      by_cases h : x.1 = k <;> simp [h]
    · simp only [hx, decide_false]
      exact ih

theorem Nodes.at_cons (x : List Label × Seen T) (N : Nodes T) (j : List Label) : Nodes.at? (x :: N) j = if x.1 = j then some x.2 else N.at? j := by
  unfold Nodes.at?
  rw [List.find?_cons]
  by_cases h : x.1 = j <;> simp [h]

theorem Nodes.at_blank (B : List (List Label)) (N : Nodes T) (hB : ∀ k ∈ B, N.at? k = none) (j : List Label) :
    (Nodes.at? ((B.map fun k => (k, (⟨none, false, false⟩ : Seen T))) ++ N) j).bind Seen.value = (N.at? j).bind Seen.value := by
  induction B with
  | nil => rfl
  | cons b B ih =>
    rw [List.map_cons, List.cons_append, Nodes.at_cons]
    by_cases h : b = j
    · subst h
      rw [if_pos rfl, hB b (by simp)]; rfl
    · rw [if_neg h]
      exact ih fun k hk => hB k (by simp [hk])

/-- a table is a map: `insert` sets the value of its name only -/
theorem Table.valueOf_insert (M : Table T) (ls : List Label) (v : Option T) (k : List Label) :
    (M.step (.insert ls v)).2.valueOf k = if k = lowerName ls then v else M.valueOf k := by
  show ((M.nodes.insert (lowerName ls) v).at? k).bind Seen.value = if k = lowerName ls then v else (M.nodes.at? k).bind Seen.value
  unfold Nodes.insert
  split
  · rename_i h
    rw [Nodes.at_change]
    by_cases hk : k = lowerName ls
    · subst hk
      rw [if_pos rfl, if_pos rfl]
      cases hx : M.nodes.at? (lowerName ls) with
      | none => rw [hx] at h; cases h
      | some d => rfl
    · rw [if_neg hk, if_neg hk]
  · rw [List.cons_append, Nodes.at_cons]
    by_cases hk : k = lowerName ls
    · subst hk; simp
    · rw [if_neg (Ne.symm hk), if_neg hk]
      refine Nodes.at_blank _ _ (fun b hb => ?_) k
      have := (List.mem_filter.1 hb).2
      simp only [decide_eq_true_eq] at this
      exact this.2

theorem Table.after_snoc (ops : List (TOp T)) : ∀ (M : Table T) (op : TOp T), M.after (ops ++ [op]) = ((M.after ops).step op).2 := by
  induction ops with
  | nil => intro M op; rfl
  | cons o ops ih => intro M op; exact ih _ op

theorem Nodes.closest_at (N : Nodes T) (n k : List Label) (h : N.closest n = some k) : (N.at? k).isSome = true := by
  induction n with
  | nil =>
    unfold Nodes.closest at h
    split at h
    · cases h; assumption
    · cases h
  | cons l n ih =>
    unfold Nodes.closest at h
    split at h
    · cases h; assumption
    · exact ih h

theorem Nodes.closest_self (N : Nodes T) (n : List Label) (h : (N.at? n).isSome = true) : N.closest n = some n := by
  cases n <;> (unfold Nodes.closest; rw [if_pos h])

end tables

/-- what a server answers is what it knows of the name itself -/
theorem says_answer (M : Table (List RRset)) (n : List Label) (typ : RRType) :
    Server.says (Server.known M n) n typ .Answer = (((M.valueOf n).getD []).filter fun s => s.typ = typ).flatMap RRset.facts := by
  unfold Server.known Server.says
  by_cases h : (M.nodes.at? n).isSome = true
  · rw [Nodes.closest_self _ _ h]
    simp
  · have hv : M.valueOf n = none := by
      unfold Table.valueOf
      cases hx : M.nodes.at? n with
      | none => rfl
      | some d => rw [hx] at h; exact absurd rfl h
    rw [hv]
    cases hc : M.nodes.closest n with
    | none => rfl
    | some k =>
      have : k ≠ n := by rintro rfl; exact h (Nodes.closest_at _ _ _ hc)
      simp [this]

/-- of a name with sets nothing else is said -/
theorem says_own (M : Table (List RRset)) (n : List Label) (typ : RRType) (h : (M.valueOf n).getD [] ≠ []) :
    Server.says (Server.known M n) n typ .Answer = (((M.valueOf n).getD []).filter fun s => s.typ = typ).flatMap RRset.facts ∧
    Server.says (Server.known M n) n typ .Authority = [] ∧ Server.names (Server.known M n) = ((M.valueOf n).getD []).flatMap RRset.names := by
  refine ⟨says_answer M n typ, ?_⟩
  have hs : (M.nodes.at? n).isSome = true := by
    cases hx : M.nodes.at? n with
    | none => rw [Table.valueOf, hx] at h; exact absurd rfl h
    | some d => rfl
  unfold Server.known Server.says
  rw [Nodes.closest_self _ _ hs]
  simp [Server.names]

/-- a zone that has been loaded: the tree knows, for every owner, the sets of that owner, in order -/
structure Loaded (m : Build) (sets : List RRset) (tree : Dom (List RRset)) : Prop where
  reached : ∃ ops, TreeReached m ops tree ∧ (∀ k, ((Table.empty.after ops).valueOf k).getD [] = setsOf sets k) ∧
    ∀ ls v, TOp.insert ls (some v) ∈ ops → ∃ i k, v = setsOf (sets.take i) k

theorem Loaded.add {m : Build} {sets : List RRset} {tree : Dom (List RRset)} (h : Loaded m sets tree) (set : RRset) (ls : List Label) (hv : ValidName ls)
    (hn : set.name = ofLabels ls) (ha : ∀ l ∈ ls, ∀ c ∈ l, c.toNat < 128) :
    ∃ r v tree' p old, tree.find m set.name = .ok r ∧ (if r.flag = .ExactMatch then r.get_value tree else .ok none) = .ok v ∧
      Dom.insert m set.name (some (v.getD [] ++ [set])) tree = (.ok (p, old), tree') ∧ Loaded m (sets ++ [set]) tree' := by
  obtain ⟨ops, h1, h2, h3⟩ := h
  obtain ⟨f1, f2⟩ := c83_find m ops tree h1 ls hv fun _ => ha
  have hfind : ∃ r v, tree.find m set.name = .ok r ∧ (if r.flag = .ExactMatch then r.get_value tree else .ok none) = .ok v ∧ v.getD [] = setsOf sets (lowerName ls) := by
    cases hc : (Table.empty.after ops).nodes.closest (lowerName ls) with
    | none =>
      refine ⟨⟨0, .NotFound⟩, none, by rw [hn]; exact f1 hc, rfl, ?_⟩
      rw [← h2]
      have : (Table.empty.after ops).nodes.at? (lowerName ls) = none := by
        cases hx : (Table.empty.after ops).nodes.at? (lowerName ls) with
        | none => rfl
        | some d => rw [Nodes.closest_self _ _ (by rw [hx]; rfl)] at hc; cases hc
      rw [Table.valueOf, this]; rfl
    | some k =>
      obtain ⟨p, n, g1, _, g2, g3⟩ := f2 k hc
      by_cases hk : k = lowerName ls
      · rw [if_pos hk] at g1
        refine ⟨_, n.value, by rw [hn]; exact g1, ?_, ?_⟩
        · rw [if_pos rfl]
          unfold Dom.FindResult.get_value
          rw [if_neg (by simp), g2]; rfl
        · rw [← h2, Table.valueOf, ← hk, g3]; rfl
      · rw [if_neg hk] at g1
        refine ⟨_, none, by rw [hn]; exact g1, by rw [if_neg (by simp)], ?_⟩
        rw [← h2]
        have : (Table.empty.after ops).nodes.at? (lowerName ls) = none := by
          cases hx : (Table.empty.after ops).nodes.at? (lowerName ls) with
          | none => rfl
          | some d =>
            rw [Nodes.closest_self _ _ (by rw [hx]; rfl)] at hc
            exact absurd (Option.some.inj hc).symm hk
        rw [Table.valueOf, this]; rfl
  obtain ⟨r, v, e1, e2, e3⟩ := hfind
  obtain ⟨p, tree', i1, _, i2⟩ := c83_insert m ops tree h1 ls (some (v.getD [] ++ [set])) hv ha
  have hl : lowerName set.name.labelList = lowerName ls := by rw [hn, R53.labels_ofLabels hv]
  refine ⟨r, v, tree', p, _, e1, e2, by rw [hn]; exact i1, ⟨ops ++ [.insert ls (some (v.getD [] ++ [set]))], i2, fun k => ?_, fun ls' v' hi => ?_⟩⟩
  · rw [Table.after_snoc, Table.valueOf_insert]
    unfold setsOf
    rw [List.filter_append]
    by_cases hk : k = lowerName ls
    · subst hk
      rw [if_pos rfl, e3]
      simp [setsOf, hl]
    · rw [if_neg hk, h2]
      have : ¬ lowerName ls = k := Ne.symm hk
      simp [setsOf, hl, this]
  · rcases List.mem_append.1 hi with hi | hi
    · obtain ⟨i, k, hk⟩ := h3 ls' v' hi
      refine ⟨min i sets.length, k, ?_⟩
      rw [hk, List.take_append_of_le_length (Nat.min_le_right _ _)]
      congr 1
      by_cases hle : i ≤ sets.length
      · rw [Nat.min_eq_left hle]
      · rw [Nat.min_eq_right (by omega), List.take_of_length_le (by omega), List.take_of_length_le (Nat.le_refl _)]
    · rw [List.mem_singleton, TOp.insert.injEq, Option.some.injEq] at hi
      refine ⟨(sets ++ [set]).length, lowerName ls, ?_⟩
      rw [List.take_length, hi.2, e3]
      unfold setsOf
      rw [List.filter_append]
      simp [hl]

theorem load_ok {m : Build} : ∀ (groups : List (List (List UInt8))) (sets before : List RRset) (tree : Dom (List RRset)),
    groups.map (RRset.from_strs stdExt m) = sets.map Res.ok → (∀ s ∈ sets, ∃ ls, ValidName ls ∧ s.name = ofLabels ls ∧ ∀ l ∈ ls, ∀ c ∈ l, c.toNat < 128) → Loaded m before tree →
    ∃ tree', Server.load m groups tree = (.ok (), tree') ∧ Loaded m (before ++ sets) tree'
  | [], sets, before, tree, hg, hs, h => by
    cases sets with
    | nil => exact ⟨tree, rfl, by simpa using h⟩
    | cons => simp at hg
  | g :: gs, sets, before, tree, hg, hs, h => by
    cases sets with
    | nil => simp at hg
    | cons set sets =>
      simp only [List.map_cons, List.cons.injEq] at hg
      obtain ⟨ls, hv, hn, ha⟩ := hs set (by simp)
      obtain ⟨r, v, tree1, p, old, e1, e2, e3, e4⟩ := h.add set ls hv hn ha
      obtain ⟨tree', e5, e6⟩ := load_ok gs sets (before ++ [set]) tree1 hg.2 (fun s h => hs s (by simp [h])) e4
      refine ⟨tree', ?_, by simpa using e6⟩
      unfold Server.load
      rw [St.lift_ok_bind hg.1, St.get_bind, St.lift_ok_bind e1, St.lift_ok_bind e2, St.bind_ok e3]
      exact e5

theorem facts_sublist {a b : List RRset} (h : List.Sublist a b) : (a.flatMap RRset.facts).length ≤ (b.flatMap RRset.facts).length := by
  induction h with
  | slnil => exact Nat.le_refl _
  | cons x _ ih => rw [List.flatMap_cons, List.length_append]; omega
  | cons_cons x _ ih => rw [List.flatMap_cons, List.flatMap_cons, List.length_append, List.length_append]; omega

/-- a server with a tree that has been loaded with sets, for requests of any names in a release build, of ASCII names in a debug build -/
theorem loaded_serves {m : Build} {sets : List RRset} {tree : Dom (List RRset)} (hload : Loaded m sets tree) (hfit : ∀ s ∈ sets, s.FitsIn 65535) (ho : ∀ s ∈ sets, s.typ ≠ .OPT)
    (hc : ∀ k, ((setsOf sets k).flatMap RRset.facts).length ≤ 65535) (raw : List UInt8) (q : Request) (hq : Request.from_wire raw = .ok q)
    (hqa : m = .debug → ∀ l ∈ q.question.name.labelList, ∀ c ∈ l, c.toNat < 128) (backing : List UInt8) (hb : q.question.name.raw.length + 271 ≤ backing.length) (hb' : backing.length ≤ 65535) :
    ∃ out m', Server.serve m tree raw backing = .ok out ∧ out.length ≤ backing.length ∧ Response.from_wire out = .ok m' ∧
      m'.header.id = q.header.id ∧ m'.question = q.question ∧ m'.header.is_flag_set .QueryRespone = true ∧
      (((m'.section_ .Answer).sets.flatMap RRset.facts).Perm
          (((setsOf sets (lowerName q.question.name.labelList)).filter fun s => s.typ = q.question.typ).flatMap RRset.facts) ∨
        (m'.header.is_flag_set .Truncation = true ∧ ∀ t, m'.section_ t = none)) ∧
      (setsOf sets (lowerName q.question.name.labelList) ≠ [] →
        ClashFree (q.question.name :: (setsOf sets (lowerName q.question.name.labelList)).flatMap RRset.names) →
        q.question.name.raw.length + 16 +
          ((((setsOf sets (lowerName q.question.name.labelList)).filter fun s => s.typ = q.question.typ).flatMap RRset.facts).map factSize).sum ≤ backing.length →
        ((m'.section_ .Answer).sets.flatMap RRset.facts).Perm
          (((setsOf sets (lowerName q.question.name.labelList)).filter fun s => s.typ = q.question.typ).flatMap RRset.facts)) := by
  obtain ⟨ops, h1, h2, h3⟩ := hload
  obtain ⟨_, _, ⟨ls, hv, hn⟩, _⟩ := c56_checks_partial raw q hq
  have hlist : q.question.name.labelList = ls := by rw [hn, R53.labels_ofLabels hv]
  rw [hlist] at hqa ⊢
  have hst : ∀ ls v, TOp.insert ls (some v) ∈ ops → Stored backing.length v := by
    intro ls v hi
    obtain ⟨i, k, rfl⟩ := h3 ls v hi
    refine ⟨fun s hs => ?_, Nat.le_trans (facts_sublist ?_) (hc k)⟩
    · have hs : s ∈ sets := List.mem_of_mem_take (List.mem_filter.1 hs).1
      obtain ⟨f1, f2, f3, f4, f5⟩ := hfit s hs
      exact ⟨⟨f1, f2, f3, fun rd hrd => ⟨(f4 rd hrd).1, (f4 rd hrd).2.1, (f4 rd hrd).2.2.1, Or.inl hb'⟩, f5⟩, ho s hs⟩
    · exact (List.take_sublist i sets).filter _
  obtain ⟨out, m', a1, a2, a3, a4, a5, a6, _, a7, a8⟩ := c103_serve m ops tree h1 backing hst raw q hq ls hv hn hqa (by rw [nameWire_eq, ← Name.ofLabels_raw, ← hn]; exact hb)
  refine ⟨out, m', a1, a2, a3, a4, a5, a6, ?_, fun hne hcf hsz => ?_⟩
  · rcases a7 with a7 | a7
    · left
      have := a7 .Answer
      rw [says_answer, h2] at this
      exact this
    · exact .inr a7
  · obtain ⟨k1, k2, k3⟩ := says_own (Table.empty.after ops) (lowerName ls) q.question.typ (by rw [h2]; exact hne)
    have := a8 (by rw [k3, h2]; exact hcf) (by
      rw [k2, List.append_nil, k1, h2, nameWire_eq, ← Name.ofLabels_raw, ← hn]
      exact hsz) .Answer
    rw [k1, h2] at this
    exact this

/-- A zone as text: any groups of lines of at most 510 octets without backslash that the library reads as record sets with ASCII owner names, none of them OPT, not more than
65535 records of one owner. Loading succeeds; then every request, whatever its octets - in a debug build for an ASCII name - gets, in any letter case, in a buffer with 271 octets more than the
name, a response that the client decodes, to its question and with its id, whose answer is exactly the data in those lines of that owner and type - all of it, and nothing else - or
which is flagged as truncated and empty. It is complete if the owner has lines, the buffer holds the answer with all names written out, and no two of the names collide (C44). -/
theorem c104_zone (m : Build) (groups : List (List (List UInt8))) (hl : ∀ g ∈ groups, ∀ s ∈ g, PlainLine s) (sets : List RRset)
    (hg : groups.map (RRset.from_strs stdExt m) = sets.map Res.ok) (ho : ∀ s ∈ sets, s.typ ≠ .OPT)
    (ha : ∀ s ∈ sets, ∀ l ∈ s.name.labelList, ∀ c ∈ l, c.toNat < 128) (hc : ∀ k, ((setsOf sets k).flatMap RRset.facts).length ≤ 65535) :
    ∃ tree, Server.load m groups Dom.new = (.ok (), tree) ∧
      ∀ (raw : List UInt8) (q : Request), Request.from_wire raw = .ok q → (m = .debug → ∀ l ∈ q.question.name.labelList, ∀ c ∈ l, c.toNat < 128) →
        ∀ backing : List UInt8, q.question.name.raw.length + 271 ≤ backing.length → backing.length ≤ 65535 →
          ∃ out m', Server.serve m tree raw backing = .ok out ∧ out.length ≤ backing.length ∧ Response.from_wire out = .ok m' ∧
            m'.header.id = q.header.id ∧ m'.question = q.question ∧ m'.header.is_flag_set .QueryRespone = true ∧
            (((m'.section_ .Answer).sets.flatMap RRset.facts).Perm
                (((setsOf sets (lowerName q.question.name.labelList)).filter fun s => s.typ = q.question.typ).flatMap RRset.facts) ∨
              (m'.header.is_flag_set .Truncation = true ∧ ∀ t, m'.section_ t = none)) ∧
            (setsOf sets (lowerName q.question.name.labelList) ≠ [] →
              ClashFree (q.question.name :: (setsOf sets (lowerName q.question.name.labelList)).flatMap RRset.names) →
              q.question.name.raw.length + 16 +
                ((((setsOf sets (lowerName q.question.name.labelList)).filter fun s => s.typ = q.question.typ).flatMap RRset.facts).map factSize).sum ≤ backing.length →
              ((m'.section_ .Answer).sets.flatMap RRset.facts).Perm
                (((setsOf sets (lowerName q.question.name.labelList)).filter fun s => s.typ = q.question.typ).flatMap RRset.facts)) := by
  have hfit : ∀ s ∈ sets, s.FitsIn 65535 := by
    intro s hs
    have : Res.ok s ∈ groups.map (RRset.from_strs stdExt m) := by rw [hg]; exact List.mem_map_of_mem hs
    obtain ⟨g, hgm, he⟩ := List.mem_map.1 this
    exact c78_std m g (hl g hgm) s he 65535 (Nat.le_refl _)
  have hown : ∀ s ∈ sets, ∃ ls, ValidName ls ∧ s.name = ofLabels ls ∧ ∀ l ∈ ls, ∀ c ∈ l, c.toNat < 128 := by
    intro s hs
    obtain ⟨ls, h1, h2⟩ := (hfit s hs).name
    have := ha s hs
    rw [h2, R53.labels_ofLabels h1] at this
    exact ⟨ls, h1, h2, this⟩
  have h0 : Loaded m [] (Dom.new : Dom (List RRset)) := ⟨[], ⟨fun _ h => (nomatch h), [], rfl⟩, fun k => rfl, fun _ _ h => (nomatch h)⟩
  obtain ⟨tree, e1, e2⟩ := load_ok groups sets [] Dom.new hg hown h0
  rw [List.nil_append] at e2
  exact ⟨tree, e1, fun raw q hq hqa backing hb hb' => loaded_serves e2 hfit ho hc raw q hq hqa backing hb hb'⟩

/-- the premises are met: two groups of one owner, one of another; a question for `A.` of type A gets the two addresses -/
theorem c104_example : let lines : List (List (List UInt8)) := [[ascii "a. 60 IN A 1.2.3.4", ascii "a. 60 IN A 5.6.7.8"], [ascii "a. 60 IN NS n.a."], [ascii "b. 60 IN A 9.9.9.9"]]
    let sets : List RRset := [⟨ofLabels [[97]], .A, .IN, 60, [⟨.A, [.ip [1, 2, 3, 4]]⟩, ⟨.A, [.ip [5, 6, 7, 8]]⟩]⟩, ExchangeSample.auth, ⟨ofLabels [[98]], .A, .IN, 60, [⟨.A, [.ip [9, 9, 9, 9]]⟩]⟩]
    (∀ g ∈ lines, ∀ s ∈ g, PlainLine s) ∧ lines.map (RRset.from_strs stdExt .release) = sets.map Res.ok ∧ (∀ s ∈ sets, s.typ ≠ .OPT) ∧
    (∀ s ∈ sets, ∀ l ∈ s.name.labelList, ∀ c ∈ l, c.toNat < 128) ∧ (∀ k, ((setsOf sets k).flatMap RRset.facts).length ≤ 65535) ∧
    ((setsOf sets (lowerName [[65]])).filter fun s => s.typ = .A).flatMap RRset.facts = [([[97]], .A, ⟨.A, [.ip [1, 2, 3, 4]]⟩), ([[97]], .A, ⟨.A, [.ip [5, 6, 7, 8]]⟩)] ∧
    setsOf sets (lowerName [[65]]) ≠ [] ∧ ClashFree (ofLabels [[65]] :: (setsOf sets (lowerName [[65]])).flatMap RRset.names) ∧
    (ofLabels [[65]]).raw.length + 16 + ((((setsOf sets (lowerName [[65]])).filter fun s => s.typ = .A).flatMap RRset.facts).map factSize).sum = 53 := by
  refine ⟨by unfold PlainLine; decide +kernel, by decide +kernel, by decide, by decide +kernel, fun k => ?_, by decide +kernel, by decide +kernel, by decide +kernel, by decide +kernel⟩
  refine Nat.le_trans (facts_sublist (List.filter_sublist)) ?_
  decide

end R53
