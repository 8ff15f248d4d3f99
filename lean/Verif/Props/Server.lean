import Verif.Spec.Server
import Verif.Props.Exchange
import Verif.Props.Nodes
/-!
# C103: a name server
-/
namespace R53
open Name (ofLabels)

/-- what is kept in a table was put there by some `insert` -/
theorem Table.kept {T : Type} (P : T → Prop) (ops : List (TOp T)) : ∀ (M : Table T), (∀ x ∈ M.nodes, ∀ v, x.2.value = some v → P v) →
    (∀ ls v, TOp.insert ls (some v) ∈ ops → P v) → ∀ x ∈ (M.after ops).nodes, ∀ v, x.2.value = some v → P v := by
  induction ops with
  | nil => intro M h _; exact h
  | cons op ops ih =>
    intro M h ho
    refine ih _ ?_ fun ls v hv => ho ls v (List.mem_cons_of_mem _ hv)
    have change : ∀ (N : Nodes T) (k : List Label) (f : Seen T → Seen T), (∀ x ∈ N, ∀ v, x.2.value = some v → P v) → (∀ d v, (f d).value = some v → d.value = some v ∨ P v) →
        ∀ x ∈ N.change k f, ∀ v, x.2.value = some v → P v := by
      intro N k f hN hf x hx v hv
      obtain ⟨y, hy, rfl⟩ := List.mem_map.1 hx
      split at hv
      · rcases hf _ _ hv with h | h
        · exact hN y hy v h
        · exact h
      · exact hN y hy v hv
    have remove : ∀ k, ∀ x ∈ M.nodes.removeNode k, ∀ v, x.2.value = some v → P v := by
      intro k x hx v hv
      unfold Nodes.removeNode at hx
      split at hx
      · exact change M.nodes k (fun d => { d with value := none }) h (fun d v h => by simp at h) x (List.mem_filter.1 hx).1 v hv
      · exact h x hx v hv
    cases op with
    | insert ls w =>
      intro x hx v hv
      change x ∈ M.nodes.insert (lowerName ls) w at hx
      unfold Nodes.insert at hx
      have hw : ∀ v, w = some v → P v := fun v e => ho ls v (by simp [e])
      split at hx
      · exact change _ _ _ h (fun d v e => .inr (hw v e)) x hx v hv
      · simp only [List.cons_append, List.mem_cons, List.mem_append, List.mem_map] at hx
        rcases hx with rfl | ⟨k, _, rfl⟩ | hx
        · exact hw v hv
        · cases hv
        · exact h x hx v hv
    | removeNode ls => exact remove _
    | remove ls =>
      intro x hx v hv
      simp only [Table.step] at hx
      split at hx
      · exact remove _ x hx v hv
      · exact h x hx v hv
    | get ls => exact h
    | callback ls b => exact change M.nodes (lowerName ls) (fun d => { d with cb := b }) h fun d v e => .inl e
    | wildcard ls b => exact change M.nodes (lowerName ls) (fun d => { d with wc := b }) h fun d v e => .inl e
    | clear => intro x hx; cases hx

theorem Table.valueOf_kept {T : Type} {P : T → Prop} {M : Table T} (h : ∀ x ∈ M.nodes, ∀ v, x.2.value = some v → P v) {k : List Label} {v : T} (hv : M.valueOf k = some v) : P v := by
  unfold Table.valueOf Nodes.at? at hv
  cases hf : M.nodes.find? fun x => x.1 = k with
  | none => rw [hf] at hv; simp at hv
  | some x => rw [hf] at hv; exact h x (List.mem_of_find?_eq_some hf) v (by simpa using hv)

theorem calls_ok {L : Nat} {v : List RRset} (h : Stored L v) (typ : RRType) (flag : Dom.FindFlag) :
    ∀ op ∈ Server.calls typ flag v, op.Sendable L ∧ op.Answers ∧ op.Grows := by
  intro op ho
  cases flag with
  | ExactMatch =>
    obtain ⟨s, hs, rfl⟩ := List.mem_map.1 ho
    exact ⟨h.fits s (List.mem_filter.1 hs).1, trivial, trivial⟩
  | PartialMatch =>
    obtain ⟨s, hs, rfl⟩ := List.mem_map.1 ho
    exact ⟨h.fits s (List.mem_filter.1 hs).1, trivial, trivial⟩
  | NotFound =>
    obtain rfl := List.mem_singleton.1 ho
    exact ⟨trivial, trivial, trivial⟩


/-- what the calls add -/
theorem calls_add (typ : RRType) (flag : Dom.FindFlag) (v : List RRset) (t : SectionType) :
    (Server.calls typ flag v).flatMap (BOp.adds t) = match flag with
      | .ExactMatch => if t = .Answer then (v.filter fun s => s.typ = typ).flatMap RRset.facts else []
      | .PartialMatch => if t = .Authority then (v.filter fun s => s.typ = .NS).flatMap RRset.facts else []
      | .NotFound => [] := by
  have key : ∀ (t' : SectionType) (l : List RRset), (l.map (BOp.add t')).flatMap (BOp.adds t) = if t = t' then l.flatMap RRset.facts else [] := by
    intro t' l
    induction l with
    | nil => split <;> rfl
    | cons s l ih =>
      rw [List.map_cons, List.flatMap_cons, ih, List.flatMap_cons]
      by_cases h : t = t'
      · subst h; simp [BOp.adds]
      · simp [BOp.adds, h, Ne.symm h]
  cases flag with
  | ExactMatch => exact key _ _
  | PartialMatch => exact key _ _
  | NotFound => rfl

theorem facts_filter_le (v : List RRset) (p : RRset → Bool) : ((v.filter p).flatMap RRset.facts).length ≤ (v.flatMap RRset.facts).length := by
  induction v with
  | nil => simp
  | cons s v ih =>
    rw [List.filter_cons]
    split
    · rw [List.flatMap_cons, List.flatMap_cons, List.length_append, List.length_append]; omega
    · rw [List.flatMap_cons, List.length_append]; omega

theorem records_facts {L : Nat} {s : Section} (h : ∀ x ∈ s.sets, x.FitsIn L ∧ x.typ ≠ .OPT) : (Section.records s).length = (s.sets.flatMap RRset.facts).length := by
  cases s with
  | none => rfl
  | some sets =>
    show (sets.flatMap RRset.records).length = (sets.flatMap RRset.facts).length
    replace h : ∀ x ∈ sets, x.FitsIn L ∧ x.typ ≠ .OPT := h
    induction sets with
    | nil => rfl
    | cons x sets ih =>
      rw [List.flatMap_cons, List.flatMap_cons, List.length_append, List.length_append, ih fun y hy => h y (by simp [hy])]
      have hx := h x (by simp)
      have : x.rdatas ≠ [] := fun e => hx.2 (hx.1.empty e)
      simp [RRset.records, RRset.facts, this]

theorem calls_names (typ : RRType) (flag : Dom.FindFlag) (v : List RRset) : ∀ n ∈ (Server.calls typ flag v).flatMap BOp.names, n ∈ v.flatMap RRset.names := by
  intro n hn
  obtain ⟨op, ho, hn⟩ := List.mem_flatMap.1 hn
  cases flag with
  | ExactMatch =>
    obtain ⟨s, hs, rfl⟩ := List.mem_map.1 ho
    exact List.mem_flatMap.2 ⟨s, (List.mem_filter.1 hs).1, hn⟩
  | PartialMatch =>
    obtain ⟨s, hs, rfl⟩ := List.mem_map.1 ho
    exact List.mem_flatMap.2 ⟨s, (List.mem_filter.1 hs).1, hn⟩
  | NotFound =>
    obtain rfl := List.mem_singleton.1 ho
    cases hn

/-- a set takes the room of what it says -/
theorem size_facts {L : Nat} {s : RRset} (h : s.FitsIn L ∧ s.typ ≠ .OPT) : s.size = (s.facts.map factSize).sum := by
  have hne : s.rdatas ≠ [] := fun e => h.2 (h.1.empty e)
  obtain ⟨ls, hv, hn⟩ := h.1.name
  unfold RRset.size RRset.facts
  rw [if_neg hne, List.map_map]
  congr 1
  refine List.map_congr_left fun rd _ => ?_
  show s.name.raw.length + 10 + rd.size = (nameWire (lowerName s.name.labelList)).length + 10 + rd.size
  rw [hn, R53.labels_ofLabels hv, nameWire_eq, Name.ofLabels_raw, ← Name.lower_wire_length (ls ++ [[]])]
  congr 3
  simp [lowerName, lowerLabel]

theorem calls_room {L : Nat} {v : List RRset} (h : Stored L v) (typ : RRType) (flag : Dom.FindFlag) : ((Server.calls typ flag v).map BOp.room).sum =
    (((Server.calls typ flag v).flatMap (BOp.adds .Answer) ++ (Server.calls typ flag v).flatMap (BOp.adds .Authority)).map factSize).sum := by
  have key : ∀ (l : List RRset) (t : SectionType), (∀ s ∈ l, s.FitsIn L ∧ s.typ ≠ .OPT) → ((l.map (BOp.add t)).map BOp.room).sum = ((l.flatMap RRset.facts).map factSize).sum := by
    intro l t hl
    induction l with
    | nil => rfl
    | cons s l ih =>
      simp only [List.map_cons, List.sum_cons, List.flatMap_cons, List.map_append, List.sum_append]
      rw [ih fun x hx => hl x (by simp [hx]), ← size_facts (hl s (by simp))]
      rfl
  rw [calls_add, calls_add]
  cases flag with
  | ExactMatch =>
    dsimp only
    rw [if_pos rfl, if_neg (by simp), List.append_nil]
    exact key _ .Answer fun s hs => h.fits s (List.mem_filter.1 hs).1
  | PartialMatch =>
    dsimp only
    rw [if_pos rfl, if_neg (by simp), List.nil_append]
    exact key _ .Authority fun s hs => h.fits s (List.mem_filter.1 hs).1
  | NotFound => rfl

/-- the calls for a name, whatever the tree says, are answered; in any buffer, what is sent is right -/
theorem served_any {L : Nat} {v : List RRset} (hst : Stored L v) (raw : List UInt8) (q : Request) (hq : Request.from_wire raw = .ok q) (flag : Dom.FindFlag)
    (backing : List UInt8) (hL : backing.length = L) :
    ∃ m, BOp.runAll (replyCalls q (Server.calls q.question.typ flag v)) (Response.with_question 0 q.question.name q.question.typ) = .ok m ∧
      m.tidy.FitsIn backing.length ∧ (q.question.name.raw.length + 271 ≤ backing.length → ∃ n r, m.to_wire (Render.new backing) = (.ok n, r)) ∧
      ∀ n r, m.to_wire (Render.new backing) = (.ok n, r) → ∃ m', r.data.length ≤ backing.length ∧ Response.from_wire r.data = .ok m' ∧
      m'.header.id = q.header.id ∧ m'.question = q.question ∧ m'.header.is_flag_set .QueryRespone = true ∧
      m'.header.rcode = (if flag = .NotFound then .Refused else .NoError) ∧
      ((∀ t, ((m'.section_ t).sets.flatMap RRset.facts).Perm ((Server.calls q.question.typ flag v).flatMap (BOp.adds t))) ∨
        (m'.header.is_flag_set .Truncation = true ∧ ∀ t, m'.section_ t = none)) ∧
      (ClashFree (q.question.name :: v.flatMap RRset.names) →
        q.question.name.raw.length + 16 + (((Server.calls q.question.typ flag v).flatMap (BOp.adds .Answer) ++
          (Server.calls q.question.typ flag v).flatMap (BOp.adds .Authority)).map factSize).sum ≤ backing.length →
        ∀ t, ((m'.section_ t).sets.flatMap RRset.facts).Perm ((Server.calls q.question.typ flag v).flatMap (BOp.adds t))) := by
  subst hL
  have hok := calls_ok hst q.question.typ flag
  obtain ⟨m, h1, h2⟩ := c101_answer raw q hq 0 backing _ fun op ho => ⟨(hok op ho).1, (hok op ho).2.1⟩
  obtain ⟨_, _, hqf⟩ := c56_checks_partial raw q hq
  have hall : ∀ op ∈ replyCalls q (Server.calls q.question.typ flag v), op.Sendable backing.length ∧ op.Grows := by
    intro op ho
    simp only [replyCalls, List.cons_append, List.mem_cons, List.mem_append, List.not_mem_nil, or_false] at ho
    rcases ho with rfl | rfl | rfl | ho | rfl
    · exact ⟨trivial, trivial⟩
    · exact ⟨hqf, trivial⟩
    · exact ⟨trivial, trivial⟩
    · exact ⟨(hok op ho).1, (hok op ho).2.2⟩
    · exact ⟨trivial, trivial⟩
  have hnil : ∀ t, Proper backing.length t ((Response.with_question 0 q.question.name q.question.typ).section_ t).sets := fun t => by cases t <;> exact Proper.nil _ _
  have hfacts : ∀ t, ((m.section_ t).sets.flatMap RRset.facts).Perm ((Server.calls q.question.typ flag v).flatMap (BOp.adds t)) := by
    intro t
    have := c101_data _ _ m backing.length h1 hnil hall t
    have e1 : (replyCalls q (Server.calls q.question.typ flag v)).flatMap (BOp.adds t) = (Server.calls q.question.typ flag v).flatMap (BOp.adds t) := by
      simp [replyCalls, List.flatMap_cons, List.flatMap_append, BOp.adds]
    rw [e1] at this
    refine this.trans ?_
    have e2 : ((Response.with_question 0 q.question.name q.question.typ).section_ t).sets.flatMap RRset.facts = [] := by cases t <;> rfl
    rw [e2, List.nil_append]
  have hle : ∀ t, ((Server.calls q.question.typ flag v).flatMap (BOp.adds t)).length ≤ 65535 := by
    intro t
    rw [calls_add]
    have := hst.count
    cases flag with
    | ExactMatch => dsimp only; split
                    · exact Nat.le_trans (facts_filter_le _ _) this
                    · simp
    | PartialMatch => dsimp only; split
                      · exact Nat.le_trans (facts_filter_le _ _) this
                      · simp
    | NotFound => simp
  obtain ⟨m2, g1, g2⟩ := Proper.run _ hnil fun op ho => (hall op ho).1
  obtain rfl : m = m2 := by rw [h1] at g1; exact Res.ok.inj g1
  have hcount : ∀ t, (Section.records (m.section_ t)).length ≤ 65535 := by
    intro t
    by_cases ht : t = .Additional
    · subst ht
      have : m.section_ .Additional = none := by
        rw [(c82_history _ _ m h1).2.2.2.2.2 .Additional ?_]
        · rfl
        · intro op ho
          simp only [replyCalls, List.cons_append, List.mem_cons, List.mem_append, List.not_mem_nil, or_false] at ho
          rcases ho with rfl | rfl | rfl | ho | rfl
          · simp [BOp.section]
          · simp [BOp.section]
          · simp [BOp.section]
          · cases flag with
            | ExactMatch => obtain ⟨s, _, rfl⟩ := List.mem_map.1 ho; simp [BOp.section]
            | PartialMatch => obtain ⟨s, _, rfl⟩ := List.mem_map.1 ho; simp [BOp.section]
            | NotFound => obtain rfl := List.mem_singleton.1 ho; simp [BOp.section]
          · simp [BOp.section]
      rw [this]; exact Nat.zero_le _
    · rw [records_facts (L := backing.length) fun x hx => ⟨(g2 t).fits x hx, fun e => ht ((g2 t).opt x hx e).1⟩, (hfacts t).length_eq]
      exact hle t
  obtain ⟨z1, z2⟩ := h2 hcount
  have hfits : m.tidy.FitsIn backing.length := by
    obtain ⟨m3, y1, y2⟩ := c101_sendable backing.length 0 q.question.name q.question.typ (BOp.id q.header.id :: BOp.question q.question :: BOp.make_response :: Server.calls q.question.typ flag v)
      (fun op ho => (hall op (by
        show op ∈ (BOp.id q.header.id :: BOp.question q.question :: BOp.make_response :: Server.calls q.question.typ flag v) ++ [.done]
        exact List.mem_append_left _ ho)).1) ⟨hqf.1, hqf.2.1, rfl⟩
    rw [show BOp.runAll ((BOp.id q.header.id :: BOp.question q.question :: BOp.make_response :: Server.calls q.question.typ flag v) ++ [.done]) _ = .ok m from h1] at y1
    obtain rfl := Res.ok.inj y1
    exact y2 hcount
  refine ⟨m, h1, hfits, z1, fun n r hw => ?_⟩
  obtain ⟨w0, w0', m', w1, w2, w3, w4, _, w5, w6, w7⟩ := z2 n r hw
  have w1 := w1 []
  rw [List.append_nil] at w1
  have htidy : ∀ t, (((m.tidy).section_ t).sets.flatMap RRset.facts).Perm ((Server.calls q.question.typ flag v).flatMap (BOp.adds t)) := by
    intro t
    have e3 : ((m.tidy).section_ t).sets = (m.section_ t).sets := by cases t <;> exact tidy_sets _
    rw [e3]
    exact hfacts t
  refine ⟨m', by omega, w1, w2, w3, w4, ?_, ?_, fun hcf hsz => ?_⟩
  · rw [w5]
    cases flag with
    | ExactMatch =>
      refine lastSet_none _ _ _ fun op ho => ?_
      obtain ⟨s, _, rfl⟩ := List.mem_map.1 ho; rfl
    | PartialMatch =>
      refine lastSet_none _ _ _ fun op ho => ?_
      obtain ⟨s, _, rfl⟩ := List.mem_map.1 ho; rfl
    | NotFound => rfl
  · rcases w6 with rfl | ⟨w6, w7, w8, w9⟩
    · exact .inl htidy
    · right
      exact ⟨w6, fun s => by cases s <;> assumption⟩
  · obtain ⟨k1, k2⟩ := grows _ _ m backing.length h1 hnil hall
    have r1 : ((replyCalls q (Server.calls q.question.typ flag v)).map BOp.room).sum = ((Server.calls q.question.typ flag v).map BOp.room).sum := by
      simp [replyCalls, BOp.room]
    have r2 : (replyCalls q (Server.calls q.question.typ flag v)).flatMap BOp.names = (Server.calls q.question.typ flag v).flatMap BOp.names := by
      simp [replyCalls, BOp.names]
    have hq' : m.question = q.question := by
      rw [(c82_history _ _ m h1).2.2.2.1]
      show lastSet BOp.setsQuestion _ (BOp.id _ :: BOp.question _ :: BOp.make_response :: (Server.calls q.question.typ flag v ++ [BOp.done])) = _
      rw [lastSet_cons, lastSet_cons, lastSet_cons]
      refine lastSet_none _ _ _ fun op ho => ?_
      rcases List.mem_append.mp ho with ho | ho
      · have := (hok op ho).2.1
        cases op <;> first | rfl | exact absurd this (by simp [BOp.Answers])
      · rw [List.mem_singleton] at ho; subst ho; rfl
    rw [w7 ?_ ?_]
    · exact htidy
    · refine hcf.mono fun n hn => ?_
      unfold Response.names at hn
      rw [List.mem_cons, hq'] at hn
      rcases hn with rfl | hn
      · exact .inl (by simp)
      · rcases k2 n hn with h | h
        · rw [r2] at h
          left
          refine List.mem_cons_of_mem _ (calls_names q.question.typ flag v n ?_)
          simpa [Section.names, Response.with_question] using h
        · exact .inr h
    · unfold Response.size Response.headSize
      rw [hq']
      rw [r1, calls_room hst] at k1
      have k1 : _ ≤ Section.size (Response.with_question 0 q.question.name q.question.typ).answer + (Section.size (Response.with_question 0 q.question.name q.question.typ).authority +
        Section.size (Response.with_question 0 q.question.name q.question.typ).additional) + _ := k1
      have : Section.size (Response.with_question 0 q.question.name q.question.typ).answer + (Section.size (Response.with_question 0 q.question.name q.question.typ).authority +
        Section.size (Response.with_question 0 q.question.name q.question.typ).additional) = 0 := rfl
      omega

/-- the calls for a name, whatever the tree says, are answered -/
theorem served {L : Nat} {v : List RRset} (hst : Stored L v) (raw : List UInt8) (q : Request) (hq : Request.from_wire raw = .ok q) (flag : Dom.FindFlag)
    (backing : List UInt8) (hL : backing.length = L) (hb : q.question.name.raw.length + 271 ≤ backing.length) :
    ∃ m n r m', BOp.runAll (replyCalls q (Server.calls q.question.typ flag v)) (Response.with_question 0 q.question.name q.question.typ) = .ok m ∧
      m.to_wire (Render.new backing) = (.ok n, r) ∧ r.data.length ≤ backing.length ∧ Response.from_wire r.data = .ok m' ∧
      m'.header.id = q.header.id ∧ m'.question = q.question ∧ m'.header.is_flag_set .QueryRespone = true ∧
      m'.header.rcode = (if flag = .NotFound then .Refused else .NoError) ∧
      ((∀ t, ((m'.section_ t).sets.flatMap RRset.facts).Perm ((Server.calls q.question.typ flag v).flatMap (BOp.adds t))) ∨
        (m'.header.is_flag_set .Truncation = true ∧ ∀ t, m'.section_ t = none)) ∧
      (ClashFree (q.question.name :: v.flatMap RRset.names) →
        q.question.name.raw.length + 16 + (((Server.calls q.question.typ flag v).flatMap (BOp.adds .Answer) ++
          (Server.calls q.question.typ flag v).flatMap (BOp.adds .Authority)).map factSize).sum ≤ backing.length →
        ∀ t, ((m'.section_ t).sets.flatMap RRset.facts).Perm ((Server.calls q.question.typ flag v).flatMap (BOp.adds t))) := by
  obtain ⟨m, h1, _, h2, h3⟩ := served_any hst raw q hq flag backing hL
  obtain ⟨n, r, hw⟩ := h2 hb
  obtain ⟨m', h4⟩ := h3 n r hw
  exact ⟨m, n, r, m', h1, hw, h4⟩

/-- A server with its record sets in a `DomainTree`, put there, replaced, removed by any history of operations; any octets it accepts as a request - in a debug build for an ASCII name -, in any
letter case and however the name is spelled in them; any buffer with 271 octets more than the name: the server sends something, and the client decodes it as a response to
its question with its id, which says exactly what the table of names says: for a name that is there its sets of the type asked for, for another one the name servers of the closest name
above, else that it is refused; or it is flagged as truncated and empty. It is complete if the buffer holds it with all names written out and no two of the names collide (C44). -/
theorem c103_serve (m : Build) (ops : List (TOp (List RRset))) (tree : Dom (List RRset)) (h : TreeReached m ops tree) (backing : List UInt8)
    (hst : ∀ ls v, TOp.insert ls (some v) ∈ ops → Stored backing.length v) (raw : List UInt8) (q : Request) (hq : Request.from_wire raw = .ok q)
    (ls : List Label) (hv : ValidName ls) (hn : q.question.name = ofLabels ls) (ha : m = .debug → ∀ l ∈ ls, ∀ c ∈ l, c.toNat < 128) (hb : (nameWire ls).length + 271 ≤ backing.length) :
    ∃ out m', Server.serve m tree raw backing = .ok out ∧ out.length ≤ backing.length ∧ Response.from_wire out = .ok m' ∧
      m'.header.id = q.header.id ∧ m'.question = q.question ∧ m'.header.is_flag_set .QueryRespone = true ∧
      m'.header.rcode = (if Server.known (Table.empty.after ops) (lowerName ls) = none then .Refused else .NoError) ∧
      ((∀ t, ((m'.section_ t).sets.flatMap RRset.facts).Perm (Server.says (Server.known (Table.empty.after ops) (lowerName ls)) (lowerName ls) q.question.typ t)) ∨
        (m'.header.is_flag_set .Truncation = true ∧ ∀ t, m'.section_ t = none)) ∧
      (ClashFree (q.question.name :: Server.names (Server.known (Table.empty.after ops) (lowerName ls))) →
        (nameWire ls).length + 16 + ((Server.says (Server.known (Table.empty.after ops) (lowerName ls)) (lowerName ls) q.question.typ .Answer ++
          Server.says (Server.known (Table.empty.after ops) (lowerName ls)) (lowerName ls) q.question.typ .Authority).map factSize).sum ≤ backing.length →
        ∀ t, ((m'.section_ t).sets.flatMap RRset.facts).Perm (Server.says (Server.known (Table.empty.after ops) (lowerName ls)) (lowerName ls) q.question.typ t)) := by
  have hkept := Table.kept (fun v => Stored backing.length v) ops Table.empty (fun x hx => by cases hx) hst
  obtain ⟨f1, f2⟩ := c83_find m ops tree h ls hv ha
  have hraw : q.question.name.raw.length + 271 ≤ backing.length := by rw [hn, Name.ofLabels_raw, ← nameWire_eq]; exact hb
  have nothing : Stored backing.length [] := ⟨fun s hs => (nomatch hs), by simp⟩
  have done : ∀ (v : Option (List RRset)) (r : Dom.FindResult), tree.find m q.question.name = .ok r → r.get_value tree = .ok v → Stored backing.length (v.getD []) →
      (∀ n ∈ (v.getD []).flatMap RRset.names, n ∈ Server.names (Server.known (Table.empty.after ops) (lowerName ls))) →
      ((r.flag = .NotFound) ↔ Server.known (Table.empty.after ops) (lowerName ls) = none) →
      (∀ t, (Server.calls q.question.typ r.flag (v.getD [])).flatMap (BOp.adds t) = Server.says (Server.known (Table.empty.after ops) (lowerName ls)) (lowerName ls) q.question.typ t) →
      ∃ out m', Server.serve m tree raw backing = .ok out ∧ out.length ≤ backing.length ∧ Response.from_wire out = .ok m' ∧
        m'.header.id = q.header.id ∧ m'.question = q.question ∧ m'.header.is_flag_set .QueryRespone = true ∧
        m'.header.rcode = (if Server.known (Table.empty.after ops) (lowerName ls) = none then .Refused else .NoError) ∧
        ((∀ t, ((m'.section_ t).sets.flatMap RRset.facts).Perm (Server.says (Server.known (Table.empty.after ops) (lowerName ls)) (lowerName ls) q.question.typ t)) ∨
          (m'.header.is_flag_set .Truncation = true ∧ ∀ t, m'.section_ t = none)) ∧
        (ClashFree (q.question.name :: Server.names (Server.known (Table.empty.after ops) (lowerName ls))) →
          (nameWire ls).length + 16 + ((Server.says (Server.known (Table.empty.after ops) (lowerName ls)) (lowerName ls) q.question.typ .Answer ++
            Server.says (Server.known (Table.empty.after ops) (lowerName ls)) (lowerName ls) q.question.typ .Authority).map factSize).sum ≤ backing.length →
          ∀ t, ((m'.section_ t).sets.flatMap RRset.facts).Perm (Server.says (Server.known (Table.empty.after ops) (lowerName ls)) (lowerName ls) q.question.typ t)) := by
    intro v r e1 e2 e3 e6 e4 e5
    obtain ⟨msg, n, rr, m', a1, a2, a3, a4, a5, a6, a7, a8, a9, a10⟩ := served e3 raw q hq r.flag backing rfl hraw
    refine ⟨rr.data, m', ?_, a3, a4, a5, a6, a7, ?_, ?_, fun hcf hsz t => ?_⟩
    · unfold Server.serve
      rw [hq, Res.bind_ok, e1, Res.bind_ok, e2, Res.bind_ok, a1, Res.bind_ok, a2]
    · rw [a8]
      by_cases hc : r.flag = .NotFound
      · rw [if_pos hc, if_pos (e4.1 hc)]
      · rw [if_neg hc, if_neg fun x => hc (e4.2 x)]
    · rcases a9 with a9 | a9
      · exact .inl fun t => (e5 t) ▸ a9 t
      · exact .inr a9
    · rw [← e5 t]
      refine a10 (hcf.mono fun n hn => ?_) ?_ t
      · rcases List.mem_cons.1 hn with rfl | hn
        · exact .inl (by simp)
        · exact .inl (List.mem_cons_of_mem _ (e6 n hn))
      · rw [e5, e5, hn, Name.ofLabels_raw, ← nameWire_eq]
        exact hsz
  cases hc : (Table.empty.after ops).nodes.closest (lowerName ls) with
  | none =>
    refine done none ⟨0, .NotFound⟩ (by rw [hn]; exact f1 hc) rfl nothing (by simp) (by simp [Server.known, hc]) fun t => ?_
    simp [Server.known, hc, Server.says, Server.calls, BOp.adds]
  | some k =>
    obtain ⟨p, n, g1, _, g2, g3⟩ := f2 k hc
    have hval : (Table.empty.after ops).valueOf k = n.value := by rw [Table.valueOf, g3]; rfl
    have hst' : Stored backing.length (n.value.getD []) := by
      cases hx : n.value with
      | none => exact nothing
      | some v => exact Table.valueOf_kept (P := fun v => Stored backing.length v) hkept (hval.trans hx)
    refine done n.value ⟨p, if k = lowerName ls then .ExactMatch else .PartialMatch⟩ (by rw [hn]; exact g1) ?_ hst' (by simp [Server.known, hc, Server.names, hval]) ?_ fun t => ?_
    · unfold Dom.FindResult.get_value
      rw [if_neg (by dsimp only; split <;> simp), g2]
      rfl
    · simp only [Server.known, hc, Option.map_some]
      constructor
      · intro h; split at h <;> cases h
      · intro h; cases h
    · rw [calls_add]
      simp only [Server.known, hc, Option.map_some, Server.says, hval]
      by_cases hk : k = lowerName ls
      · rw [if_pos hk, if_pos hk]
      · rw [if_neg hk, if_neg hk]

/-- Whatever such a server sends - any octets received, any names, any buffer, with or without overflow checks - is a response that the client decodes, to its question and with its id,
which says exactly what the table of names says, or is flagged as truncated and empty. -/
theorem c103_told (m : Build) (ops : List (TOp (List RRset))) (tree : Dom (List RRset)) (h : TreeReached m ops tree) (raw backing out : List UInt8)
    (hst : ∀ ls v, TOp.insert ls (some v) ∈ ops → Stored backing.length v) (hs : Server.serve m tree raw backing = .ok out) :
    ∃ q ls m', Request.from_wire raw = .ok q ∧ ValidName ls ∧ q.question.name = ofLabels ls ∧ out.length ≤ backing.length ∧ Response.from_wire out = .ok m' ∧
      m'.header.id = q.header.id ∧ m'.question = q.question ∧ m'.header.is_flag_set .QueryRespone = true ∧
      m'.header.rcode = (if Server.known (Table.empty.after ops) (lowerName ls) = none then .Refused else .NoError) ∧
      ((∀ t, ((m'.section_ t).sets.flatMap RRset.facts).Perm (Server.says (Server.known (Table.empty.after ops) (lowerName ls)) (lowerName ls) q.question.typ t)) ∨
        (m'.header.is_flag_set .Truncation = true ∧ ∀ t, m'.section_ t = none)) := by
  have hkept := Table.kept (fun v => Stored backing.length v) ops Table.empty (fun x hx => by cases hx) hst
  have nothing : Stored backing.length [] := ⟨fun s hs => (nomatch hs), by simp⟩
  unfold Server.serve at hs
  obtain ⟨q, hq, hs⟩ := Res.bind_eq_ok.1 hs
  obtain ⟨r, hr, hs⟩ := Res.bind_eq_ok.1 hs
  obtain ⟨v, hv', hs⟩ := Res.bind_eq_ok.1 hs
  obtain ⟨msg, hm, hs⟩ := Res.bind_eq_ok.1 hs
  obtain ⟨_, _, ⟨ls, hv, hn⟩, _⟩ := c56_checks_partial raw q hq
  rw [hn] at hr
  obtain ⟨f1, f2⟩ := c83_find_told m ops tree h ls hv r hr
  have done : Stored backing.length (v.getD []) → ((r.flag = .NotFound) ↔ Server.known (Table.empty.after ops) (lowerName ls) = none) →
      (∀ t, (Server.calls q.question.typ r.flag (v.getD [])).flatMap (BOp.adds t) = Server.says (Server.known (Table.empty.after ops) (lowerName ls)) (lowerName ls) q.question.typ t) →
      ∃ m', out.length ≤ backing.length ∧ Response.from_wire out = .ok m' ∧
        m'.header.id = q.header.id ∧ m'.question = q.question ∧ m'.header.is_flag_set .QueryRespone = true ∧
        m'.header.rcode = (if Server.known (Table.empty.after ops) (lowerName ls) = none then .Refused else .NoError) ∧
        ((∀ t, ((m'.section_ t).sets.flatMap RRset.facts).Perm (Server.says (Server.known (Table.empty.after ops) (lowerName ls)) (lowerName ls) q.question.typ t)) ∨
          (m'.header.is_flag_set .Truncation = true ∧ ∀ t, m'.section_ t = none)) := by
    intro e3 e4 e5
    obtain ⟨msg', a1, _, _, a2⟩ := served_any e3 raw q hq r.flag backing rfl
    rw [a1] at hm
    cases hm
    generalize hw : msg.to_wire (Render.new backing) = w at hs
    obtain ⟨x, rr⟩ := w
    cases x with
    | err => cases hs
    | panic => cases hs
    | ok n =>
      cases hs
      obtain ⟨m', a3, a4, a5, a6, a7, a8, a9, _⟩ := a2 n rr hw
      refine ⟨m', a3, a4, a5, a6, a7, ?_, ?_⟩
      · rw [a8]
        by_cases hc : r.flag = .NotFound
        · rw [if_pos hc, if_pos (e4.1 hc)]
        · rw [if_neg hc, if_neg fun x => hc (e4.2 x)]
      · rcases a9 with a9 | a9
        · exact .inl fun t => (e5 t) ▸ a9 t
        · exact .inr a9
  cases hc : (Table.empty.after ops).nodes.closest (lowerName ls) with
  | none =>
    obtain rfl := f1 hc
    cases hv'
    refine Exists.elim (done nothing (by simp [Server.known, hc]) fun t => ?_) fun m' h => ⟨q, ls, m', hq, hv, hn, h⟩
    simp [Server.known, hc, Server.says, Server.calls, BOp.adds]
  | some k =>
    obtain ⟨p, n, rfl, _, g2, g3⟩ := f2 k hc
    have hval : (Table.empty.after ops).valueOf k = n.value := by rw [Table.valueOf, g3]; rfl
    have hvn : v = n.value := by
      unfold Dom.FindResult.get_value at hv'
      rw [if_neg (by dsimp only; split <;> simp), g2] at hv'
      exact (Res.ok.inj hv').symm
    subst hvn
    have hst' : Stored backing.length (n.value.getD []) := by
      cases hx : n.value with
      | none => exact nothing
      | some v => exact Table.valueOf_kept (P := fun v => Stored backing.length v) hkept (hval.trans hx)
    refine Exists.elim (done hst' ?_ fun t => ?_) fun m' h => ⟨q, ls, m', hq, hv, hn, h⟩
    · simp only [Server.known, hc, Option.map_some]
      constructor
      · intro h; split at h <;> cases h
      · intro h; cases h
    · rw [calls_add]
      simp only [Server.known, hc, Option.map_some, Server.says, hval]
      by_cases hk : k = lowerName ls
      · rw [if_pos hk, if_pos hk]
      · rw [if_neg hk, if_neg hk]

/-! ## the premises are met -/

namespace ServerSample
open ExchangeSample (addr auth)
/-- a zone: `a.` with an address and a name server, `b.` put in and taken out again -/
def ops : List (TOp (List RRset)) := [.insert [[97]] (some [addr [1, 2, 3, 4], auth]), .insert [[98]] (some []), .removeNode [[98]]]
end ServerSample

/-- a request for `A.`, type A, gets the address of `a.`; one for `x.a.` the name server; one for `b.` gets nothing, but is not refused, since the root has got a node (C83) -/
theorem c103_example : ∃ tree raw q, TreeReached .debug ServerSample.ops tree ∧ (∀ ls v, TOp.insert ls (some v) ∈ ServerSample.ops → Stored 512 v) ∧
    Request.from_wire raw = .ok q ∧ q.question = ⟨ofLabels [[65]], .A, .IN⟩ ∧ ValidName [[65]] ∧ (∀ l ∈ [[(65 : UInt8)]], ∀ c ∈ l, c.toNat < 128) ∧
    Server.says (Server.known (Table.empty.after ServerSample.ops) (lowerName [[65]])) (lowerName [[65]]) .A .Answer = [([[97]], .A, ⟨.A, [.ip [1, 2, 3, 4]]⟩)] ∧
    Server.says (Server.known (Table.empty.after ServerSample.ops) (lowerName [[120], [97]])) (lowerName [[120], [97]]) .A .Authority = ExchangeSample.auth.facts ∧
    Server.known (Table.empty.after ServerSample.ops) (lowerName [[98]]) = some ([], []) ∧ Server.known (Table.empty.after (ServerSample.ops.take 1)) (lowerName [[98]]) = none ∧
    ClashFree (ofLabels [[65]] :: Server.names (Server.known (Table.empty.after ServerSample.ops) (lowerName [[65]]))) := by
  have hok : ∀ op ∈ ServerSample.ops, op.OK .debug := by
    intro op ho ls hls
    simp only [ServerSample.ops, List.mem_cons, List.not_mem_nil, or_false] at ho
    rcases ho with rfl | rfl | rfl <;> simp only [TOp.names, List.mem_singleton] at hls <;> subst hls <;> decide
  obtain ⟨tree, ht, _⟩ := c83_history .debug ServerSample.ops hok
  obtain ⟨f1, f2, f3, f4, _⟩ := c56_new 7 [[65]] (by decide) .A rfl
  rcases c56_roundtrip _ f1 f2 f3 f4 (List.replicate 32 0) with h | ⟨n, r, _, _, _, h⟩
  · have := (c56_exact (Request.new 7 (ofLabels [[65]]) .A) [[65]] (by decide) rfl (List.replicate 32 0)).1 (by decide)
    obtain ⟨r, this, _⟩ := this
    rw [this] at h; cases h
  refine ⟨tree, r.data ++ [], _, ⟨hok, _, ht⟩, ?_, h [], rfl, by decide, by decide, by decide +kernel, by decide +kernel, by decide +kernel, by decide +kernel, by decide +kernel⟩
  intro ls v hi
  simp only [ServerSample.ops, List.mem_cons, List.not_mem_nil, or_false, TOp.insert.injEq, Option.some.injEq, reduceCtorEq] at hi
  rcases hi with ⟨_, rfl⟩ | ⟨_, rfl⟩
  · refine ⟨fun s hs => ?_, by decide⟩
    simp only [List.mem_cons, List.not_mem_nil, or_false] at hs
    rcases hs with rfl | rfl
    · exact ⟨ExchangeSample.addr_fits _ rfl 512 (by omega), by decide⟩
    · exact ⟨ExchangeSample.auth_fits 512 (by omega), by decide⟩
  · exact ⟨fun s hs => (nomatch hs), by decide⟩

end R53
