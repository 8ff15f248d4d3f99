import Verif.Props.Zone
/-!
# C110: from responses received to answers given
-/
namespace R53
open Name (ofLabels)

theorem keep_ok {m : Build} : ∀ (sets before : List RRset) (tree : Dom (List RRset)),
    (∀ s ∈ sets, ∃ ls, ValidName ls ∧ s.name = ofLabels ls ∧ ∀ l ∈ ls, ∀ c ∈ l, c.toNat < 128) → Loaded m before tree →
    ∃ tree', Server.keep m sets tree = (.ok (), tree') ∧ Loaded m (before ++ sets) tree'
  | [], before, tree, _, h => ⟨tree, rfl, by simpa using h⟩
  | set :: sets, before, tree, hs, h => by
    obtain ⟨ls, hv, hn, ha⟩ := hs set (by simp)
    obtain ⟨r, v, tree1, p, old, e1, e2, e3, e4⟩ := h.add set ls hv hn ha
    obtain ⟨tree', e5, e6⟩ := keep_ok sets (before ++ [set]) tree1 (fun s h => hs s (by simp [h])) e4
    refine ⟨tree', ?_, by simpa using e6⟩
    unfold Server.keep
    rw [St.get_bind, St.lift_ok_bind e1, St.lift_ok_bind e2, St.bind_ok e3]
    exact e5

theorem told_fits {raw : List UInt8} {msg : Response} (h : Response.from_wire raw = .ok msg) : ∀ s ∈ Server.told msg, s.FitsIn 65535 ∧ s.typ ≠ .OPT := by
  intro s hs
  have hm := c76_fits raw msg h 65535 (Nat.le_refl _)
  obtain ⟨h1, h2⟩ := List.mem_filter.1 hs
  refine ⟨?_, by simpa using h2⟩
  have key : ∀ (t : SectionType) (sec : Section), SectionFitsIn 65535 t sec → s ∈ sec.getD [] → s.FitsIn 65535 := by
    intro t sec hsec hx
    cases sec with
    | none => simp at hx
    | some sets => exact hsec.2.1 s hx
  simp only [List.mem_append] at h1
  rcases h1 with h1 | h1 | h1
  · exact key _ _ hm.answer h1
  · exact key _ _ hm.authority h1
  · exact key _ _ hm.additional h1

theorem learn_ok {m : Build} : ∀ (raws : List (List UInt8)) (msgs : List Response) (before : List RRset) (tree : Dom (List RRset)),
    raws.map Response.from_wire = msgs.map Res.ok → (∀ msg ∈ msgs, ∀ s ∈ Server.told msg, ∀ l ∈ s.name.labelList, ∀ c ∈ l, c.toNat < 128) → Loaded m before tree →
    ∃ tree', Server.learn m raws tree = (.ok (), tree') ∧ Loaded m (before ++ msgs.flatMap Server.told) tree'
  | [], msgs, before, tree, hg, hs, h => by
    cases msgs with
    | nil => exact ⟨tree, rfl, by simpa using h⟩
    | cons => simp at hg
  | raw :: raws, msgs, before, tree, hg, hs, h => by
    cases msgs with
    | nil => simp at hg
    | cons msg msgs =>
      simp only [List.map_cons, List.cons.injEq] at hg
      obtain ⟨tree1, e1, e2⟩ := keep_ok (Server.told msg) before tree (fun s hx => by
        obtain ⟨ls, k1, k2⟩ := (told_fits hg.1 s hx).1.name
        have := hs msg (by simp) s hx
        rw [k2, R53.labels_ofLabels k1] at this
        exact ⟨ls, k1, k2, this⟩) h
      obtain ⟨tree', e3, e4⟩ := learn_ok raws msgs _ tree1 hg.2 (fun x hx => hs x (by simp [hx])) e2
      refine ⟨tree', ?_, by rw [List.flatMap_cons, ← List.append_assoc]; exact e4⟩
      unfold Server.learn
      rw [St.lift_ok_bind hg.1, St.bind_ok e1]
      exact e3

/-- **C110**. Any octets received that decode as responses, whoever made them and however they are compressed, with ASCII owner names in their sections and not more than 65535
records of one owner: keeping what they say succeeds, and afterwards every request - in a debug build for an ASCII name -, in any letter case, gets, in a buffer with 271 octets more than the name, a
response that the client decodes, to its question and with its id, whose answer is exactly the data received for that name and type - all of it, and nothing else - or which is
flagged as truncated and empty. It is complete if something was received for the name, the buffer holds the answer with all names written out, and no two of the names collide (C44). -/
theorem c110_cache (m : Build) (raws : List (List UInt8)) (msgs : List Response) (hd : raws.map Response.from_wire = msgs.map Res.ok)
    (ha : ∀ msg ∈ msgs, ∀ s ∈ Server.told msg, ∀ l ∈ s.name.labelList, ∀ c ∈ l, c.toNat < 128)
    (hc : ∀ k, ((setsOf (msgs.flatMap Server.told) k).flatMap RRset.facts).length ≤ 65535) :
    ∃ tree, Server.learn m raws Dom.new = (.ok (), tree) ∧
      ∀ (raw : List UInt8) (q : Request), Request.from_wire raw = .ok q → (m = .debug → ∀ l ∈ q.question.name.labelList, ∀ c ∈ l, c.toNat < 128) →
        ∀ backing : List UInt8, q.question.name.raw.length + 271 ≤ backing.length → backing.length ≤ 65535 →
          ∃ out m', Server.serve m tree raw backing = .ok out ∧ out.length ≤ backing.length ∧ Response.from_wire out = .ok m' ∧
            m'.header.id = q.header.id ∧ m'.question = q.question ∧ m'.header.is_flag_set .QueryRespone = true ∧
            (((m'.section_ .Answer).sets.flatMap RRset.facts).Perm
                (((setsOf (msgs.flatMap Server.told) (lowerName q.question.name.labelList)).filter fun s => s.typ = q.question.typ).flatMap RRset.facts) ∨
              (m'.header.is_flag_set .Truncation = true ∧ ∀ t, m'.section_ t = none)) ∧
            (setsOf (msgs.flatMap Server.told) (lowerName q.question.name.labelList) ≠ [] →
              ClashFree (q.question.name :: (setsOf (msgs.flatMap Server.told) (lowerName q.question.name.labelList)).flatMap RRset.names) →
              q.question.name.raw.length + 16 +
                ((((setsOf (msgs.flatMap Server.told) (lowerName q.question.name.labelList)).filter fun s => s.typ = q.question.typ).flatMap RRset.facts).map factSize).sum ≤ backing.length →
              ((m'.section_ .Answer).sets.flatMap RRset.facts).Perm
                (((setsOf (msgs.flatMap Server.told) (lowerName q.question.name.labelList)).filter fun s => s.typ = q.question.typ).flatMap RRset.facts)) := by
  have h0 : Loaded m [] (Dom.new : Dom (List RRset)) := ⟨[], ⟨fun _ h => (nomatch h), [], rfl⟩, fun k => rfl, fun _ _ h => (nomatch h)⟩
  obtain ⟨tree, e1, e2⟩ := learn_ok raws msgs [] Dom.new hd ha h0
  rw [List.nil_append] at e2
  have hall : ∀ s ∈ msgs.flatMap Server.told, s.FitsIn 65535 ∧ s.typ ≠ .OPT := by
    intro s hs
    obtain ⟨msg, hm, hx⟩ := List.mem_flatMap.1 hs
    have : Res.ok msg ∈ raws.map Response.from_wire := by rw [hd]; exact List.mem_map_of_mem hm
    obtain ⟨raw, _, he⟩ := List.mem_map.1 this
    exact told_fits he s hx
  exact ⟨tree, e1, fun raw q hq hqa backing hb hb' =>
    loaded_serves e2 (fun s hs => (hall s hs).1) (fun s hs => (hall s hs).2) hc raw q hq hqa backing hb hb'⟩

/-- the premises are met, by a message with compressed names and one made by this library, received twice -/
theorem c110_example : ∃ raw, [spelledOctets, raw, raw].map Response.from_wire = [spelledMsg, sampleMsg, sampleMsg].map Res.ok ∧
    (∀ msg ∈ [spelledMsg, sampleMsg, sampleMsg], ∀ s ∈ Server.told msg, ∀ l ∈ s.name.labelList, ∀ c ∈ l, c.toNat < 128) ∧
    (∀ k, ((setsOf ([spelledMsg, sampleMsg, sampleMsg].flatMap Server.told) k).flatMap RRset.facts).length ≤ 65535) ∧
    (Server.told spelledMsg).length = 1 ∧ (Server.told sampleMsg).length = 1 := by
  obtain ⟨raw, h⟩ := c76_image sampleMsg sampleMsg_fits
  refine ⟨raw, ?_, by decide +kernel, fun k => ?_, by decide +kernel, by decide +kernel⟩
  · simp only [List.map_cons, List.map_nil, h, (c75_message spelledOctets spelledMsg).mpr spelledMsg_at]
  · refine Nat.le_trans (facts_sublist (List.filter_sublist)) ?_
    decide +kernel

end R53
