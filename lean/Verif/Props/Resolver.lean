import Verif.Spec.Resolver
import Verif.Props.Lookup
import Verif.Props.Cache
/-!
# C115: a caching resolver answers as the zone does
-/
namespace R53
open Name (ofLabels)

/-- the owner and type of a fact -/
def factKey (f : List Label × RRType × RData) : List Label × RRType := (f.1, f.2.1)

theorem setsOf_facts (sets : List RRset) (k : List Label) (t : RRType) :
    ((setsOf sets k).filter fun s => s.typ = t).flatMap RRset.facts = (sets.flatMap RRset.facts).filter fun f => factKey f = (k, t) := by
  induction sets with
  | nil => rfl
  | cons s sets ih =>
    rw [List.flatMap_cons, List.filter_append, ← ih]
    have hs : s.facts.filter (fun f => factKey f = (k, t)) = if lowerName s.name.labelList = k ∧ s.typ = t then s.facts else [] := by
      unfold RRset.facts
      split
      · next h => rw [List.filter_eq_self]; intro f hf; obtain ⟨d, _, rfl⟩ := List.mem_map.1 hf; simp [factKey, h]
      · next h => rw [List.filter_eq_nil_iff]; intro f hf; obtain ⟨d, _, rfl⟩ := List.mem_map.1 hf; simpa [factKey] using h
    rw [hs]
    unfold setsOf
    by_cases h1 : lowerName s.name.labelList = k
    · rw [List.filter_cons_of_pos (by simpa using h1)]
      by_cases h2 : s.typ = t
      · rw [List.filter_cons_of_pos (by simpa using h2), if_pos ⟨h1, h2⟩, List.flatMap_cons]
      · rw [List.filter_cons_of_neg (by simpa using h2), if_neg (fun h => h2 h.2)]; rfl
    · rw [List.filter_cons_of_neg (by simpa using h1), if_neg (fun h => h1 h.1)]; rfl

theorem setsOf_all (sets : List RRset) (k : List Label) :
    (setsOf sets k).flatMap RRset.facts = (sets.flatMap RRset.facts).filter fun f => f.1 = k := by
  induction sets with
  | nil => rfl
  | cons s sets ih =>
    rw [List.flatMap_cons, List.filter_append, ← ih]
    have hs : s.facts.filter (fun f => f.1 = k) = if lowerName s.name.labelList = k then s.facts else [] := by
      unfold RRset.facts
      split
      · next h => rw [List.filter_eq_self]; intro f hf; obtain ⟨d, _, rfl⟩ := List.mem_map.1 hf; simp [h]
      · next h => rw [List.filter_eq_nil_iff]; intro f hf; obtain ⟨d, _, rfl⟩ := List.mem_map.1 hf; simpa using h
    rw [hs]
    unfold setsOf
    by_cases h1 : lowerName s.name.labelList = k
    · rw [List.filter_cons_of_pos (by simpa using h1), if_pos h1, List.flatMap_cons]
    · rw [List.filter_cons_of_neg (by simpa using h1), if_neg h1]; rfl

/-- of data taken out by different keys, those of one key -/
theorem taken_key {α : Type} {κ : Type} [DecidableEq κ] (key : α → κ) (z : List α) : ∀ (ks : List κ), ks.Nodup → ∀ k ∈ ks,
    (ks.flatMap fun k => z.filter fun f => key f = k).filter (fun f => key f = k) = z.filter fun f => key f = k
  | [], _, _, h => nomatch h
  | k' :: ks, hn, k, hk => by
    rw [List.flatMap_cons, List.filter_append, List.filter_filter]
    have hn' := List.nodup_cons.1 hn
    have none_left : ∀ k, k ∉ ks → (ks.flatMap fun k => z.filter fun f => key f = k).filter (fun f => key f = k) = [] := by
      intro k hk
      rw [List.filter_eq_nil_iff]
      intro f hf
      obtain ⟨k2, h1, h2⟩ := List.mem_flatMap.1 hf
      have := (List.mem_filter.1 h2).2
      simp only [decide_eq_true_eq] at this ⊢
      rintro rfl
      exact hk (this ▸ h1)
    by_cases h : k = k'
    · subst h
      rw [none_left k hn'.1, List.append_nil]
      congr 1; funext f; simp
    · rw [taken_key key z ks hn'.2 k ((List.mem_cons.1 hk).resolve_left h)]
      have : (z.filter fun f => decide (key f = k) && decide (key f = k')) = [] := by
        rw [List.filter_eq_nil_iff]
        intro f _
        simp only [Bool.and_eq_true, decide_eq_true_eq]
        rintro ⟨h1, h2⟩
        exact h (h1.symm.trans h2)
      rw [this]; rfl

/-- no more are taken out than there are -/
theorem taken_count {α : Type} {κ : Type} [DecidableEq κ] (key : α → κ) (p : α → Bool) : ∀ (ks : List κ), ks.Nodup → ∀ z : List α,
    ((ks.flatMap fun k => z.filter fun f => key f = k).filter p).length ≤ (z.filter p).length
  | [], _, _ => Nat.zero_le _
  | k :: ks, hn, z => by
    have hn' := List.nodup_cons.1 hn
    have ih := taken_count key p ks hn'.2 (z.filter fun f => key f ≠ k)
    have e : (ks.flatMap fun k2 => (z.filter fun f => key f ≠ k).filter fun f => key f = k2) = ks.flatMap fun k => z.filter fun f => key f = k := by
      have : ∀ l : List κ, k ∉ l → (l.flatMap fun k2 => (z.filter fun f => key f ≠ k).filter fun f => key f = k2) = l.flatMap fun k => z.filter fun f => key f = k := by
        intro l hl
        induction l with
        | nil => rfl
        | cons a l ih =>
          rw [List.flatMap_cons, List.flatMap_cons, ih (fun h => hl (List.mem_cons_of_mem _ h)), List.filter_filter]
          congr 1
          apply List.filter_congr
          intro f _
          by_cases ha : key f = a
          · have : a ≠ k := fun h => hl (h ▸ List.mem_cons_self)
            simp [ha, this]
          · simp [ha]
      exact this ks hn'.1
    rw [e] at ih
    rw [List.flatMap_cons, List.filter_append, List.length_append]
    have split : (z.filter p).length = ((z.filter fun f => key f = k).filter p).length + ((z.filter fun f => key f ≠ k).filter p).length := by
      clear ih e
      induction z with
      | nil => rfl
      | cons a z ih =>
        by_cases h1 : key a = k <;> by_cases h2 : p a = true <;> simp [h1, h2, List.filter_cons] at ih ⊢ <;> omega
    omega

/-- what the client takes was decoded -/
theorem receive_decoded {id : UInt16} {q : Question} {msg : Response} : ∀ {raws : List (List UInt8)}, Client.receive id q raws = .ok (some msg) → ∃ raw, Response.from_wire raw = .ok msg
  | [], h => by cases h
  | raw :: raws, h => by
    rw [Client.receive] at h
    obtain ⟨a, h1, h2⟩ := Res.bind_eq_ok.1 h
    cases a with
    | none => exact receive_decoded h2
    | some m' =>
      cases h2
      unfold Client.accept at h1
      cases hf : Response.from_wire raw with
      | err => rw [hf] at h1; cases h1
      | panic => rw [hf] at h1; cases h1
      | ok m2 =>
        rw [hf] at h1
        obtain ⟨same, _, h1⟩ := Res.bind_eq_ok.1 h1
        have h1 := Res.ok.inj h1
        split at h1
        · cases h1; exact ⟨raw, hf⟩
        · cases h1

theorem lookup_decoded {id : UInt16} {q : Question} {backing : List UInt8} {udp tcp : List UInt8 → List (List UInt8)} {msg : Response}
    (h : Client.lookup id q backing udp tcp = .ok (some msg)) : ∃ raw, Response.from_wire raw = .ok msg := by
  unfold Client.lookup at h
  obtain ⟨sent, _, h⟩ := Res.bind_eq_ok.1 h
  obtain ⟨a, h1, h⟩ := Res.bind_eq_ok.1 h
  cases a with
  | none => cases h
  | some m' =>
    dsimp only at h
    split at h
    · exact receive_decoded h
    · cases h; exact receive_decoded h1

/-- what is kept of a response that tells of an owner of the zone: the data of the zone for the owner and type asked for -/
theorem told_tells {sets : List RRset} {M : Table (List RRset)} (hM : ∀ k, (M.valueOf k).getD [] = setsOf sets k) {ls : List Label} {t : RRType} {raw : List UInt8} {msg : Response}
    (hd : Response.from_wire raw = .ok msg) (hne : setsOf sets (lowerName ls) ≠ []) (ht : Tells M ls t msg) (ho : ∀ s ∈ sets, s.typ ≠ .OPT) :
    ((Server.told msg).flatMap RRset.facts).Perm ((sets.flatMap RRset.facts).filter fun f => factKey f = (lowerName ls, t)) := by
  obtain ⟨s1, s2, _⟩ := says_own M (lowerName ls) t (by rw [hM]; exact hne)
  have h1 := ht.2 .Answer
  have h2 := ht.2 .Authority
  have h3 := ht.2 .Additional
  rw [s1, hM, setsOf_facts] at h1
  rw [s2] at h2
  have h3' : Server.says (Server.known M (lowerName ls)) (lowerName ls) t .Additional = [] := by
    unfold Server.says
    cases Server.known M (lowerName ls) with
    | none => rfl
    | some x => dsimp only; split <;> rfl
  rw [h3'] at h3
  have h2 : (msg.authority.getD []).flatMap RRset.facts = [] := h2.eq_nil
  have h3 : (msg.additional.getD []).flatMap RRset.facts = [] := h3.eq_nil
  have h1 : ((msg.answer.getD []).flatMap RRset.facts).Perm _ := h1
  have all : ((msg.answer.getD [] ++ (msg.authority.getD [] ++ msg.additional.getD [])).flatMap RRset.facts).Perm
      ((sets.flatMap RRset.facts).filter fun f => factKey f = (lowerName ls, t)) := by
    rw [List.flatMap_append, List.flatMap_append, h2, h3, List.append_nil, List.append_nil]; exact h1
  have drop : ∀ l : List RRset, (∀ s ∈ l, s.typ = .OPT → s.facts = []) → (l.filter fun s => s.typ ≠ .OPT).flatMap RRset.facts = l.flatMap RRset.facts := by
    intro l hl
    induction l with
    | nil => rfl
    | cons s l ih =>
      have ih := ih fun s hs => hl s (List.mem_cons_of_mem _ hs)
      by_cases h : s.typ = .OPT
      · rw [List.filter_cons_of_neg (by simpa using h), ih, List.flatMap_cons, hl s List.mem_cons_self h]; rfl
      · rw [List.filter_cons_of_pos (by simpa using h), List.flatMap_cons, ih, List.flatMap_cons]
  have noOpt : ∀ s ∈ msg.answer.getD [] ++ (msg.authority.getD [] ++ msg.additional.getD []), s.typ = .OPT → s.facts = [] := by
    intro s hs hopt
    by_cases hf : s.facts = []
    · exact hf
    · obtain ⟨f, hf⟩ := List.exists_mem_of_ne_nil _ hf
      have hz := all.mem_iff.1 (List.mem_flatMap.2 ⟨s, hs, hf⟩)
      obtain ⟨z, hz1, hz2⟩ := List.mem_flatMap.1 (List.mem_filter.1 hz).1
      obtain ⟨d, _, rfl⟩ := List.mem_map.1 hf
      obtain ⟨d', _, e⟩ := List.mem_map.1 hz2
      have e := congrArg (fun x => x.2.1) e
      dsimp only at e
      exact absurd (e.trans hopt) (ho z hz1)
  unfold Server.told
  rw [drop _ noOpt]
  exact all

/-- every set that is kept has an ASCII owner name if the owners of the zone have -/
theorem told_names {sets : List RRset} (ha : ∀ s ∈ sets, ∀ l ∈ s.name.labelList, ∀ c ∈ l, c.toNat < 128) {raw : List UInt8} {msg : Response} (h : Response.from_wire raw = .ok msg)
    (hf : ∀ f ∈ (Server.told msg).flatMap RRset.facts, f ∈ sets.flatMap RRset.facts) : ∀ s ∈ Server.told msg, ∀ l ∈ s.name.labelList, ∀ c ∈ l, c.toNat < 128 := by
  intro s hs l hl c hc
  obtain ⟨h1, h2⟩ := told_fits h s hs
  obtain ⟨d, hd⟩ := List.exists_mem_of_ne_nil _ fun e => h2 (h1.empty e)
  obtain ⟨z, hz, hf⟩ := List.mem_flatMap.1 (hf (lowerName s.name.labelList, s.typ, d) (List.mem_flatMap.2 ⟨s, hs, List.mem_map.2 ⟨d, hd, rfl⟩⟩))
  obtain ⟨d', _, e⟩ := List.mem_map.1 hf
  have e : lowerName z.name.labelList = lowerName s.name.labelList := (Prod.mk.inj e).1
  have : lowerLabel l ∈ lowerName z.name.labelList := by rw [e]; exact List.mem_map_of_mem hl
  obtain ⟨l', hl', e3⟩ := List.mem_map.1 this
  have : lowerByte c ∈ lowerLabel l' := by rw [e3]; exact List.mem_map_of_mem hc
  obtain ⟨c', hc', e4⟩ := List.mem_map.1 this
  rw [← lowerByte_ascii, ← e4, lowerByte_ascii]
  exact ha z hz l' hl' c' hc'

/-- what the resolver has kept after its lookups -/
theorem run_loaded {m : Build} {sets : List RRset} (ha : ∀ s ∈ sets, ∀ l ∈ s.name.labelList, ∀ c ∈ l, c.toNat < 128) {backing : List UInt8} {udp tcp : List UInt8 → List (List UInt8)} :
    ∀ (qs : List Query), (∀ q ∈ qs, ∃ msg raw, Client.lookup q.id ⟨ofLabels q.name, q.typ, .IN⟩ backing udp tcp = .ok (some msg) ∧ Response.from_wire raw = .ok msg ∧
      ((Server.told msg).flatMap RRset.facts).Perm ((sets.flatMap RRset.facts).filter fun f => factKey f = q.key)) →
    ∀ (before : List RRset) (tree : Dom (List RRset)), Loaded m before tree →
    ∃ tree' kept, Resolver.run m backing udp tcp qs tree = (.ok (), tree') ∧ Loaded m (before ++ kept) tree' ∧ (∀ s ∈ kept, s.FitsIn 65535 ∧ s.typ ≠ .OPT) ∧
      (kept.flatMap RRset.facts).Perm ((qs.map Query.key).flatMap fun k => (sets.flatMap RRset.facts).filter fun f => factKey f = k)
  | [], _, before, tree, h => ⟨tree, [], rfl, by simpa using h, fun _ h => (nomatch h), .refl _⟩
  | q :: qs, hq, before, tree, h => by
    obtain ⟨msg, raw, e1, e2, e3⟩ := hq q List.mem_cons_self
    have hnames := told_names ha e2 fun f hf => (List.mem_filter.1 (e3.mem_iff.1 hf)).1
    obtain ⟨tree1, k1, k2⟩ := keep_ok (m := m) (Server.told msg) before tree (fun s hs => by
      obtain ⟨ls, h1, h2⟩ := (told_fits e2 s hs).1.name
      have := hnames s hs
      rw [h2, R53.labels_ofLabels h1] at this
      exact ⟨ls, h1, h2, this⟩) h
    obtain ⟨tree2, kept, r1, r2, r3, r4⟩ := run_loaded ha qs (fun q hq' => hq q (List.mem_cons_of_mem _ hq')) _ tree1 k2
    refine ⟨tree2, Server.told msg ++ kept, ?_, by rw [← List.append_assoc]; exact r2, ?_, ?_⟩
    · rw [Resolver.run, St.lift_ok_bind e1]
      dsimp only
      rw [St.bind_ok k1]
      exact r1
    · intro s hs
      exact (List.mem_append.1 hs).elim (told_fits e2 s) (r3 s)
    · rw [List.flatMap_append, List.map_cons, List.flatMap_cons]
      exact e3.append r4

/-- **C115**. A zone as in C114 is loaded by a server. A resolver looks up any list of different (owner, type) pairs, of owners that have lines, over any network without forged responses that brings
what is sent, through any forwarders, with room for the data. It never panics; and then whoever asks the resolver for one of these pairs - any request, any letter case, both builds - gets a response that
echoes id and question and whose answer is exactly the data of the lines of that owner and type, or that is marked as truncated and empty. If there are such data, the buffer
holds them with all names written out, and no two of the names (the owner in every spelling) collide under the hash of the renderer, it is the data -/
theorem c115_resolver (m : Build) (groups : List (List (List UInt8))) (hl : ∀ g ∈ groups, ∀ s ∈ g, PlainLine s) (sets : List RRset)
    (hg : groups.map (RRset.from_strs stdExt m) = sets.map Res.ok) (ho : ∀ s ∈ sets, s.typ ≠ .OPT)
    (ha : ∀ s ∈ sets, ∀ l ∈ s.name.labelList, ∀ c ∈ l, c.toNat < 128) (hn : ∀ k, ((setsOf sets k).flatMap RRset.facts).length ≤ 65535) :
    ∃ tree, Server.load m groups Dom.new = (.ok (), tree) ∧
      ∀ (small large backing : List UInt8) (us ts : List (List UInt8)) (udp tcp : List UInt8 → List (List UInt8)) (qs : List Query),
      small.length ≤ large.length → large.length ≤ 65535 → (∀ b ∈ us, 526 ≤ b.length ∧ b.length ≤ 65535) → (∀ b ∈ ts, 526 ≤ b.length ∧ large.length ≤ b.length ∧ b.length ≤ 65535) →
      Brings (Server.through m tree small us) udp → Brings (Server.through m tree large ts) tcp → (qs.map Query.key).Nodup →
      (∀ q ∈ qs, ValidName q.name ∧ (m = .debug → ∀ l ∈ q.name, ∀ c ∈ l, c.toNat < 128) ∧ RRType.new q.typ.as_u16 = q.typ ∧
        (nameWire q.name).length + 271 ≤ small.length ∧ (nameWire q.name).length + 16 ≤ backing.length ∧
        Unforged (Server.through m tree small us) q.id q.name q.typ udp ∧ Unforged (Server.through m tree large ts) q.id q.name q.typ tcp ∧
        setsOf sets (lowerName q.name) ≠ [] ∧ ClashFree (ofLabels q.name :: (setsOf sets (lowerName q.name)).flatMap RRset.names) ∧
        (nameWire q.name).length + 16 + ((((setsOf sets (lowerName q.name)).filter fun s => s.typ = q.typ).flatMap RRset.facts).map factSize).sum ≤ large.length) →
      ∃ own, Resolver.run m backing udp tcp qs Dom.new = (.ok (), own) ∧
        ∀ (raw : List UInt8) (req : Request), Request.from_wire raw = .ok req → (m = .debug → ∀ l ∈ req.question.name.labelList, ∀ c ∈ l, c.toNat < 128) →
        (lowerName req.question.name.labelList, req.question.typ) ∈ qs.map Query.key →
        ∀ buf : List UInt8, req.question.name.raw.length + 271 ≤ buf.length → buf.length ≤ 65535 →
        ∃ out msg, Server.serve m own raw buf = .ok out ∧ out.length ≤ buf.length ∧ Response.from_wire out = .ok msg ∧ msg.header.id = req.header.id ∧ msg.question = req.question ∧
          ((msg.answer.sets.flatMap RRset.facts).Perm
              (((setsOf sets (lowerName req.question.name.labelList)).filter fun s => s.typ = req.question.typ).flatMap RRset.facts) ∨
            (msg.header.is_flag_set .Truncation = true ∧ ∀ s, msg.section_ s = none)) ∧
          (((setsOf sets (lowerName req.question.name.labelList)).filter fun s => s.typ = req.question.typ).flatMap RRset.facts ≠ [] →
            (∃ ns, ClashFree ns ∧ (∀ ls, ValidName ls → lowerName ls = lowerName req.question.name.labelList → ofLabels ls ∈ ns) ∧
              ∀ s ∈ setsOf sets (lowerName req.question.name.labelList), ∀ rd ∈ s.rdatas, ∀ v ∈ rd.fields, ∀ n ∈ v.names, n ∈ ns) →
            req.question.name.raw.length + 16 +
              ((((setsOf sets (lowerName req.question.name.labelList)).filter fun s => s.typ = req.question.typ).flatMap RRset.facts).map factSize).sum ≤ buf.length →
            (msg.answer.sets.flatMap RRset.facts).Perm
              (((setsOf sets (lowerName req.question.name.labelList)).filter fun s => s.typ = req.question.typ).flatMap RRset.facts)) := by
  have hfit : ∀ s ∈ sets, s.FitsIn 65535 := by
    intro s hs
    have : Res.ok s ∈ groups.map (RRset.from_strs stdExt m) := by rw [hg]; exact List.mem_map_of_mem hs
    obtain ⟨g, hgm, he⟩ := List.mem_map.1 this
    exact c78_std m g (hl g hgm) s he 65535 (Nat.le_refl _)
  have hown : ∀ s ∈ sets, ∃ ls, ValidName ls ∧ s.name = ofLabels ls ∧ ∀ l ∈ ls, ∀ c ∈ l, c.toNat < 128 := by
    intro s hs
    obtain ⟨ls, h1, h2⟩ := (hfit s hs).name
    have := ha s hs
    rw [h2, R53.labels_ofLabels h1] at this
    exact ⟨ls, h1, h2, this⟩
  have h0 : Loaded m [] (Dom.new : Dom (List RRset)) := ⟨[], ⟨fun _ h => (nomatch h), [], rfl⟩, fun k => rfl, fun _ _ h => (nomatch h)⟩
  obtain ⟨tree, e1, e2⟩ := load_ok groups sets [] Dom.new hg hown h0
  rw [List.nil_append] at e2
  refine ⟨tree, e1, fun small large backing us ts udp tcp qs hle hlm hus hts bu bt hnd hqs => ?_⟩
  obtain ⟨ops, h1, h2, h3⟩ := e2
  have hst : ∀ ls v, TOp.insert ls (some v) ∈ ops → Stored large.length v := by
    intro ls v hi
    obtain ⟨i, k, rfl⟩ := h3 ls v hi
    refine ⟨fun s hs => ?_, Nat.le_trans (facts_sublist ?_) (hn k)⟩
    · have hs : s ∈ sets := List.mem_of_mem_take (List.mem_filter.1 hs).1
      obtain ⟨f1, f2, f3, f4, f5⟩ := hfit s hs
      exact ⟨⟨f1, f2, f3, fun rd hrd => ⟨(f4 rd hrd).1, (f4 rd hrd).2.1, (f4 rd hrd).2.2.1, Or.inl hlm⟩, f5⟩, ho s hs⟩
    · exact (List.take_sublist i sets).filter _
  have hrun : ∀ q ∈ qs, ∃ msg raw, Client.lookup q.id ⟨ofLabels q.name, q.typ, .IN⟩ backing udp tcp = .ok (some msg) ∧ Response.from_wire raw = .ok msg ∧
      ((Server.told msg).flatMap RRset.facts).Perm ((sets.flatMap RRset.facts).filter fun f => factKey f = q.key) := by
    intro q hq
    obtain ⟨hv, hasc, ht, hb, hc, hu, htc, hne, hcf, hsz⟩ := hqs q hq
    obtain ⟨o, k1, _, k3⟩ := c113_through m ops tree h1 small large hle hst q.id q.name hv hasc q.typ ht hb backing hc us ts hus (fun b hb => ⟨(hts b hb).1, (hts b hb).2.2⟩) udp tcp hu htc
    have hne' : ((Table.empty.after ops).valueOf (lowerName q.name)).getD [] ≠ [] := by rw [h2]; exact hne
    obtain ⟨s1, s2, s3⟩ := says_own (Table.empty.after ops) (lowerName q.name) q.typ hne'
    obtain ⟨msg, rfl, g2⟩ := k3 bu bt (fun b hb => (hts b hb).2.1) (by rw [s3, h2]; exact hcf) (by rw [s2, List.append_nil, s1, h2]; exact hsz)
    obtain ⟨raw, hraw⟩ := lookup_decoded k1
    exact ⟨msg, raw, k1, hraw, told_tells h2 hraw hne g2 ho⟩
  obtain ⟨own, kept, r1, r2, r3, r4⟩ := run_loaded ha qs hrun [] Dom.new h0
  rw [List.nil_append] at r2
  refine ⟨own, r1, fun raw req hreq hqa hk buf hb hb' => ?_⟩
  have count : ∀ k, ((setsOf kept k).flatMap RRset.facts).length ≤ 65535 := by
    intro k
    rw [setsOf_all, (r4.filter _).length_eq]
    refine Nat.le_trans (taken_count factKey _ _ hnd _) ?_
    rw [← setsOf_all]; exact hn k
  obtain ⟨out, msg, x1, x2, x3, x4, x5, _, x6, x7⟩ := loaded_serves r2 (fun s hs => (r3 s hs).1) (fun s hs => (r3 s hs).2) count raw req hreq hqa buf hb hb'
  have same : (((setsOf kept (lowerName req.question.name.labelList)).filter fun s => s.typ = req.question.typ).flatMap RRset.facts).Perm
      (((setsOf sets (lowerName req.question.name.labelList)).filter fun s => s.typ = req.question.typ).flatMap RRset.facts) := by
    rw [setsOf_facts, setsOf_facts]
    have := r4.filter fun f => decide (factKey f = (lowerName req.question.name.labelList, req.question.typ))
    rwa [taken_key factKey _ _ hnd _ hk] at this
  refine ⟨out, msg, x1, x2, x3, x4, x5, x6.imp (fun x => List.Perm.trans x same) _root_.id, fun hne hns hsz => ?_⟩
  obtain ⟨ns, hcf, hall, hdata⟩ := hns
  refine List.Perm.trans (x7 ?_ (hcf.mono fun n hn' => Or.inl ?_) ?_) same
  · intro e
    rw [e] at same
    exact hne same.nil_eq.symm
  · rcases List.mem_cons.1 hn' with rfl | hn'
    · obtain ⟨_, _, ⟨ls, hv, e⟩, _⟩ := c56_checks_partial raw req hreq
      rw [e]
      exact hall ls hv (by rw [e, R53.labels_ofLabels hv])
    · obtain ⟨s, hs, hn'⟩ := List.mem_flatMap.1 hn'
      obtain ⟨hsk, hsn⟩ := List.mem_filter.1 hs
      simp only [decide_eq_true_eq] at hsn
      rcases List.mem_cons.1 hn' with rfl | hn'
      · obtain ⟨ls, hv, e⟩ := (r3 s hsk).1.name
        rw [e, R53.labels_ofLabels hv] at hsn
        rw [e]
        exact hall ls hv hsn
      · obtain ⟨rd, hrd, hn'⟩ := List.mem_flatMap.1 hn'
        obtain ⟨v, hvm, hn'⟩ := List.mem_flatMap.1 hn'
        have : (lowerName s.name.labelList, s.typ, rd) ∈ kept.flatMap RRset.facts := List.mem_flatMap.2 ⟨s, hsk, List.mem_map.2 ⟨rd, hrd, rfl⟩⟩
        obtain ⟨_, _, hz⟩ := List.mem_flatMap.1 (r4.mem_iff.1 this)
        obtain ⟨z, hz, hf⟩ := List.mem_flatMap.1 (List.mem_filter.1 hz).1
        obtain ⟨d, hd, e⟩ := List.mem_map.1 hf
        obtain ⟨e1, e2⟩ := Prod.mk.inj e
        obtain ⟨e3, e4⟩ := Prod.mk.inj e2
        exact hdata z (List.mem_filter.2 ⟨hz, by simp only [decide_eq_true_eq]; exact e1.trans hsn⟩) rd (e4 ▸ hd) v hvm n hn'
  · rw [(same.map factSize).sum_nat]; exact hsz

/-- the spellings of the name `a.` -/
theorem spellings_a (ls : List Label) (h : lowerName ls = [[97]]) : ls = [[97]] ∨ ls = [[65]] := by
  obtain ⟨l, rfl, hl⟩ := List.map_eq_singleton_iff.1 h
  obtain ⟨c, rfl, hc⟩ := List.map_eq_singleton_iff.1 hl
  have key : c = 97 ∨ c = 65 := by
    unfold lowerByte at hc
    split at hc <;> grind
  exact key.imp (fun e => by rw [e]) (fun e => by rw [e])

/-- the zone of C104; the resolver looks up the addresses of `A.` and those of `b.` through forwarders, with noise on the network; then a stub asks it for the addresses of `a.`: the response is made and
has the two addresses of the zone -/
theorem c115_example : ∃ tree own sent out msg, Server.load .release [[ascii "a. 60 IN A 1.2.3.4", ascii "a. 60 IN A 5.6.7.8"], [ascii "a. 60 IN NS n.a."], [ascii "b. 60 IN A 9.9.9.9"]] Dom.new = (.ok (), tree) ∧
    Resolver.run .release (List.replicate 32 0) (noisy (Server.through .release tree (List.replicate 512 0) [List.replicate 526 255]))
      (noisy (Server.through .release tree (List.replicate 4096 0) [List.replicate 4096 7])) [⟨7, [[65]], .A⟩, ⟨8, [[98]], .A⟩] Dom.new = (.ok (), own) ∧
    Client.request 9 ⟨ofLabels [[97]], .A, .IN⟩ (List.replicate 32 0) = .ok sent ∧ Server.serve .release own sent (List.replicate 512 0) = .ok out ∧ Response.from_wire out = .ok msg ∧
    msg.header.id = 9 ∧ msg.question = ⟨ofLabels [[97]], .A, .IN⟩ ∧
    (msg.answer.sets.flatMap RRset.facts).Perm [([[97]], .A, ⟨.A, [.ip [1, 2, 3, 4]]⟩), ([[97]], .A, ⟨.A, [.ip [5, 6, 7, 8]]⟩)] := by
  obtain ⟨a1, a2, a3, a4, a5, a6, a7, a8, a9⟩ := c104_example
  obtain ⟨tree, h1, h2⟩ := c115_resolver .release _ a1 _ a2 a3 a4 a5
  have l1 : (List.replicate 512 (0 : UInt8)).length = 512 := List.length_replicate
  have l2 : (List.replicate 4096 (0 : UInt8)).length = 4096 := List.length_replicate
  have l3 : (List.replicate 32 (0 : UInt8)).length = 32 := List.length_replicate
  have wl : (nameWire [[(65 : UInt8)]]).length = 3 := by decide
  have wl2 : (nameWire [[(98 : UInt8)]]).length = 3 := by decide
  have wl3 : (nameWire [[(97 : UInt8)]]).length = 3 := by decide
  have g1 : ∀ b ∈ [List.replicate 526 (255 : UInt8)], 526 ≤ b.length ∧ b.length ≤ 65535 := by
    intro b hb; rw [List.mem_singleton.1 hb, List.length_replicate]; omega
  have g2 : ∀ b ∈ [List.replicate 4096 (7 : UInt8)], 526 ≤ b.length ∧ (List.replicate 4096 (0 : UInt8)).length ≤ b.length ∧ b.length ≤ 65535 := by
    intro b hb; rw [List.mem_singleton.1 hb, List.length_replicate, l2]; omega
  obtain ⟨own, k1, k2⟩ := h2 (List.replicate 512 0) (List.replicate 4096 0) (List.replicate 32 0) [List.replicate 526 255] [List.replicate 4096 7] _ _ [⟨7, [[65]], .A⟩, ⟨8, [[98]], .A⟩]
    (by rw [l1, l2]; omega) (by rw [l2]; omega) g1 g2 (noisy_ok _ 7 [[65]] .A).2 (noisy_ok _ 7 [[65]] .A).2 (by decide) (by
      intro q hq
      rcases List.mem_cons.1 hq with rfl | hq
      · refine ⟨(by decide : ValidName [[65]]), (fun h => nomatch h), rfl, by rw [l1]; dsimp only; rw [wl]; omega, by rw [l3]; dsimp only; rw [wl]; omega, (noisy_ok _ _ _ _).1, (noisy_ok _ _ _ _).1, a7, a8, ?_⟩
        rw [Name.ofLabels_raw, ← nameWire_eq] at a9
        rw [l2]; exact Nat.le_trans (Nat.le_of_eq a9) (by omega)
      · rw [List.mem_singleton.1 hq]
        refine ⟨(by decide : ValidName [[98]]), (fun h => nomatch h), rfl, by rw [l1]; dsimp only; rw [wl2]; omega, by rw [l3]; dsimp only; rw [wl2]; omega, (noisy_ok _ _ _ _).1, (noisy_ok _ _ _ _).1, by decide +kernel, by decide +kernel, ?_⟩
        rw [l2]; exact Nat.le_trans (by decide +kernel : _ ≤ 100) (by omega))
  obtain ⟨sent, s1, s2⟩ := request_ok 9 [[97]] (by decide) .A rfl (List.replicate 32 0) (by rw [l3, wl3]; omega)
  obtain ⟨out, msg, x1, x2, x3, x4, x5, _, x6⟩ := k2 sent _ s2 (fun h => nomatch h) (by decide +kernel) (List.replicate 512 0) (by rw [l1]; exact Nat.le_trans (by decide +kernel : _ ≤ 300) (by omega)) (by rw [l1]; omega)
  refine ⟨tree, own, sent, out, msg, h1, k1, s1, x1, x3, x4, x5, ?_⟩
  rw [← a6]
  refine x6 (by decide +kernel) ⟨[ofLabels [[97]], ofLabels [[65]], ofLabels [[110], [97]]], by decide +kernel, fun ls _ hs => ?_, by decide +kernel⟩ (by rw [l1]; exact Nat.le_trans (by decide +kernel : _ ≤ 300) (by omega))
  rcases spellings_a ls (hs.trans (by decide +kernel)) with rfl | rfl
  · exact List.mem_cons_self
  · exact List.mem_cons_of_mem _ List.mem_cons_self

end R53
