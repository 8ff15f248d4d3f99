import Verif.Props.Resolver
/-!
# C116: resolvers that ask resolvers that ask resolvers answer as the zone does
-/
namespace R53
open Name (ofLabels)

theorem zoneData_eq (sets : List RRset) (k : List Label) (t : RRType) : zoneData sets k t = (sets.flatMap RRset.facts).filter fun f => factKey f = (k, t) := setsOf_facts sets k t

theorem owners_ascii {sets kept : List RRset} (ha : ∀ s ∈ sets, ∀ l ∈ s.name.labelList, ∀ c ∈ l, c.toNat < 128) (hk : ∀ s ∈ kept, s.FitsIn 65535 ∧ s.typ ≠ .OPT)
    (hf : ∀ f ∈ kept.flatMap RRset.facts, f ∈ sets.flatMap RRset.facts) : ∀ s ∈ kept, ∀ l ∈ s.name.labelList, ∀ c ∈ l, c.toNat < 128 := by
  intro s hs l hl c hc
  obtain ⟨h1, h2⟩ := hk s hs
  obtain ⟨d, hd⟩ := List.exists_mem_of_ne_nil _ fun e => h2 (h1.empty e)
  obtain ⟨z, hz, hf⟩ := List.mem_flatMap.1 (hf (lowerName s.name.labelList, s.typ, d) (List.mem_flatMap.2 ⟨s, hs, List.mem_map.2 ⟨d, hd, rfl⟩⟩))
  obtain ⟨d', _, e⟩ := List.mem_map.1 hf
  have e : lowerName z.name.labelList = lowerName s.name.labelList := (Prod.mk.inj e).1
  have : lowerLabel l ∈ lowerName z.name.labelList := by rw [e]; exact List.mem_map_of_mem hl
  obtain ⟨l', hl', e3⟩ := List.mem_map.1 this
  have : lowerByte c ∈ lowerLabel l' := by rw [e3]; exact List.mem_map_of_mem hc
  obtain ⟨c', hc', e4⟩ := List.mem_map.1 this
  rw [← lowerByte_ascii, ← e4, lowerByte_ascii]
  exact ha z hz l' hl' c' hc'

/-- what a tree of the hierarchy holds: part of the zone, and all of it for what the tree answers for -/
structure Level (m : Build) (sets : List RRset) (tree : Dom (List RRset)) (for_ : List Label → RRType → Prop) (S : List RRset) : Prop where
  loaded : Loaded m S tree
  fits : ∀ s ∈ S, s.FitsIn 65535 ∧ s.typ ≠ .OPT
  ascii : ∀ s ∈ S, ∀ l ∈ s.name.labelList, ∀ c ∈ l, c.toNat < 128
  count : ∀ k, ((setsOf S k).flatMap RRset.facts).length ≤ 65535
  part : ∀ f ∈ S.flatMap RRset.facts, f ∈ sets.flatMap RRset.facts
  all : ∀ k t, for_ k t → (zoneData S k t).Perm (zoneData sets k t)

variable {m : Build} {sets S : List RRset} {tree : Dom (List RRset)} {for_ : List Label → RRType → Prop}

theorem Level.has (h : Level m sets tree for_ S) {k : List Label} {t : RRType} (hf : for_ k t) (hd : zoneData sets k t ≠ []) : setsOf S k ≠ [] := by
  intro e
  have := h.all k t hf
  rw [zoneData, e] at this
  exact hd this.nil_eq.symm

theorem Level.names (h : Level m sets tree for_ S) {k : List Label} {ns : List Name} (hn : ∀ ls, ValidName ls → lowerName ls = k → ofLabels ls ∈ ns)
    (hd : ∀ s ∈ setsOf sets k, ∀ rd ∈ s.rdatas, ∀ v ∈ rd.fields, ∀ n ∈ v.names, n ∈ ns) : ∀ n ∈ (setsOf S k).flatMap RRset.names, n ∈ ns := by
  intro n hn'
  obtain ⟨s, hs, hn'⟩ := List.mem_flatMap.1 hn'
  obtain ⟨hsk, hsn⟩ := List.mem_filter.1 hs
  simp only [decide_eq_true_eq] at hsn
  rcases List.mem_cons.1 hn' with rfl | hn'
  · obtain ⟨ls, hv, e⟩ := (h.fits s hsk).1.name
    rw [e, R53.labels_ofLabels hv] at hsn
    rw [e]
    exact hn ls hv hsn
  · obtain ⟨rd, hrd, hn'⟩ := List.mem_flatMap.1 hn'
    obtain ⟨v, hvm, hn'⟩ := List.mem_flatMap.1 hn'
    obtain ⟨z, hz, hf⟩ := List.mem_flatMap.1 (h.part (lowerName s.name.labelList, s.typ, rd) (List.mem_flatMap.2 ⟨s, hsk, List.mem_map.2 ⟨rd, hrd, rfl⟩⟩))
    obtain ⟨d, hd', e⟩ := List.mem_map.1 hf
    obtain ⟨e1, e2⟩ := Prod.mk.inj e
    obtain ⟨e3, e4⟩ := Prod.mk.inj e2
    exact hd z (List.mem_filter.2 ⟨hz, by simp only [decide_eq_true_eq]; exact e1.trans hsn⟩) rd (e4 ▸ hd') v hvm n hn'

/-- one more resolver -/
theorem Level.step (h : Level m sets tree for_ S) (w : Way) (qs : List Query) (hq : ∀ q ∈ qs, for_ (lowerName q.name) q.typ) (hnd : (qs.map Query.key).Nodup) (hw : w.Works m tree qs)
    (hr : ∀ q ∈ qs, Room sets (lowerName q.name) q.typ (nameWire q.name).length w.large.length) :
    ∃ own kept, Resolver.run m w.backing w.udp w.tcp qs Dom.new = (.ok (), own) ∧ Level m sets own (fun k t => (k, t) ∈ qs.map Query.key) kept := by
  obtain ⟨ops, h1, h2, h3⟩ := h.loaded
  have hst : ∀ ls v, TOp.insert ls (some v) ∈ ops → Stored w.large.length v := by
    intro ls v hi
    obtain ⟨i, k, rfl⟩ := h3 ls v hi
    refine ⟨fun s hs => ?_, Nat.le_trans (facts_sublist ?_) (h.count k)⟩
    · have hs : s ∈ S := List.mem_of_mem_take (List.mem_filter.1 hs).1
      obtain ⟨⟨f1, f2, f3, f4, f5⟩, ho⟩ := h.fits s hs
      exact ⟨⟨f1, f2, f3, fun rd hrd => ⟨(f4 rd hrd).1, (f4 rd hrd).2.1, (f4 rd hrd).2.2.1, Or.inl hw.le'⟩, f5⟩, ho⟩
    · exact (List.take_sublist i S).filter _
  have hrun : ∀ q ∈ qs, ∃ msg raw, Client.lookup q.id ⟨ofLabels q.name, q.typ, .IN⟩ w.backing w.udp w.tcp = .ok (some msg) ∧ Response.from_wire raw = .ok msg ∧
      ((Server.told msg).flatMap RRset.facts).Perm ((S.flatMap RRset.facts).filter fun f => factKey f = q.key) := by
    intro q hq'
    obtain ⟨hv, hasc, ht⟩ := hw.asks q hq'
    obtain ⟨hb, hc⟩ := hw.fits q hq'
    obtain ⟨hu, htc⟩ := hw.unforged q hq'
    obtain ⟨hd, hsz, ns, hcf, hn, hdn⟩ := hr q hq'
    have hne := h.has (hq q hq') hd
    obtain ⟨o, k1, _, k3⟩ := c113_through m ops tree h1 w.small w.large hw.le hst q.id q.name hv hasc q.typ ht hb w.backing hc w.us w.ts hw.forwarders.1
      (fun b hb => ⟨(hw.forwarders.2 b hb).1, (hw.forwarders.2 b hb).2.2⟩) w.udp w.tcp hu htc
    have hne' : ((Table.empty.after ops).valueOf (lowerName q.name)).getD [] ≠ [] := by rw [h2]; exact hne
    obtain ⟨s1, s2, s3⟩ := says_own (Table.empty.after ops) (lowerName q.name) q.typ hne'
    obtain ⟨msg, rfl, g2⟩ := k3 hw.brings.1 hw.brings.2 (fun b hb => (hw.forwarders.2 b hb).2.1)
      (by
        rw [s3, h2]
        refine hcf.mono fun n hn' => Or.inl ?_
        rcases List.mem_cons.1 hn' with rfl | hn'
        · exact hn q.name hv rfl
        · exact h.names hn hdn n hn')
      (by
        rw [s2, List.append_nil, s1, h2]
        have := ((h.all _ _ (hq q hq')).map factSize).sum_nat
        unfold zoneData at this hsz
        rw [this]; exact hsz)
    obtain ⟨raw, hraw⟩ := lookup_decoded k1
    exact ⟨msg, raw, k1, hraw, told_tells h2 hraw hne g2 fun s hs => (h.fits s hs).2⟩
  have h0 : Loaded m [] (Dom.new : Dom (List RRset)) := ⟨[], ⟨fun _ h => (nomatch h), [], rfl⟩, fun k => rfl, fun _ _ h => (nomatch h)⟩
  obtain ⟨own, kept, r1, r2, r3, r4⟩ := run_loaded h.ascii qs hrun [] Dom.new h0
  rw [List.nil_append] at r2
  have part : ∀ f ∈ kept.flatMap RRset.facts, f ∈ S.flatMap RRset.facts := by
    intro f hf
    obtain ⟨_, _, hf⟩ := List.mem_flatMap.1 (r4.mem_iff.1 hf)
    exact (List.mem_filter.1 hf).1
  refine ⟨own, kept, r1, r2, r3, owners_ascii h.ascii r3 part, fun k => ?_, fun f hf => h.part f (part f hf), fun k t hk => ?_⟩
  · rw [setsOf_all, (r4.filter _).length_eq]
    refine Nat.le_trans (taken_count factKey _ _ hnd _) ?_
    rw [← setsOf_all]; exact h.count k
  · obtain ⟨q, hq', e⟩ := List.mem_map.1 hk
    obtain ⟨e1, e2⟩ := Prod.mk.inj e
    have a := h.all k t (by rw [← e1, ← e2]; exact hq q hq')
    refine List.Perm.trans ?_ a
    rw [zoneData_eq, zoneData_eq]
    have := r4.filter fun f => decide (factKey f = (k, t))
    rwa [taken_key factKey _ _ hnd _ hk] at this

/-- every tree of the hierarchy -/
theorem Level.of_caches {tree0 : Dom (List RRset)} {S0 : List RRset} (h0 : Level m sets tree0 (fun _ _ => True) S0) (h : Caches m sets tree0 tree for_) : ∃ S, Level m sets tree for_ S := by
  induction h with
  | server => exact ⟨S0, h0⟩
  | resolver tree for_ w qs own _ hq hnd hw hr hrun ih =>
    obtain ⟨S, hS⟩ := ih
    obtain ⟨own', kept, e, hk⟩ := hS.step w qs hq hnd hw hr
    rw [hrun] at e
    cases e
    exact ⟨kept, hk⟩

/-- **C116**. A zone as in C114 is loaded by a server; resolvers look up any different owners and types with that server, or with resolvers that have looked these up before, and so on to any depth, with
room for the data. Looking up never panics (second part). Whoever asks any of them for an owner and type it has looked up (any of them, for the server) gets a response with id and question whose
answer is exactly the data of the zone, or which is marked as truncated and empty; if there is room, it is the data -/
theorem c116_chain (m : Build) (groups : List (List (List UInt8))) (hl : ∀ g ∈ groups, ∀ s ∈ g, PlainLine s) (sets : List RRset)
    (hg : groups.map (RRset.from_strs stdExt m) = sets.map Res.ok) (ho : ∀ s ∈ sets, s.typ ≠ .OPT)
    (ha : ∀ s ∈ sets, ∀ l ∈ s.name.labelList, ∀ c ∈ l, c.toNat < 128) (hn : ∀ k, ((setsOf sets k).flatMap RRset.facts).length ≤ 65535) :
    ∃ tree0, Server.load m groups Dom.new = (.ok (), tree0) ∧ ∀ tree for_, Caches m sets tree0 tree for_ →
      (∀ (raw : List UInt8) (req : Request), Request.from_wire raw = .ok req → (m = .debug → ∀ l ∈ req.question.name.labelList, ∀ c ∈ l, c.toNat < 128) →
        for_ (lowerName req.question.name.labelList) req.question.typ →
        ∀ buf : List UInt8, req.question.name.raw.length + 271 ≤ buf.length → buf.length ≤ 65535 →
        ∃ out msg, Server.serve m tree raw buf = .ok out ∧ out.length ≤ buf.length ∧ Response.from_wire out = .ok msg ∧ msg.header.id = req.header.id ∧ msg.question = req.question ∧
          ((msg.answer.sets.flatMap RRset.facts).Perm (zoneData sets (lowerName req.question.name.labelList) req.question.typ) ∨
            (msg.header.is_flag_set .Truncation = true ∧ ∀ s, msg.section_ s = none)) ∧
          (Room sets (lowerName req.question.name.labelList) req.question.typ req.question.name.raw.length buf.length →
            (msg.answer.sets.flatMap RRset.facts).Perm (zoneData sets (lowerName req.question.name.labelList) req.question.typ))) ∧
      ∀ (w : Way) (qs : List Query), (∀ q ∈ qs, for_ (lowerName q.name) q.typ) → (qs.map Query.key).Nodup → w.Works m tree qs →
        (∀ q ∈ qs, Room sets (lowerName q.name) q.typ (nameWire q.name).length w.large.length) →
        ∃ own, Resolver.run m w.backing w.udp w.tcp qs Dom.new = (.ok (), own) := by
  have hfit : ∀ s ∈ sets, s.FitsIn 65535 := by
    intro s hs
    have : Res.ok s ∈ groups.map (RRset.from_strs stdExt m) := by rw [hg]; exact List.mem_map_of_mem hs
    obtain ⟨g, hgm, he⟩ := List.mem_map.1 this
    exact c78_std m g (hl g hgm) s he 65535 (Nat.le_refl _)
  have hown : ∀ s ∈ sets, ∃ ls, ValidName ls ∧ s.name = ofLabels ls ∧ ∀ l ∈ ls, ∀ c ∈ l, c.toNat < 128 := by
    intro s hs
    obtain ⟨ls, h1, h2⟩ := (hfit s hs).name
    have := ha s hs
    rw [h2, R53.labels_ofLabels h1] at this
    exact ⟨ls, h1, h2, this⟩
  have h0 : Loaded m [] (Dom.new : Dom (List RRset)) := ⟨[], ⟨fun _ h => (nomatch h), [], rfl⟩, fun k => rfl, fun _ _ h => (nomatch h)⟩
  obtain ⟨tree0, e1, e2⟩ := load_ok groups sets [] Dom.new hg hown h0
  rw [List.nil_append] at e2
  have l0 : Level m sets tree0 (fun _ _ => True) sets := ⟨e2, fun s hs => ⟨hfit s hs, ho s hs⟩, ha, hn, fun _ h => h, fun _ _ _ => .refl _⟩
  refine ⟨tree0, e1, fun tree for_ hc => ?_⟩
  obtain ⟨S, hS⟩ := l0.of_caches hc
  refine ⟨fun raw req hreq hqa hk buf hb hb' => ?_, fun w qs hq hnd hw hr => ?_⟩
  · obtain ⟨out, msg, x1, x2, x3, x4, x5, _, x6, x7⟩ := loaded_serves hS.loaded (fun s hs => (hS.fits s hs).1) (fun s hs => (hS.fits s hs).2) hS.count raw req hreq hqa buf hb hb'
    have same := hS.all _ _ hk
    refine ⟨out, msg, x1, x2, x3, x4, x5, x6.imp (fun x => List.Perm.trans x same) _root_.id, fun hr => ?_⟩
    obtain ⟨hd, hsz, ns, hcf, hns, hdn⟩ := hr
    refine List.Perm.trans (x7 (hS.has hk hd) (hcf.mono fun n hn' => Or.inl ?_) ?_) same
    · rcases List.mem_cons.1 hn' with rfl | hn'
      · obtain ⟨_, _, ⟨ls, hv, e⟩, _⟩ := c56_checks_partial raw req hreq
        rw [e]
        exact hns ls hv (by rw [e, R53.labels_ofLabels hv])
      · exact hS.names hns hdn n hn'
    · have := (same.map factSize).sum_nat
      unfold zoneData at this hsz
      rw [this]; exact hsz
  · obtain ⟨own, _, h, _⟩ := hS.step w qs hq hnd hw hr
    exact ⟨own, h⟩

abbrev sampleZone : List RRset := [⟨ofLabels [[97]], .A, .IN, 60, [⟨.A, [.ip [1, 2, 3, 4]]⟩, ⟨.A, [.ip [5, 6, 7, 8]]⟩]⟩, ExchangeSample.auth, ⟨ofLabels [[98]], .A, .IN, 60, [⟨.A, [.ip [9, 9, 9, 9]]⟩]⟩]

/-- buffers of 512 and 4096 octets, one forwarder on each way, noise on the network -/
def sampleWay (tree : Dom (List RRset)) : Way where
  small := List.replicate 512 0
  large := List.replicate 4096 0
  backing := List.replicate 32 0
  us := [List.replicate 526 255]
  ts := [List.replicate 4096 7]
  udp := noisy (Server.through .release tree (List.replicate 512 0) [List.replicate 526 255])
  tcp := noisy (Server.through .release tree (List.replicate 4096 0) [List.replicate 4096 7])

theorem sampleWay_works (tree : Dom (List RRset)) (qs : List Query) (hq : ∀ q ∈ qs, ValidName q.name ∧ RRType.new q.typ.as_u16 = q.typ ∧ (nameWire q.name).length = 3) :
    (sampleWay tree).Works .release tree qs := by
  have l1 : (List.replicate 512 (0 : UInt8)).length = 512 := List.length_replicate
  have l2 : (List.replicate 4096 (0 : UInt8)).length = 4096 := List.length_replicate
  have l3 : (List.replicate 32 (0 : UInt8)).length = 32 := List.length_replicate
  refine ⟨?_, ?_, ⟨fun b hb => ?_, fun b hb => ?_⟩, ⟨(noisy_ok _ 7 [[65]] .A).2, (noisy_ok _ 7 [[65]] .A).2⟩, fun q h => ⟨(hq q h).1, fun h => (nomatch h), (hq q h).2.1⟩, fun q h => ?_,
    fun q _ => ⟨(noisy_ok _ _ _ _).1, (noisy_ok _ _ _ _).1⟩⟩
  · show (List.replicate 512 (0 : UInt8)).length ≤ (List.replicate 4096 (0 : UInt8)).length
    rw [l1, l2]; omega
  · show (List.replicate 4096 (0 : UInt8)).length ≤ 65535
    rw [l2]; omega
  · rw [List.mem_singleton.1 hb, List.length_replicate]; omega
  · show _ ∧ (List.replicate 4096 (0 : UInt8)).length ≤ _ ∧ _
    rw [List.mem_singleton.1 hb, List.length_replicate, l2]; omega
  · show _ ≤ (List.replicate 512 (0 : UInt8)).length ∧ _ ≤ (List.replicate 32 (0 : UInt8)).length
    rw [(hq q h).2.2, l1, l3]; omega

/-- the zone of C104: a resolver looks up the addresses and the name servers of `A.` with the server, a second one the name servers of `a.` and a third one again these with the second; a stub asks the
third one for the name servers of `A.` and gets the one of the zone -/
theorem c116_example : ∃ tree0 own1 own2 own3 sent out msg,
    Server.load .release [[ascii "a. 60 IN A 1.2.3.4", ascii "a. 60 IN A 5.6.7.8"], [ascii "a. 60 IN NS n.a."], [ascii "b. 60 IN A 9.9.9.9"]] Dom.new = (.ok (), tree0) ∧
    Resolver.run .release (sampleWay tree0).backing (sampleWay tree0).udp (sampleWay tree0).tcp [⟨7, [[65]], .A⟩, ⟨8, [[65]], .NS⟩] Dom.new = (.ok (), own1) ∧
    Resolver.run .release (sampleWay own1).backing (sampleWay own1).udp (sampleWay own1).tcp [⟨9, [[97]], .NS⟩] Dom.new = (.ok (), own2) ∧
    Resolver.run .release (sampleWay own2).backing (sampleWay own2).udp (sampleWay own2).tcp [⟨10, [[97]], .NS⟩] Dom.new = (.ok (), own3) ∧
    Client.request 11 ⟨ofLabels [[65]], .NS, .IN⟩ (List.replicate 32 0) = .ok sent ∧ Server.serve .release own3 sent (List.replicate 512 0) = .ok out ∧ Response.from_wire out = .ok msg ∧
    msg.header.id = 11 ∧ msg.question = ⟨ofLabels [[65]], .NS, .IN⟩ ∧
    (msg.answer.sets.flatMap RRset.facts).Perm [([[97]], .NS, ⟨.NS, [.name (ofLabels [[110], [97]])]⟩)] := by
  obtain ⟨a1, a2, a3, a4, a5, a6, a7, a8, a9⟩ := c104_example
  obtain ⟨tree0, h1, h2⟩ := c116_chain .release _ a1 _ a2 a3 a4 a5
  have room : ∀ t len size, zoneData sampleZone [[97]] t ≠ [] →
      ((zoneData sampleZone [[97]] t).map factSize).sum ≤ 100 →
      len ≤ 3 → 119 ≤ size →
      Room sampleZone [[97]] t len size := by
    intro t len size hd hs hl hz
    refine ⟨hd, by omega, [ofLabels [[97]], ofLabels [[65]], ofLabels [[110], [97]]], by decide +kernel, fun ls _ hs => ?_, by decide +kernel⟩
    rcases spellings_a ls hs with rfl | rfl
    · exact List.mem_cons_self
    · exact List.mem_cons_of_mem _ List.mem_cons_self
  have roomA := fun len size => room .A len size (by decide +kernel) (by decide +kernel)
  have roomNS := fun len size => room .NS len size (by decide +kernel) (by decide +kernel)
  have l1 : (List.replicate 512 (0 : UInt8)).length = 512 := List.length_replicate
  have l3 : (List.replicate 32 (0 : UInt8)).length = 32 := List.length_replicate
  have large : ∀ tree, 119 ≤ (sampleWay tree).large.length := by
    intro tree
    show 119 ≤ (List.replicate 4096 (0 : UInt8)).length
    rw [List.length_replicate]; omega
  have w1 : (sampleWay tree0).Works .release tree0 [⟨7, [[65]], .A⟩, ⟨8, [[65]], .NS⟩] := sampleWay_works _ _ (by decide)
  have lw : lowerName [[65]] = [[97]] := by decide
  have lw' : lowerName [[97]] = [[97]] := by decide
  have q1 : ∀ q ∈ ([⟨7, [[65]], .A⟩, ⟨8, [[65]], .NS⟩] : List Query), Room sampleZone (lowerName q.name) q.typ (nameWire q.name).length (sampleWay tree0).large.length := by
    intro q hq
    rcases List.mem_cons.1 hq with rfl | hq
    · exact roomA _ _ (by decide) (large _)
    · rw [List.mem_singleton.1 hq]
      exact roomNS _ _ (by decide) (large _)
  obtain ⟨_, k0⟩ := h2 tree0 _ .server
  obtain ⟨own1, r1⟩ := k0 (sampleWay tree0) [⟨7, [[65]], .A⟩, ⟨8, [[65]], .NS⟩] (fun _ _ => trivial) (by decide) w1 q1
  have c1 := Caches.resolver tree0 _ (sampleWay tree0) [⟨7, [[65]], .A⟩, ⟨8, [[65]], .NS⟩] own1 .server (fun _ _ => trivial) (by decide) w1 q1 r1
  obtain ⟨_, k1⟩ := h2 own1 _ c1
  have w2 : (sampleWay own1).Works .release own1 [⟨9, [[97]], .NS⟩] := sampleWay_works _ _ (by decide)
  have q2 : ∀ q ∈ ([⟨9, [[97]], .NS⟩] : List Query), Room sampleZone (lowerName q.name) q.typ (nameWire q.name).length (sampleWay own1).large.length := by
    intro q hq
    rw [List.mem_singleton.1 hq]
    exact roomNS _ _ (by decide) (large _)
  obtain ⟨own2, r2⟩ := k1 (sampleWay own1) [⟨9, [[97]], .NS⟩] (by decide) (by decide) w2 q2
  have c2 := Caches.resolver own1 _ (sampleWay own1) [⟨9, [[97]], .NS⟩] own2 c1 (by decide) (by decide) w2 q2 r2
  obtain ⟨_, k2⟩ := h2 own2 _ c2
  have w3 : (sampleWay own2).Works .release own2 [⟨10, [[97]], .NS⟩] := sampleWay_works _ _ (by decide)
  have q3 : ∀ q ∈ ([⟨10, [[97]], .NS⟩] : List Query), Room sampleZone (lowerName q.name) q.typ (nameWire q.name).length (sampleWay own2).large.length := by
    intro q hq
    rw [List.mem_singleton.1 hq]
    exact roomNS _ _ (by decide) (large _)
  obtain ⟨own3, r3⟩ := k2 (sampleWay own2) [⟨10, [[97]], .NS⟩] (by decide) (by decide) w3 q3
  have c3 := Caches.resolver own2 _ (sampleWay own2) [⟨10, [[97]], .NS⟩] own3 c2 (by decide) (by decide) w3 q3 r3
  obtain ⟨k3, _⟩ := h2 own3 _ c3
  obtain ⟨sent, s1, s2⟩ := request_ok 11 [[65]] (by decide) .NS rfl (List.replicate 32 0) (by rw [l3]; exact Nat.le_trans (by decide : _ ≤ 19) (by omega))
  obtain ⟨out, msg, x1, _, x3, x4, x5, _, x6⟩ := k3 sent _ s2 (fun h => nomatch h) (by decide +kernel) (List.replicate 512 0)
    (by rw [l1]; exact Nat.le_trans (by decide +kernel : _ ≤ 300) (by omega)) (by rw [l1]; omega)
  exact ⟨tree0, own1, own2, own3, sent, out, msg, h1, r1, r2, r3, s1, x1, x3, x4, x5, x6 (roomNS _ _ (by decide +kernel) (by rw [l1]; omega))⟩

end R53
