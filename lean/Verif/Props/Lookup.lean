import Verif.Props.Client
import Verif.Props.Zone
/-!
# C114: from the lines of a zone to the client
-/
namespace R53
open Name (ofLabels)

/-- a zone as in C104: text without backslash, read as record sets with ASCII owner names, none of them OPT, not more than 65535 records of one owner. Loading it succeeds; then a client that asks as
in C113 - any network, any forwarders, both builds - never panics, and the answer it gets, if any, is exactly the data of the lines of that owner and type, or it is marked as truncated and empty. If
the owner has lines, the network brings what is sent, and there is room, the client does get exactly these data -/
theorem c114_zone (m : Build) (groups : List (List (List UInt8))) (hl : ∀ g ∈ groups, ∀ s ∈ g, PlainLine s) (sets : List RRset)
    (hg : groups.map (RRset.from_strs stdExt m) = sets.map Res.ok) (ho : ∀ s ∈ sets, s.typ ≠ .OPT)
    (ha : ∀ s ∈ sets, ∀ l ∈ s.name.labelList, ∀ c ∈ l, c.toNat < 128) (hn : ∀ k, ((setsOf sets k).flatMap RRset.facts).length ≤ 65535) :
    ∃ tree, Server.load m groups Dom.new = (.ok (), tree) ∧
      ∀ (id : UInt16) (ls : List Label), ValidName ls → (m = .debug → ∀ l ∈ ls, ∀ c ∈ l, c.toNat < 128) → ∀ t : RRType, RRType.new t.as_u16 = t →
      ∀ small large backing : List UInt8, (nameWire ls).length + 271 ≤ small.length → small.length ≤ large.length → large.length ≤ 65535 → (nameWire ls).length + 16 ≤ backing.length →
      ∀ us ts : List (List UInt8), (∀ b ∈ us, 526 ≤ b.length ∧ b.length ≤ 65535) → (∀ b ∈ ts, 526 ≤ b.length ∧ b.length ≤ 65535) →
      ∀ udp tcp : List UInt8 → List (List UInt8), Unforged (Server.through m tree small us) id ls t udp → Unforged (Server.through m tree large ts) id ls t tcp →
      ∃ o, Client.lookup id ⟨ofLabels ls, t, .IN⟩ backing udp tcp = .ok o ∧
        (∀ msg, o = some msg → msg.header.id = id ∧ msg.question = ⟨ofLabels ls, t, .IN⟩ ∧
          ((msg.answer.sets.flatMap RRset.facts).Perm (((setsOf sets (lowerName ls)).filter fun s => s.typ = t).flatMap RRset.facts) ∨
            (msg.header.is_flag_set .Truncation = true ∧ ∀ s, msg.section_ s = none))) ∧
        (Brings (Server.through m tree small us) udp → Brings (Server.through m tree large ts) tcp → (∀ b ∈ ts, large.length ≤ b.length) →
          setsOf sets (lowerName ls) ≠ [] → ClashFree (ofLabels ls :: (setsOf sets (lowerName ls)).flatMap RRset.names) →
          (nameWire ls).length + 16 + ((((setsOf sets (lowerName ls)).filter fun s => s.typ = t).flatMap RRset.facts).map factSize).sum ≤ large.length →
          ∃ msg, o = some msg ∧ msg.header.rcode = .NoError ∧
            (msg.answer.sets.flatMap RRset.facts).Perm (((setsOf sets (lowerName ls)).filter fun s => s.typ = t).flatMap RRset.facts)) := by
  have hfit : ∀ s ∈ sets, s.FitsIn 65535 := by
    intro s hs
    have : Res.ok s ∈ groups.map (RRset.from_strs stdExt m) := by rw [hg]; exact List.mem_map_of_mem hs
    obtain ⟨g, hgm, he⟩ := List.mem_map.1 this
    exact c78_std m g (hl g hgm) s he 65535 (Nat.le_refl _)
  have hown : ∀ s ∈ sets, ∃ ls, ValidName ls ∧ s.name = ofLabels ls ∧ ∀ l ∈ ls, ∀ c ∈ l, c.toNat < 128 := by
    intro s hs
    obtain ⟨ls, h1, h2⟩ := (hfit s hs).name
    have := ha s hs
    rw [h2, R53.labels_ofLabels h1] at this
    exact ⟨ls, h1, h2, this⟩
  have h0 : Loaded m [] (Dom.new : Dom (List RRset)) := ⟨[], ⟨fun _ h => (nomatch h), [], rfl⟩, fun k => rfl, fun _ _ h => (nomatch h)⟩
  obtain ⟨tree, e1, e2⟩ := load_ok groups sets [] Dom.new hg hown h0
  rw [List.nil_append] at e2
  refine ⟨tree, e1, fun id ls hv hasc t ht small large backing hb hle hlm hc us ts hus hts udp tcp hu htc => ?_⟩
  obtain ⟨ops, h1, h2, h3⟩ := e2
  have hst : ∀ ls v, TOp.insert ls (some v) ∈ ops → Stored large.length v := by
    intro ls v hi
    obtain ⟨i, k, rfl⟩ := h3 ls v hi
    refine ⟨fun s hs => ?_, Nat.le_trans (facts_sublist ?_) (hn k)⟩
    · have hs : s ∈ sets := List.mem_of_mem_take (List.mem_filter.1 hs).1
      obtain ⟨f1, f2, f3, f4, f5⟩ := hfit s hs
      exact ⟨⟨f1, f2, f3, fun rd hrd => ⟨(f4 rd hrd).1, (f4 rd hrd).2.1, (f4 rd hrd).2.2.1, Or.inl hlm⟩, f5⟩, ho s hs⟩
    · exact (List.take_sublist i sets).filter _
  have tells : ∀ msg, Tells (Table.empty.after ops) ls t msg →
      (msg.answer.sets.flatMap RRset.facts).Perm (((setsOf sets (lowerName ls)).filter fun s => s.typ = t).flatMap RRset.facts) := fun msg h => by
    have := h.2 .Answer
    rw [says_answer, h2] at this
    exact this
  obtain ⟨o, k1, k2, k3⟩ := c113_through m ops tree h1 small large hle hst id ls hv hasc t ht hb backing hc us ts hus hts udp tcp hu htc
  refine ⟨o, k1, fun msg hm => ?_, fun b1 b2 b3 hne hcf hsz => ?_⟩
  · obtain ⟨g1, g2, g3⟩ := k2 msg hm
    exact ⟨g1, g2, g3.imp (tells msg) _root_.id⟩
  · have hne' : ((Table.empty.after ops).valueOf (lowerName ls)).getD [] ≠ [] := by rw [h2]; exact hne
    obtain ⟨s1, s2, s3⟩ := says_own (Table.empty.after ops) (lowerName ls) t hne'
    obtain ⟨msg, g1, g2⟩ := k3 b1 b2 b3 (by rw [s3, h2]; exact hcf) (by rw [s2, List.append_nil, s1, h2]; exact hsz)
    refine ⟨msg, g1, ?_, tells msg g2⟩
    rw [g2.1, if_neg]
    intro hk
    rw [hk] at s3
    rw [h2] at s3
    have : Server.known (Table.empty.after ops) (lowerName ls) ≠ none := by
      unfold Server.known
      intro h
      rw [Option.map_eq_none_iff] at h
      have hs : ((Table.empty.after ops).nodes.at? (lowerName ls)).isSome = true := by
        cases hx : (Table.empty.after ops).nodes.at? (lowerName ls) with
        | none => rw [Table.valueOf, hx] at hne'; exact absurd rfl hne'
        | some d => rfl
      rw [Nodes.closest_self _ _ hs] at h
      cases h
    exact this hk

/-- the lines of a zone are loaded, a client asks for `A.` through forwarders, with noise on the network: it gets the two addresses -/
theorem c114_example : ∃ tree msg, Server.load .release [[ascii "a. 60 IN A 1.2.3.4", ascii "a. 60 IN A 5.6.7.8"], [ascii "a. 60 IN NS n.a."], [ascii "b. 60 IN A 9.9.9.9"]] Dom.new = (.ok (), tree) ∧
    Client.lookup 7 ⟨ofLabels [[65]], .A, .IN⟩ (List.replicate 32 0) (noisy (Server.through .release tree (List.replicate 512 0) [List.replicate 526 255]))
      (noisy (Server.through .release tree (List.replicate 4096 0) [List.replicate 4096 7])) = .ok (some msg) ∧ msg.header.rcode = .NoError ∧
    (msg.answer.sets.flatMap RRset.facts).Perm [([[97]], .A, ⟨.A, [.ip [1, 2, 3, 4]]⟩), ([[97]], .A, ⟨.A, [.ip [5, 6, 7, 8]]⟩)] := by
  obtain ⟨a1, a2, a3, a4, a5, a6, a7, a8, a9⟩ := c104_example
  obtain ⟨tree, h1, h2⟩ := c114_zone .release _ a1 _ a2 a3 a4 a5
  have l1 : (List.replicate 512 (0 : UInt8)).length = 512 := List.length_replicate
  have l2 : (List.replicate 4096 (0 : UInt8)).length = 4096 := List.length_replicate
  have l3 : (List.replicate 32 (0 : UInt8)).length = 32 := List.length_replicate
  have wl : (nameWire [[(65 : UInt8)]]).length = 3 := by decide
  have g1 : ∀ b ∈ [List.replicate 526 (255 : UInt8)], 526 ≤ b.length ∧ b.length ≤ 65535 := by
    intro b hb; rw [List.mem_singleton.1 hb, List.length_replicate]; omega
  have g2 : ∀ b ∈ [List.replicate 4096 (7 : UInt8)], 4096 ≤ b.length ∧ b.length ≤ 65535 := by
    intro b hb; rw [List.mem_singleton.1 hb, List.length_replicate]; omega
  obtain ⟨o, k1, _, k3⟩ := h2 7 [[65]] (by decide) (fun h => nomatch h) .A rfl (List.replicate 512 0) (List.replicate 4096 0) (List.replicate 32 0) (by rw [l1, wl]; omega)
    (by rw [l1, l2]; omega) (by rw [l2]; omega) (by rw [l3, wl]; omega) [List.replicate 526 255] [List.replicate 4096 7] g1 (fun b hb => ⟨by have := (g2 b hb).1; omega, (g2 b hb).2⟩)
    _ _ (noisy_ok _ _ _ _).1 (noisy_ok _ _ _ _).1
  rw [a6, Name.ofLabels_raw, ← nameWire_eq, wl] at *
  obtain ⟨msg, rfl, m1, m2⟩ := k3 (noisy_ok _ 7 [[65]] .A).2 (noisy_ok _ 7 [[65]] .A).2 (fun b hb => by rw [l2]; exact (g2 b hb).1) a7 a8 (by rw [l2]; omega)
  exact ⟨tree, msg, h1, k1, m1, m2⟩

end R53
