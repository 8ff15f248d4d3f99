import Verif.Spec.Network
import Verif.Props.Cache
import Verif.Props.Hops
/-!
# C111: a network of servers, caches and forwarders
-/
namespace R53
open Name (ofLabels)

theorem says_sound (M : Table (List RRset)) (sets : List RRset) (h : ∀ k, (M.valueOf k).getD [] = setsOf sets k) (n : List Label) (typ : RRType) (t : SectionType) :
    ∀ f ∈ Server.says (Server.known M n) n typ t, (∃ s ∈ sets, f ∈ s.facts) ∧ t ≠ .Additional ∧ (t = .Answer → f.1 = n ∧ f.2.1 = typ) ∧ (t = .Authority → f.1 <:+ n ∧ f.2.1 = .NS) := by
  intro f hf
  unfold Server.known at hf
  cases hc : M.nodes.closest n with
  | none => rw [hc] at hf; cases hf
  | some k =>
    rw [hc] at hf
    simp only [Option.map_some, Server.says, h] at hf
    have key : ∀ ty, f ∈ ((setsOf sets k).filter fun s => s.typ = ty).flatMap RRset.facts → (∃ s ∈ sets, f ∈ s.facts) ∧ f.1 = k ∧ f.2.1 = ty := by
      intro ty hf
      obtain ⟨s, hs, hf⟩ := List.mem_flatMap.1 hf
      obtain ⟨h1, h2⟩ := List.mem_filter.1 hs
      obtain ⟨h3, h4⟩ := List.mem_filter.1 h1
      refine ⟨⟨s, h3, hf⟩, ?_⟩
      obtain ⟨d, _, rfl⟩ := List.mem_map.1 hf
      exact ⟨by simpa using h4, by simpa using h2⟩
    have hk := ((c83_closest _ _ _).1 hc).1
    split at hf
    · rename_i e
      split at hf
      · rename_i ht
        obtain ⟨a, b, c⟩ := key typ hf
        subst ht
        exact ⟨a, by simp, fun _ => ⟨b.trans e, c⟩, by simp⟩
      · cases hf
    · split at hf
      · rename_i ht
        obtain ⟨a, b, c⟩ := key .NS hf
        subst ht
        exact ⟨a, by simp, by simp, fun _ => ⟨b ▸ hk, c⟩⟩
      · cases hf

/-- whatever a server sends from a loaded tree is faithful to the sets that were loaded, in any buffer, for a request of any octets -/
theorem loaded_faithful {m : Build} {sets : List RRset} {tree : Dom (List RRset)} (hload : Loaded m sets tree) (hfit : ∀ s ∈ sets, s.FitsIn 65535) (ho : ∀ s ∈ sets, s.typ ≠ .OPT)
    (hc : ∀ k, ((setsOf sets k).flatMap RRset.facts).length ≤ 65535) (raw backing out : List UInt8) (hb' : backing.length ≤ 65535)
    (hs : Server.serve m tree raw backing = .ok out) :
    ∃ msg, Response.from_wire out = .ok msg ∧ Faithful (fun f => ∃ s ∈ sets, f ∈ s.facts) msg := by
  obtain ⟨ops, h1, h2, h3⟩ := hload
  have hst : ∀ ls v, TOp.insert ls (some v) ∈ ops → Stored backing.length v := by
    intro ls v hi
    obtain ⟨i, k, rfl⟩ := h3 ls v hi
    refine ⟨fun s hs => ?_, Nat.le_trans (facts_sublist ?_) (hc k)⟩
    · have hs : s ∈ sets := List.mem_of_mem_take (List.mem_filter.1 hs).1
      obtain ⟨f1, f2, f3, f4, f5⟩ := hfit s hs
      exact ⟨⟨f1, f2, f3, fun rd hrd => ⟨(f4 rd hrd).1, (f4 rd hrd).2.1, (f4 rd hrd).2.2.1, Or.inl hb'⟩, f5⟩, ho s hs⟩
    · exact (List.take_sublist i sets).filter _
  obtain ⟨q, ls, msg, a1, a2, a3, _, a4, _, a5, a6, _, a7⟩ := c103_told m ops tree h1 raw backing out hst hs
  refine ⟨msg, a4, ?_⟩
  have hq : lowerName msg.question.name.labelList = lowerName ls := by rw [a5, a3, R53.labels_ofLabels a2]
  have main : ∀ t, ∀ s ∈ (msg.section_ t).sets, ∀ f ∈ s.facts, (∃ s ∈ sets, f ∈ s.facts) ∧ t ≠ .Additional ∧
      (t = .Answer → f.1 = lowerName ls ∧ f.2.1 = q.question.typ) ∧ (t = .Authority → f.1 <:+ lowerName ls ∧ f.2.1 = .NS) := by
    intro t s hs f hf
    rcases a7 with a7 | ⟨_, a7⟩
    · exact says_sound _ sets h2 (lowerName ls) q.question.typ t f ((a7 t).mem_iff.1 (List.mem_flatMap.2 ⟨s, hs, hf⟩))
    · rw [a7 t] at hs; cases hs
  refine ⟨a6, fun t s hs f hf => (main t s hs f hf).1, fun s hs f hf => ?_, fun s hs f hf => ?_, fun s hs => ?_⟩
  · rw [hq, a5]; exact (main _ s hs f hf).2.2.1 rfl
  · rw [hq]; exact (main _ s hs f hf).2.2.2 rfl
  · cases hx : s.facts with
    | nil => rfl
    | cons f fs => exact absurd rfl (main _ s hs f (by rw [hx]; simp)).2.1

theorem Faithful.mono {P Q : List Label × RRType × RData → Prop} {msg : Response} (h : Faithful P msg) (hpq : ∀ f, P f → Q f) : Faithful Q msg :=
  ⟨h.response, fun t s hs f hf => hpq f (h.known t s hs f hf), h.answer, h.authority, h.additional⟩

theorem Faithful.cut {P : List Label × RRType × RData → Prop} {msg : Response} (h : Faithful P msg) : Faithful P msg.cut := by
  refine ⟨?_, fun t s hs => ?_, fun s hs => ?_, fun s hs => ?_, fun s hs => ?_⟩
  · have := (c35_set_flag msg.header .Truncation true).1 .QueryRespone
    rw [if_neg (by decide)] at this
    exact this.trans h.response
  · cases t <;> cases hs
  all_goals cases hs

theorem told_section {msg : Response} {s : RRset} (h : s ∈ Server.told msg) : ∃ t, s ∈ (msg.section_ t).sets := by
  have h1 := (List.mem_filter.1 h).1
  simp only [List.mem_append] at h1
  rcases h1 with h1 | h1 | h1
  · exact ⟨.Answer, h1⟩
  · exact ⟨.Authority, h1⟩
  · exact ⟨.Additional, h1⟩

/-- the owners of what is told are those of the zones, letter case aside -/
theorem told_ascii {m : Build} {zones : List Zone} (ho : ∀ s, Zone.has m zones s → s.typ ≠ .OPT ∧ ∀ l ∈ s.name.labelList, ∀ c ∈ l, c.toNat < 128) {raw : List UInt8} {msg : Response}
    (h : Response.from_wire raw = .ok msg) (hf : Faithful (Zone.says m zones) msg) : ∀ s ∈ Server.told msg, ∀ l ∈ s.name.labelList, ∀ c ∈ l, c.toNat < 128 := by
  intro s hs l hl c hc
  obtain ⟨h1, h2⟩ := told_fits h s hs
  obtain ⟨d, hd⟩ := List.exists_mem_of_ne_nil _ fun e => h2 (h1.empty e)
  obtain ⟨t, ht⟩ := told_section hs
  obtain ⟨z, hz, hf⟩ := hf.known t s ht (lowerName s.name.labelList, s.typ, d) (List.mem_map.2 ⟨d, hd, rfl⟩)
  obtain ⟨d', _, e⟩ := List.mem_map.1 hf
  have e : lowerName z.name.labelList = lowerName s.name.labelList := (Prod.mk.inj e).1
  have : lowerLabel l ∈ lowerName z.name.labelList := by rw [e]; exact List.mem_map_of_mem hl
  obtain ⟨l', hl', e3⟩ := List.mem_map.1 this
  have : lowerByte c ∈ lowerLabel l' := by rw [e3]; exact List.mem_map_of_mem hc
  obtain ⟨c', hc', e4⟩ := List.mem_map.1 this
  rw [← lowerByte_ascii, ← e4, lowerByte_ascii]
  exact (ho z hz).2 l' hl' c' hc'

/-- **C111**. Any number of zones of plain lines with ASCII owner names and no OPT; any network of name servers that have loaded them, caches that learn from what is sent in the network, and
forwarders; any requests. Every octet string sent decodes as a response that says nothing but what is written in the zones: each fact in its sections is in one of them; the
answers are about the name and type in its question, the authority about name servers of that name or one above. -/
theorem c111_network (m : Build) (zones : List Zone) (hl : ∀ zone ∈ zones, ∀ g ∈ zone, ∀ s ∈ g, PlainLine s)
    (ho : ∀ s, Zone.has m zones s → s.typ ≠ .OPT ∧ ∀ l ∈ s.name.labelList, ∀ c ∈ l, c.toNat < 128) (out : List UInt8) (h : Sent m zones out) :
    ∃ msg, Response.from_wire out = .ok msg ∧ Faithful (Zone.says m zones) msg := by
  have h0 : Loaded m [] (Dom.new : Dom (List RRset)) := ⟨[], ⟨fun _ h => (nomatch h), [], rfl⟩, fun k => rfl, fun _ _ h => (nomatch h)⟩
  induction h with
  | server zone sets tree raw backing out mem text few load room serve =>
    have has : ∀ s ∈ sets, ∃ g ∈ zone, RRset.from_strs stdExt m g = .ok s := by
      intro s hs
      have : Res.ok s ∈ zone.map (RRset.from_strs stdExt m) := by rw [text]; exact List.mem_map_of_mem hs
      exact List.mem_map.1 this
    have hfit : ∀ s ∈ sets, s.FitsIn 65535 := by
      intro s hs
      obtain ⟨g, hg, e⟩ := has s hs
      exact c78_std m g (hl zone mem g hg) s e 65535 (Nat.le_refl _)
    have hz : ∀ s ∈ sets, Zone.has m zones s := fun s hs => by
      obtain ⟨g, hg, e⟩ := has s hs
      exact ⟨zone, mem, g, hg, e⟩
    obtain ⟨tree', e1, e2⟩ := load_ok zone sets [] Dom.new text (fun s hs => by
      obtain ⟨ls, h1, h2⟩ := (hfit s hs).name
      have := (ho s (hz s hs)).2
      rw [h2, R53.labels_ofLabels h1] at this
      exact ⟨ls, h1, h2, this⟩) h0
    rw [List.nil_append] at e2
    rw [load] at e1
    obtain rfl := (Prod.mk.inj e1).2
    obtain ⟨msg, a1, a2⟩ := loaded_faithful e2 hfit (fun s hs => (ho s (hz s hs)).1) few raw backing out room serve
    exact ⟨msg, a1, a2.mono fun f ⟨s, hs, hf⟩ => ⟨s, hz s hs, hf⟩⟩
  | cache raws msgs tree raw backing out sent decoded few learn room serve ih =>
    have hmsg : ∀ msg ∈ msgs, ∃ r ∈ raws, Response.from_wire r = .ok msg := by
      intro msg hm
      have : Res.ok msg ∈ raws.map Response.from_wire := by rw [decoded]; exact List.mem_map_of_mem hm
      exact List.mem_map.1 this
    have hfit : ∀ s ∈ msgs.flatMap Server.told, s.FitsIn 65535 ∧ s.typ ≠ .OPT := by
      intro s hs
      obtain ⟨msg, hm, hs⟩ := List.mem_flatMap.1 hs
      obtain ⟨r, _, e⟩ := hmsg msg hm
      exact told_fits e s hs
    have hsay : ∀ s ∈ msgs.flatMap Server.told, ∀ f ∈ s.facts, Zone.says m zones f := by
      intro s hs f hf
      obtain ⟨msg, hm, hs⟩ := List.mem_flatMap.1 hs
      obtain ⟨r, hr, e⟩ := hmsg msg hm
      obtain ⟨msg', e', hfa⟩ := ih r hr
      rw [e] at e'
      obtain rfl := Res.ok.inj e'
      obtain ⟨t, ht⟩ := told_section hs
      exact hfa.known t s ht f hf
    obtain ⟨tree', e1, e2⟩ := learn_ok raws msgs [] Dom.new decoded (fun msg hm => by
      obtain ⟨r, hr, e⟩ := hmsg msg hm
      obtain ⟨msg', e', hfa⟩ := ih r hr
      rw [e] at e'
      obtain rfl := Res.ok.inj e'
      exact told_ascii ho e hfa) h0
    rw [List.nil_append] at e2
    rw [learn] at e1
    obtain rfl := (Prod.mk.inj e1).2
    obtain ⟨msg, a1, a2⟩ := loaded_faithful e2 (fun s hs => (hfit s hs).1) (fun s hs => (hfit s hs).2) few raw backing out room serve
    exact ⟨msg, a1, a2.mono fun f ⟨s, hs, hf⟩ => hsay s hs f hf⟩
  | forward raw backing out sent room hop ih =>
    obtain ⟨msg, e, hfa⟩ := ih
    unfold R53.hop at hop
    rw [e] at hop
    dsimp only at hop
    generalize hw : msg.to_wire (Render.new backing) = w at hop
    obtain ⟨x, r⟩ := w
    cases x with
    | err => cases hop
    | panic => cases hop
    | ok n =>
      obtain ⟨k1, _, _⟩ := c44_roundtrip msg backing (c76_fits raw msg e _ room) n r hw
      have : out = r.data := by
        rw [← Option.some.inj hop, k1, List.take_length]
      subst this
      rcases c76_forward raw msg e backing room n r hw with h | h
      · exact ⟨msg, h, hfa⟩
      · exact ⟨msg.cut, h, hfa.cut⟩

/-! ## the premises are met -/

/-- a message tells no more than it has octets -/
theorem told_count {raw : List UInt8} {msg : Response} (h : Response.from_wire raw = .ok msg) : ((Server.told msg).flatMap RRset.facts).length ≤ raw.length := by
  have hm := c76_fits raw msg h 0 (by omega)
  rcases c43_response_total raw with e | ⟨msg', e, _, _, _, _, hc⟩
  · rw [h] at e; cases e
  rw [h] at e
  obtain rfl := Res.ok.inj e
  have key : ∀ s : Section, ((s.getD []).flatMap RRset.facts).length ≤ (Section.records s).length := by
    intro s
    cases s with
    | none => exact Nat.le_refl _
    | some sets =>
      show (sets.flatMap RRset.facts).length ≤ (sets.flatMap RRset.records).length
      induction sets with
      | nil => exact Nat.le_refl _
      | cons s sets ih =>
        rw [List.flatMap_cons, List.flatMap_cons, List.length_append, List.length_append]
        refine Nat.add_le_add ?_ ih
        unfold RRset.facts RRset.records
        split
        · rename_i e; simp [e]
        · simp
  have k1 := key msg.answer
  have k2 := key msg.authority
  have k3 := key msg.additional
  rw [← hm.an] at k1
  rw [← hm.ns] at k2
  rw [← hm.ar] at k3
  have k4 := facts_sublist (List.filter_sublist (p := fun s : RRset => decide (s.typ ≠ .OPT)) (l := msg.answer.getD [] ++ (msg.authority.getD [] ++ msg.additional.getD [])))
  rw [List.flatMap_append, List.flatMap_append, List.length_append, List.length_append] at k4
  have : ((Server.told msg).flatMap RRset.facts).length ≤ _ := k4
  omega

namespace NetworkSample
/-- a zone with two addresses and a name server of `a.`, and an address of `b.` -/
def zone : Zone := [[ascii "a. 60 IN A 1.2.3.4", ascii "a. 60 IN A 5.6.7.8"], [ascii "a. 60 IN NS n.a."], [ascii "b. 60 IN A 9.9.9.9"]]
def sets : List RRset := [⟨ofLabels [[97]], .A, .IN, 60, [⟨.A, [.ip [1, 2, 3, 4]]⟩, ⟨.A, [.ip [5, 6, 7, 8]]⟩]⟩, ExchangeSample.auth, ⟨ofLabels [[98]], .A, .IN, 60, [⟨.A, [.ip [9, 9, 9, 9]]⟩]⟩]
end NetworkSample

/-- a server answers a question for `A.` with both addresses, a forwarder sends that on, a cache learns from both and answers the question -/
theorem c111_example : ∃ out1 out2 out3 msg, Sent .release [NetworkSample.zone] out1 ∧ Response.from_wire out1 = .ok msg ∧
    ((msg.section_ .Answer).sets.flatMap RRset.facts).Perm [([[97]], .A, ⟨.A, [.ip [1, 2, 3, 4]]⟩), ([[97]], .A, ⟨.A, [.ip [5, 6, 7, 8]]⟩)] ∧
    hop out1 (List.replicate 600 0) = some out2 ∧ Sent .release [NetworkSample.zone] out2 ∧ Sent .release [NetworkSample.zone] out3 ∧
    (∀ zone ∈ [NetworkSample.zone], ∀ g ∈ zone, ∀ s ∈ g, PlainLine s) ∧
    ∀ s, Zone.has .release [NetworkSample.zone] s → s.typ ≠ .OPT ∧ ∀ l ∈ s.name.labelList, ∀ c ∈ l, c.toNat < 128 := by
  obtain ⟨z1, z2, z3, z4, z5, z6, z7, z8, z9⟩ := c104_example
  have hz : ∀ s, Zone.has .release [NetworkSample.zone] s → s ∈ NetworkSample.sets := by
    rintro s ⟨zone, hm, g, hg, e⟩
    rw [List.mem_singleton] at hm; subst hm
    have : RRset.from_strs stdExt .release g ∈ NetworkSample.zone.map (RRset.from_strs stdExt .release) := List.mem_map_of_mem hg
    rw [show NetworkSample.zone.map (RRset.from_strs stdExt .release) = NetworkSample.sets.map Res.ok from z2, e] at this
    obtain ⟨s', h1, h2⟩ := List.mem_map.1 this
    rw [← Res.ok.inj h2]; exact h1
  have hl : ∀ zone ∈ [NetworkSample.zone], ∀ g ∈ zone, ∀ s ∈ g, PlainLine s := fun zone hm => by
    rw [List.mem_singleton] at hm; subst hm; exact z1
  have ho : ∀ s, Zone.has .release [NetworkSample.zone] s → s.typ ≠ .OPT ∧ ∀ l ∈ s.name.labelList, ∀ c ∈ l, c.toNat < 128 := fun s hs => ⟨z3 s (hz s hs), z4 s (hz s hs)⟩
  obtain ⟨f1, f2, f3, f4, _⟩ := c56_new 7 [[65]] (by decide) .A rfl
  obtain ⟨raw, hraw⟩ : ∃ raw, Request.from_wire raw = .ok (Request.new 7 (ofLabels [[65]]) .A) := by
    rcases c56_roundtrip _ f1 f2 f3 f4 (List.replicate 32 0) with h | ⟨n, r, _, _, _, h⟩
    · obtain ⟨r, this, _⟩ := (c56_exact (Request.new 7 (ofLabels [[65]]) .A) [[65]] (by decide) rfl (List.replicate 32 0)).1 (by decide)
      rw [this] at h; cases h
    · exact ⟨_, h []⟩
  have ha : ∀ l ∈ (Request.new 7 (ofLabels [[65]]) .A).question.name.labelList, ∀ c ∈ l, c.toNat < 128 := by decide +kernel
  have hlen : (Request.new 7 (ofLabels [[65]]) .A).question.name.raw.length = 3 := by decide +kernel
  have hr : ∀ (n : Nat) (b : UInt8), (List.replicate n b).length = n := fun n b => List.length_replicate
  obtain ⟨tree, t1, t2⟩ := c104_zone .release NetworkSample.zone z1 NetworkSample.sets z2 z3 z4 z5
  obtain ⟨out1, msg, s1, s2, s3, _, s4, _, _, s5⟩ := t2 raw _ hraw (fun _ => ha) (List.replicate 512 0) (by rw [hr, hlen]; omega) (by rw [hr]; omega)
  have hq : lowerName (Request.new 7 (ofLabels [[65]]) .A).question.name.labelList = lowerName [[65]] := by decide +kernel
  rw [hq] at s5
  have s5 := s5 z7 z8 (by rw [hr]; exact Nat.le_trans (Nat.le_of_eq z9) (by omega))
  have sent1 : Sent .release [NetworkSample.zone] out1 := .server NetworkSample.zone NetworkSample.sets tree raw (List.replicate 512 0) out1 (List.mem_cons_self) z2 z5 t1 (by rw [hr]; omega) s1
  obtain ⟨out2, g1, _, g2⟩ := c109_hops out1 msg s3 [List.replicate 600 0] (List.cons_ne_nil _ _) (fun b hb => by
    rw [List.mem_singleton] at hb; subst hb; rw [hr]; omega)
  have g2 := g2 (List.replicate 600 0) List.mem_cons_self (fun b hb => by rw [List.mem_singleton] at hb; subst hb; exact Nat.le_refl _)
  have sent2 : Sent .release [NetworkSample.zone] out2 := .forward out1 (List.replicate 600 0) out2 sent1 (by rw [hr]; omega) g2
  obtain ⟨msg2, d2, hf2⟩ := c111_network .release _ hl ho out2 sent2
  obtain ⟨msg1, d1, hf1⟩ := c111_network .release _ hl ho out1 sent1
  rw [s3] at d1
  obtain rfl := Res.ok.inj d1
  have hasc : ∀ x ∈ [msg, msg2], ∀ s ∈ Server.told x, ∀ l ∈ s.name.labelList, ∀ c ∈ l, c.toNat < 128 := fun x hx => by
    simp only [List.mem_cons, List.not_mem_nil, or_false] at hx
    rcases hx with rfl | rfl
    · exact told_ascii ho s3 hf1
    · exact told_ascii ho d2 hf2
  have len2 : out2.length ≤ 600 := by
    unfold hop at g2
    rw [s3] at g2
    dsimp only at g2
    generalize hw : msg.to_wire (Render.new (List.replicate 600 0)) = w at g2
    obtain ⟨x, r⟩ := w
    cases x with
    | err => cases g2
    | panic => cases g2
    | ok n =>
      obtain ⟨k1, k2, _⟩ := c44_roundtrip msg _ (c76_fits out1 msg s3 _ (by rw [hr]; omega)) n r hw
      rw [← Option.some.inj g2, List.length_take]
      rw [hr] at k2; omega
  rw [hr] at s2
  have hd : [out1, out2].map Response.from_wire = [msg, msg2].map Res.ok := by simp only [List.map_cons, List.map_nil, s3, d2]
  have few : ∀ k, ((setsOf ([msg, msg2].flatMap Server.told) k).flatMap RRset.facts).length ≤ 65535 := by
    intro k
    refine Nat.le_trans (facts_sublist List.filter_sublist) ?_
    have a := told_count s3
    have b := told_count d2
    simp only [List.flatMap_cons, List.flatMap_nil, List.append_nil, List.flatMap_append, List.length_append]
    omega
  have hall : ∀ x ∈ [out1, out2], Sent .release [NetworkSample.zone] x := fun x hx => by
    simp only [List.mem_cons, List.not_mem_nil, or_false] at hx
    rcases hx with rfl | rfl
    · exact sent1
    · exact sent2
  obtain ⟨tree', u1, u2⟩ := c110_cache .release [out1, out2] [msg, msg2] hd hasc few
  obtain ⟨out3, _, v1, _⟩ := u2 raw _ hraw (fun _ => ha) (List.replicate 512 0) (by rw [hr, hlen]; omega) (by rw [hr]; omega)
  exact ⟨out1, out2, out3, msg, sent1, s3, z6 ▸ s5, g2, sent2, .cache [out1, out2] [msg, msg2] tree' raw (List.replicate 512 0) out3 hall hd few u1 (by rw [hr]; omega) v1, hl, ho⟩

end R53
