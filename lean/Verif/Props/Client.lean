import Verif.Spec.Client
import Verif.Props.Session
import Verif.Props.Same
import Verif.Props.Requests
import Verif.Props.Hops
/-!
# C113: a client and a server over a network
-/
namespace R53
open Name (ofLabels)

theorem accept_ok (id : UInt16) (ls : List Label) (hv : ValidName ls) (t : RRType) (raw : List UInt8) :
    ∃ o, Client.accept id ⟨ofLabels ls, t, .IN⟩ raw = .ok o ∧ (∀ msg, o = some msg → Response.from_wire raw = .ok msg) ∧
      (Plausible id ls t raw ↔ ∃ msg, o = some msg) := by
  unfold Client.accept
  rcases c43_response_total raw with e | ⟨msg, e, hq, _⟩
  · rw [e]
    exact ⟨none, rfl, fun _ h => (nomatch h), ⟨fun ⟨_, h, _⟩ => (by rw [e] at h; cases h), fun ⟨_, h⟩ => (nomatch h)⟩⟩
  · rw [e]
    obtain ⟨ks, hk, hn⟩ := hq.1
    have hwf : msg.question.name.WF := ⟨ks, hk, hn⟩
    obtain ⟨r, h1, h2⟩ := question_eq_spec (a := msg.question) (b := ⟨ofLabels ls, t, .IN⟩) hwf ⟨ls, hv, rfl⟩
    have hs : msg.question.Same ⟨ofLabels ls, t, .IN⟩ ↔ lowerName msg.question.name.labelList = lowerName ls ∧ msg.question.typ = t ∧ msg.question.class_ = .IN := by
      simp only [Question.Same, FieldSame, SameName, hn, R53.labels_ofLabels hk]
      refine and_congr_left fun _ => ⟨fun ⟨la, lb, v1, v2, e1, e2, e3⟩ => ?_, fun e => ⟨ks, ls, hk, hv, rfl, rfl, e⟩⟩
      have e1 := congrArg Name.labelList e1
      have e2 := congrArg Name.labelList e2
      rw [R53.labels_ofLabels hk, R53.labels_ofLabels v1] at e1
      rw [R53.labels_ofLabels hv, R53.labels_ofLabels v2] at e2
      rw [e1, e2, e3]
    simp only [h1, Res.bind_ok]
    refine ⟨_, rfl, fun msg' h => ?_, ⟨fun ⟨m', e', g1, g2, g3, g4, g5⟩ => ?_, fun ⟨m', h⟩ => ?_⟩⟩
    · split at h
      · cases h; rfl
      · cases h
    · rw [e] at e'
      obtain rfl := Res.ok.inj e'
      exact ⟨msg, if_pos ⟨g1, h2.2 (hs.2 ⟨g2, g3, g4⟩), g5⟩⟩
    · split at h
      · next hc =>
        obtain ⟨k1, k2, k3⟩ := hs.1 (h2.1 hc.2.1)
        exact ⟨msg, e, hc.1, k1, k2, k3, hc.2.2⟩
      · cases h

theorem receive_ok (id : UInt16) (ls : List Label) (hv : ValidName ls) (t : RRType) : ∀ (raws : List (List UInt8)),
    ∃ o, Client.receive id ⟨ofLabels ls, t, .IN⟩ raws = .ok o ∧
      (∀ msg, o = some msg → ∃ raw ∈ raws, Response.from_wire raw = .ok msg ∧ Plausible id ls t raw) ∧
      ((∃ raw ∈ raws, Plausible id ls t raw) → ∃ msg, o = some msg)
  | [] => ⟨none, rfl, fun _ h => (nomatch h), fun ⟨_, h, _⟩ => (nomatch h)⟩
  | raw :: rest => by
    obtain ⟨o, h1, h2, h3⟩ := accept_ok id ls hv t raw
    rw [Client.receive, h1, Res.bind_ok]
    cases o with
    | some msg => exact ⟨some msg, rfl, fun m' h => by
        obtain rfl := Option.some.inj h
        exact ⟨raw, List.mem_cons_self, h2 _ rfl, h3.2 ⟨_, rfl⟩⟩, fun _ => ⟨_, rfl⟩⟩
    | none =>
      obtain ⟨o, g1, g2, g3⟩ := receive_ok id ls hv t rest
      refine ⟨o, g1, fun msg h => ?_, fun ⟨x, hx, hp⟩ => ?_⟩
      · obtain ⟨x, hx, k⟩ := g2 msg h
        exact ⟨x, List.mem_cons_of_mem _ hx, k⟩
      · rcases List.mem_cons.1 hx with rfl | hx
        · obtain ⟨_, k⟩ := h3.1 hp
          cases k
        · exact g3 ⟨x, hx, hp⟩

theorem request_ok (id : UInt16) (ls : List Label) (hv : ValidName ls) (t : RRType) (ht : RRType.new t.as_u16 = t) (backing : List UInt8)
    (hb : (nameWire ls).length + 16 ≤ backing.length) :
    ∃ sent, Client.request id ⟨ofLabels ls, t, .IN⟩ backing = .ok sent ∧ Request.from_wire sent = .ok (Request.new id (ofLabels ls) t) := by
  obtain ⟨f1, f2, f3, f4, _⟩ := c56_new id ls hv t ht
  obtain ⟨r, x1, _⟩ := (c56_exact (Request.new id (ofLabels ls) t) ls hv rfl backing).1 (by omega)
  rcases c56_roundtrip _ f1 f2 f3 f4 backing with x2 | ⟨n, r', x2, _, _, x3⟩
  · rw [x1] at x2; simp at x2
  rw [x1] at x2
  simp only [Prod.mk.injEq, Res.ok.injEq] at x2
  obtain ⟨_, rfl⟩ := x2
  have x4 := x3 []
  rw [List.append_nil] at x4
  exact ⟨r.data, by rw [Client.request]; simp only [x1], x4⟩

theorem Stored.mono {a b : Nat} (h : a ≤ b) {v : List RRset} (hs : Stored b v) : Stored a v :=
  ⟨fun s hm => ⟨⟨(hs.fits s hm).1.name, (hs.fits s hm).1.typ, (hs.fits s hm).1.class_, fun rd hr => by
    obtain ⟨h1, h2, h3, h4⟩ := (hs.fits s hm).1.data rd hr
    exact ⟨h1, h2, h3, h4.imp (fun x => by omega) id⟩, (hs.fits s hm).1.empty⟩, (hs.fits s hm).2⟩, hs.count⟩

/-- what was sent from a buffer, every forwarder with a buffer of that size or more sends on octet by octet -/
theorem sent_settled {w : Response} {b : List UInt8} (hw : w.FitsIn b.length) {n : Nat} {r : Render} (h : w.to_wire (Render.new b) = (.ok n, r)) {b' : List UInt8}
    (h1 : b.length ≤ b'.length) (h2 : b'.length ≤ 65535) : hop r.data b' = some r.data := by
  obtain ⟨_, hc⟩ := (c73_cases w hw.typed b).2.2 n r h
  rcases hc with ⟨x, a, c, e⟩ | ⟨a, hne, e⟩
  · obtain ⟨n', r', g1, g2⟩ := (c44_whole_iff w b hw).2 ⟨x, a, c⟩
    rw [h] at g1
    simp only [Prod.mk.injEq, Res.ok.injEq] at g1
    obtain ⟨rfl, rfl⟩ := g1
    exact (hop_iff g2 _).2 (.inl ⟨x, a, by omega, e⟩)
  · rw [e]
    refine hop_cut hw ?_
    have hp := (c73_cases w hw.typed b).1
    rw [h] at hp
    have : ¬ b.length < w.headSize := fun c => by have := hp.2 c; simp at this
    omega

theorem serve_settled (m : Build) (ops : List (TOp (List RRset))) (tree : Dom (List RRset)) (h : TreeReached m ops tree) (backing : List UInt8)
    (hst : ∀ ls v, TOp.insert ls (some v) ∈ ops → Stored backing.length v) (raw out : List UInt8) (hs : Server.serve m tree raw backing = .ok out) :
    ∀ (bs : List (List UInt8)), (∀ b ∈ bs, backing.length ≤ b.length ∧ b.length ≤ 65535) → hops bs out = some out
  | [], _ => rfl
  | b :: bs, hb => by
    have h0 := hb b List.mem_cons_self
    have h1 : hop out b = some out := by
      rw [serve_reply] at hs
      cases hrep : Server.reply m tree raw with
      | err => rw [hrep] at hs; cases hs
      | panic => rw [hrep] at hs; cases hs
      | ok msg =>
        rw [hrep] at hs
        have hf := reply_fits m ops tree h backing.length hst raw msg hrep
        replace hs : (match msg.to_wire (Render.new backing) with
          | (.ok _, r) => Res.ok r.data
          | (.err, _) => .err
          | (.panic, _) => .panic) = .ok out := hs
        generalize hw : msg.to_wire (Render.new backing) = w at hs
        obtain ⟨y, rr⟩ := w
        cases y with
        | err => cases hs
        | panic => cases hs
        | ok k =>
          obtain rfl := Res.ok.inj hs
          rw [← msg.tidy_to_wire] at hw
          exact sent_settled hf hw h0.1 h0.2
    rw [hops, h1]
    exact serve_settled m ops tree h backing hst raw out hs bs fun b' hb' => hb b' (List.mem_cons_of_mem _ hb')

/-- what comes out of forwarders: what the server sent, or that marked as truncated -/
theorem through_ok {out : List UInt8} {msg : Response} (h : Response.from_wire out = .ok msg) (bs : List (List UInt8)) (hb : ∀ b ∈ bs, 526 ≤ b.length ∧ b.length ≤ 65535) :
    ∃ out', hops bs out = some out' ∧ (Response.from_wire out' = .ok msg ∨ Response.from_wire out' = .ok msg.cut) := by
  cases bs with
  | nil => exact ⟨out, rfl, .inl h⟩
  | cons b bs =>
    obtain ⟨o, h1, h2, _⟩ := c109_hops out msg h (b :: bs) (List.cons_ne_nil _ _) hb
    exact ⟨o, h1, h2⟩

/-- what arrives is taken as C103 and C109 say -/
theorem receive_server (m : Build) (ops : List (TOp (List RRset))) (tree : Dom (List RRset)) (h : TreeReached m ops tree) (backing : List UInt8)
    (hst : ∀ ls v, TOp.insert ls (some v) ∈ ops → Stored backing.length v) (id : UInt16) (ls : List Label) (hv : ValidName ls)
    (ha : m = .debug → ∀ l ∈ ls, ∀ c ∈ l, c.toNat < 128) (t : RRType) (hb : (nameWire ls).length + 271 ≤ backing.length) (sent : List UInt8)
    (hs : Request.from_wire sent = .ok (Request.new id (ofLabels ls) t)) (bs : List (List UInt8)) (hbs : ∀ b ∈ bs, 526 ≤ b.length ∧ b.length ≤ 65535)
    (net : List UInt8 → List (List UInt8)) (hnet : Unforged (Server.through m tree backing bs) id ls t net) :
    ∃ o, Client.receive id ⟨ofLabels ls, t, .IN⟩ (net sent) = .ok o ∧
      (∀ msg, o = some msg → msg.header.id = id ∧ msg.question = ⟨ofLabels ls, t, .IN⟩ ∧
        (Tells (Table.empty.after ops) ls t msg ∨ (msg.header.is_flag_set .Truncation = true ∧ ∀ s, msg.section_ s = none)) ∧
        ((∀ b ∈ bs, backing.length ≤ b.length) → ClashFree (ofLabels ls :: Server.names (Server.known (Table.empty.after ops) (lowerName ls))) →
          (nameWire ls).length + 16 + ((Server.says (Server.known (Table.empty.after ops) (lowerName ls)) (lowerName ls) t .Answer ++
            Server.says (Server.known (Table.empty.after ops) (lowerName ls)) (lowerName ls) t .Authority).map factSize).sum ≤ backing.length →
          Tells (Table.empty.after ops) ls t msg)) ∧
      (Brings (Server.through m tree backing bs) net → ∃ msg, o = some msg) := by
  obtain ⟨out, m', a1, a2, a3, a4, a5, a6, a7, a8, a9⟩ := c103_serve m ops tree h backing hst sent _ hs ls hv rfl ha hb
  have a5 : m'.question = ⟨ofLabels ls, t, .IN⟩ := a5
  have a4 : m'.header.id = id := a4
  obtain ⟨out', p1, p2⟩ := through_ok a3 bs hbs
  have pt : Server.through m tree backing bs sent = .ok out' := by rw [Server.through, a1, Res.bind_ok, p1]
  have hcut : m'.cut.header.is_flag_set .QueryRespone = true := by
    have : m'.cut.header.is_flag_set .QueryRespone = m'.header.is_flag_set .QueryRespone :=
      ((c35_set_flag m'.header .Truncation true).1 .QueryRespone).trans (by simp)
    rw [this, a6]
  have hpl : Plausible id ls t out' := by
    rcases p2 with p2 | p2
    · exact ⟨m', p2, a4, by rw [a5, R53.labels_ofLabels hv], by rw [a5], by rw [a5], a6⟩
    · exact ⟨m'.cut, p2, a4, by show lowerName m'.question.name.labelList = _; rw [a5, R53.labels_ofLabels hv], by show m'.question.typ = _; rw [a5],
        by show m'.question.class_ = _; rw [a5], hcut⟩
  obtain ⟨o, h1, h2, h3⟩ := receive_ok id ls hv t (net sent)
  refine ⟨o, h1, fun msg hm => ?_, fun hbr => h3 ⟨out', hbr sent out' pt, hpl⟩⟩
  obtain ⟨raw, k1, k2, k3⟩ := h2 msg hm
  rcases hnet sent raw k1 with k | k
  · rw [pt] at k
    obtain rfl := Res.ok.inj k
    refine ⟨?_, ?_, ?_, fun c0 c1 c2 => ?_⟩
    · rcases p2 with p2 | p2 <;> rw [p2] at k2 <;> obtain rfl := Res.ok.inj k2 <;> exact a4
    · rcases p2 with p2 | p2 <;> rw [p2] at k2 <;> obtain rfl := Res.ok.inj k2 <;> exact a5
    · rcases p2 with p2 | p2 <;> rw [p2] at k2 <;> obtain rfl := Res.ok.inj k2
      · exact a8.imp (fun x => ⟨a7, x⟩) _root_.id
      · exact .inr ⟨((c35_set_flag m'.header .Truncation true).1 .Truncation).trans (by simp), fun s => by cases s <;> rfl⟩
    · have := serve_settled m ops tree h backing hst sent out a1 bs fun b hb => ⟨c0 b hb, (hbs b hb).2⟩
      rw [p1] at this
      obtain rfl := Option.some.inj this
      rw [a3] at k2
      obtain rfl := Res.ok.inj k2
      exact ⟨a7, a9 c1 c2⟩
  · exact absurd k3 k

/-- **C113**: a client asks a server (a tree after any history of operations) through any chains of forwarders, over a network that loses, repeats and delays messages and brings any other octets.
It never panics; what it gets, if anything, says exactly what the tree says, or is marked as truncated; and it gets exactly what the tree says if the networks bring what is sent to the client, the
second buffer has the room, and so have the forwarders of the second way -/
theorem c113_through (m : Build) (ops : List (TOp (List RRset))) (tree : Dom (List RRset)) (h : TreeReached m ops tree) (small large : List UInt8) (hle : small.length ≤ large.length)
    (hst : ∀ ls v, TOp.insert ls (some v) ∈ ops → Stored large.length v) (id : UInt16) (ls : List Label) (hv : ValidName ls)
    (ha : m = .debug → ∀ l ∈ ls, ∀ c ∈ l, c.toNat < 128) (t : RRType) (ht : RRType.new t.as_u16 = t) (hb : (nameWire ls).length + 271 ≤ small.length)
    (backing : List UInt8) (hc : (nameWire ls).length + 16 ≤ backing.length) (us ts : List (List UInt8)) (hus : ∀ b ∈ us, 526 ≤ b.length ∧ b.length ≤ 65535)
    (hts : ∀ b ∈ ts, 526 ≤ b.length ∧ b.length ≤ 65535) (udp tcp : List UInt8 → List (List UInt8))
    (hu : Unforged (Server.through m tree small us) id ls t udp) (ht' : Unforged (Server.through m tree large ts) id ls t tcp) :
    ∃ o, Client.lookup id ⟨ofLabels ls, t, .IN⟩ backing udp tcp = .ok o ∧
      (∀ msg, o = some msg → msg.header.id = id ∧ msg.question = ⟨ofLabels ls, t, .IN⟩ ∧
        (Tells (Table.empty.after ops) ls t msg ∨ (msg.header.is_flag_set .Truncation = true ∧ ∀ s, msg.section_ s = none))) ∧
      (Brings (Server.through m tree small us) udp → Brings (Server.through m tree large ts) tcp → (∀ b ∈ ts, large.length ≤ b.length) →
        ClashFree (ofLabels ls :: Server.names (Server.known (Table.empty.after ops) (lowerName ls))) →
        (nameWire ls).length + 16 + ((Server.says (Server.known (Table.empty.after ops) (lowerName ls)) (lowerName ls) t .Answer ++
          Server.says (Server.known (Table.empty.after ops) (lowerName ls)) (lowerName ls) t .Authority).map factSize).sum ≤ large.length →
        ∃ msg, o = some msg ∧ Tells (Table.empty.after ops) ls t msg) := by
  obtain ⟨sent, s1, s2⟩ := request_ok id ls hv t ht backing hc
  obtain ⟨o1, u1, u2, u3⟩ := receive_server m ops tree h small (fun ls v hi => (hst ls v hi).mono hle) id ls hv ha t hb sent s2 us hus udp hu
  obtain ⟨o2, t1, t2, t3⟩ := receive_server m ops tree h large hst id ls hv ha t (by omega) sent s2 ts hts tcp ht'
  unfold Client.lookup
  rw [s1, Res.bind_ok, u1, Res.bind_ok]
  cases o1 with
  | none =>
    refine ⟨none, rfl, fun _ h => (nomatch h), fun b1 _ _ _ _ => ?_⟩
    obtain ⟨_, h⟩ := u3 b1
    cases h
  | some msg =>
    obtain ⟨v1, v2, v3, _⟩ := u2 msg rfl
    dsimp only
    by_cases htc : msg.header.is_flag_set .Truncation = true
    · rw [if_pos htc]
      refine ⟨o2, t1, fun msg' h => ?_, fun _ b2 c0 c1 c2 => ?_⟩
      · obtain ⟨w1, w2, w3, _⟩ := t2 msg' h
        exact ⟨w1, w2, w3⟩
      · obtain ⟨msg', h⟩ := t3 b2
        obtain ⟨_, _, _, w⟩ := t2 msg' h
        exact ⟨msg', h, w c0 c1 c2⟩
    · rw [if_neg htc]
      refine ⟨some msg, rfl, fun msg' h => ?_, fun _ _ _ _ _ => ⟨msg, rfl, ?_⟩⟩
      · obtain rfl := Option.some.inj h
        exact ⟨v1, v2, v3⟩
      · rcases v3 with v3 | v3
        · exact v3
        · exact absurd v3.1 htc

theorem through_nil (m : Build) (tree : Dom (List RRset)) (backing : List UInt8) : Server.through m tree backing [] = fun raw => Server.serve m tree raw backing := by
  funext raw
  unfold Server.through
  cases Server.serve m tree raw backing <;> rfl

/-- the same without forwarders: a client asks a server over a network that loses, repeats and delays messages and brings any other octets. It never panics; what it
gets, if anything, says exactly what the tree says, or is marked as truncated; and it gets it if the network brings what the server sends and the second buffer has the room -/
theorem c113_lookup (m : Build) (ops : List (TOp (List RRset))) (tree : Dom (List RRset)) (h : TreeReached m ops tree) (small large : List UInt8) (hle : small.length ≤ large.length)
    (hst : ∀ ls v, TOp.insert ls (some v) ∈ ops → Stored large.length v) (id : UInt16) (ls : List Label) (hv : ValidName ls)
    (ha : m = .debug → ∀ l ∈ ls, ∀ c ∈ l, c.toNat < 128) (t : RRType) (ht : RRType.new t.as_u16 = t) (hb : (nameWire ls).length + 271 ≤ small.length)
    (backing : List UInt8) (hc : (nameWire ls).length + 16 ≤ backing.length) (udp tcp : List UInt8 → List (List UInt8))
    (hu : Unforged (fun raw => Server.serve m tree raw small) id ls t udp) (ht' : Unforged (fun raw => Server.serve m tree raw large) id ls t tcp) :
    ∃ o, Client.lookup id ⟨ofLabels ls, t, .IN⟩ backing udp tcp = .ok o ∧
      (∀ msg, o = some msg → msg.header.id = id ∧ msg.question = ⟨ofLabels ls, t, .IN⟩ ∧
        (Tells (Table.empty.after ops) ls t msg ∨ (msg.header.is_flag_set .Truncation = true ∧ ∀ s, msg.section_ s = none))) ∧
      (Brings (fun raw => Server.serve m tree raw small) udp → Brings (fun raw => Server.serve m tree raw large) tcp →
        ClashFree (ofLabels ls :: Server.names (Server.known (Table.empty.after ops) (lowerName ls))) →
        (nameWire ls).length + 16 + ((Server.says (Server.known (Table.empty.after ops) (lowerName ls)) (lowerName ls) t .Answer ++
          Server.says (Server.known (Table.empty.after ops) (lowerName ls)) (lowerName ls) t .Authority).map factSize).sum ≤ large.length →
        ∃ msg, o = some msg ∧ Tells (Table.empty.after ops) ls t msg) := by
  have := c113_through m ops tree h small large hle hst id ls hv ha t ht hb backing hc [] [] (fun _ h => nomatch h) (fun _ h => nomatch h) udp tcp
    (by rw [through_nil]; exact hu) (by rw [through_nil]; exact ht')
  simp only [through_nil] at this
  obtain ⟨o, h1, h2, h3⟩ := this
  exact ⟨o, h1, h2, fun b1 b2 => h3 b1 b2 fun _ h => nomatch h⟩

/-! ## the premises are met -/

/-- a network that brings octets of somebody else first, and then what the server sends, twice -/
def noisy (server : List UInt8 → Res (List UInt8)) (sent : List UInt8) : List (List UInt8) :=
  match server sent with
  | .ok out => [[0, 7], out, out]
  | _ => [[0, 7]]

theorem noisy_ok (server : List UInt8 → Res (List UInt8)) (id : UInt16) (ls : List Label) (t : RRType) : Unforged server id ls t (noisy server) ∧ Brings server (noisy server) := by
  have hbad : ¬ Plausible id ls t [0, 7] := by
    rintro ⟨m, h, _⟩
    have : Response.from_wire [0, 7] = .err := by decide +kernel
    rw [this] at h; cases h
  refine ⟨fun sent raw hr => ?_, fun sent out hs => by simp [noisy, hs]⟩
  unfold noisy at hr
  cases hs : server sent with
  | ok out =>
    rw [hs] at hr
    simp only [List.mem_cons, List.not_mem_nil, or_false, or_self] at hr
    rcases hr with rfl | rfl
    · exact .inr hbad
    · exact .inl rfl
  | err => rw [hs] at hr; exact .inr (List.mem_singleton.1 hr ▸ hbad)
  | panic => rw [hs] at hr; exact .inr (List.mem_singleton.1 hr ▸ hbad)

/-- a client that asks for `A.`, in a debug build, gets the address of `a.` from the server of `c103_example`, each time through a forwarder, with noise on the network; and nothing if all is lost -/
theorem c113_example : ∃ tree msg, TreeReached .debug ServerSample.ops tree ∧
    Client.lookup 7 ⟨ofLabels [[65]], .A, .IN⟩ (List.replicate 32 0) 
      (noisy (Server.through .debug tree (List.replicate 512 0) [List.replicate 526 255])) (noisy (Server.through .debug tree (List.replicate 4096 0) [List.replicate 4096 7])) = .ok (some msg) ∧
    msg.header.rcode = .NoError ∧ (msg.answer.sets.flatMap RRset.facts).Perm [([[97]], .A, ⟨.A, [.ip [1, 2, 3, 4]]⟩)] ∧
    Client.lookup 7 ⟨ofLabels [[65]], .A, .IN⟩ (List.replicate 32 0) (fun _ => []) (fun _ => []) = .ok none := by
  have hok : ∀ op ∈ ServerSample.ops, op.OK .debug := by
    intro op ho ls hls
    simp only [ServerSample.ops, List.mem_cons, List.not_mem_nil, or_false] at ho
    rcases ho with rfl | rfl | rfl <;> simp only [TOp.names, List.mem_singleton] at hls <;> subst hls <;> decide
  obtain ⟨tree, ht, _⟩ := c83_history .debug ServerSample.ops hok
  have htree : TreeReached .debug ServerSample.ops tree := ⟨hok, _, ht⟩
  have l1 : (List.replicate 512 (0 : UInt8)).length = 512 := List.length_replicate
  have l2 : (List.replicate 4096 (0 : UInt8)).length = 4096 := List.length_replicate
  have l3 : (List.replicate 32 (0 : UInt8)).length = 32 := List.length_replicate
  have hst : ∀ ls v, TOp.insert ls (some v) ∈ ServerSample.ops → Stored (List.replicate 4096 (0 : UInt8)).length v := by
    intro ls v hi
    rw [l2]
    simp only [ServerSample.ops, List.mem_cons, List.not_mem_nil, or_false, TOp.insert.injEq, Option.some.injEq, reduceCtorEq] at hi
    rcases hi with ⟨_, rfl⟩ | ⟨_, rfl⟩
    · refine ⟨fun s hs => ?_, by decide⟩
      simp only [List.mem_cons, List.not_mem_nil, or_false] at hs
      rcases hs with rfl | rfl
      · exact ⟨ExchangeSample.addr_fits _ rfl 4096 (by omega), by decide⟩
      · exact ⟨ExchangeSample.auth_fits 4096 (by omega), by decide⟩
    · exact ⟨fun s hs => (nomatch hs), by decide⟩
  have wl : (nameWire [[(65 : UInt8)]]).length = 3 := by decide
  have g1 : ∀ b ∈ [List.replicate 526 (255 : UInt8)], 526 ≤ b.length ∧ b.length ≤ 65535 := by
    intro b hb; rw [List.mem_singleton.1 hb, List.length_replicate]; omega
  have g2 : ∀ b ∈ [List.replicate 4096 (7 : UInt8)], 4096 ≤ b.length ∧ b.length ≤ 65535 := by
    intro b hb; rw [List.mem_singleton.1 hb, List.length_replicate]; omega
  obtain ⟨o, h1, _, h3⟩ := c113_through .debug ServerSample.ops tree htree (List.replicate 512 0) (List.replicate 4096 0) (by rw [l1, l2]; omega) hst 7 [[65]] (by decide)
    (fun _ => by decide) .A rfl (by rw [l1, wl]; omega) (List.replicate 32 0) (by rw [l3, wl]; omega)
    [List.replicate 526 255] [List.replicate 4096 7] g1 (fun b hb => ⟨by have := (g2 b hb).1; omega, (g2 b hb).2⟩) _ _ (noisy_ok _ _ _ _).1 (noisy_ok _ _ _ _).1
  obtain ⟨msg, rfl, h4, h5⟩ := h3 (noisy_ok _ 7 [[65]] .A).2 (noisy_ok _ 7 [[65]] .A).2 (fun b hb => by rw [l2]; exact (g2 b hb).1) (by decide +kernel) (by rw [l2]; decide +kernel)
  obtain ⟨sent, s1, _⟩ := request_ok 7 [[65]] (by decide) .A rfl (List.replicate 32 0) (by rw [l3, wl]; omega)
  refine ⟨tree, msg, htree, h1, ?_, ?_, ?_⟩
  · rw [h4]
    have : Server.known (Table.empty.after ServerSample.ops) (lowerName [[65]]) ≠ none := by decide +kernel
    rw [if_neg this]
  · have h5 := h5 .Answer
    have : Server.says (Server.known (Table.empty.after ServerSample.ops) (lowerName [[65]])) (lowerName [[65]]) .A .Answer = [([[97]], .A, ⟨.A, [.ip [1, 2, 3, 4]]⟩)] := by
      decide +kernel
    rwa [this] at h5
  · rw [Client.lookup, s1]; rfl

/-- a response with id and question of the client and no data -/
def forged : Response := ⟨⟨7, 0x8000, .Query, .NoError, 1, 0, 0, 0⟩, ⟨ofLabels [[65]], .A, .IN⟩, none, none, none⟩

/-- that nobody else guesses id and question is needed: the client cannot tell a forged response with its id and question from the server's, and says that `a.` has no address -/
theorem c113_forged : ∃ raw, Client.lookup 7 ⟨ofLabels [[65]], .A, .IN⟩ (List.replicate 32 0) (fun _ => [raw]) (fun _ => []) = .ok (some forged) ∧
    ¬ Tells (Table.empty.after ServerSample.ops) [[65]] .A forged := by
  have wl : (nameWire [[(65 : UInt8)]]).length = 3 := by decide
  have l3 : (List.replicate 32 (0 : UInt8)).length = 32 := List.length_replicate
  obtain ⟨sent, s1, _⟩ := request_ok 7 [[65]] (by decide) .A rfl (List.replicate 32 0) (by rw [l3, wl]; omega)
  have hf : forged.Fits := ⟨⟨⟨[[65]], by decide, rfl⟩, rfl, rfl⟩, trivial, trivial, trivial, by decide, rfl, rfl, rfl, rfl⟩
  have h := (c73_decodes .table forged hf []).2
  rw [List.append_nil] at h
  have ha : Client.accept 7 ⟨ofLabels [[65]], .A, .IN⟩ (forged.encodedBy .table) = .ok (some forged) := by
    unfold Client.accept
    rw [h]
    decide +kernel
  refine ⟨forged.encodedBy .table, ?_, fun ht => ?_⟩
  · have hr : Client.receive 7 ⟨ofLabels [[65]], .A, .IN⟩ [forged.encodedBy .table] = .ok (some forged) := by
      rw [Client.receive, ha]; rfl
    rw [Client.lookup, s1, Res.bind_ok, hr, Res.bind_ok]
    show (if _ then _ else _) = _
    rw [if_neg (by decide +kernel)]; rfl
  · have := (ht.2 .Answer).length_eq
    revert this
    decide +kernel

end R53
