import Verif.Proofs.Blind
import Verif.Props.Render
import Verif.Props.Decode
/-!
# C94: nothing of what a buffer held before gets into a message

Two buffers of the same size, whatever octets they hold: encoding answers the same and sends the same octets.
-/
namespace R53

/-- **C94**, responses: the answer of `to_wire`, a panic or an error included, and the octets sent depend on the message and
the size of the buffer only. No condition on the names: suffixes that collide in the compression table included. -/
theorem c94_response (m : Response) (hm : m.Typed) (before before' : List UInt8) (h : before.length = before'.length) :
    (m.to_wire (Render.new before)).1 = (m.to_wire (Render.new before')).1 ∧
      ∀ n, (m.to_wire (Render.new before)).1 = .ok n →
        (m.to_wire (Render.new before)).2.data = (m.to_wire (Render.new before')).2.data :=
  Response.to_wire_blind hm h

/-- the same for queries -/
theorem c94_request (q : Request) (hq : ∃ ls, ValidName ls ∧ q.question.name = Name.ofLabels ls) (before before' : List UInt8)
    (h : before.length = before'.length) :
    (q.to_wire (Render.new before)).1 = (q.to_wire (Render.new before')).1 ∧
      ∀ n, (q.to_wire (Render.new before)).1 = .ok n → (q.to_wire (Render.new before)).2.data = (q.to_wire (Render.new before')).2.data := by
  refine Blind.freshLen ((Blind.header q.header).seq (Blind.question hq)) (fun r => ?_) h
  unfold Request.to_wire
  rcases h1 : q.header.to_wire r with ⟨x | _ | _, r1⟩
  · rw [St.bind_ok h1, St.bind_apply, St.bind_apply, St.bind_apply, h1]
  · rw [St.bind_err h1, St.bind_err (St.bind_err h1)]
  · rw [St.bind_panic h1, St.bind_panic (St.bind_panic h1)]

/-- NOTIFY requests, with or without a SOA record -/
theorem c94_notify (q : NotifyRequest) (hq : ∃ ls, ValidName ls ∧ q.question.name = Name.ofLabels ls) (hs : ∀ s, q.soa = some s → s.Typed)
    (before before' : List UInt8) (h : before.length = before'.length) :
    (q.to_wire (Render.new before)).1 = (q.to_wire (Render.new before')).1 ∧
      ∀ n, (q.to_wire (Render.new before)).1 = .ok n → (q.to_wire (Render.new before)).2.data = (q.to_wire (Render.new before')).2.data := by
  have hb : Blind (match q.soa with | none => pure () | some soa => soa.to_wire) := by
    cases hsoa : q.soa with
    | none => exact Blind.pure
    | some s => exact Blind.rrset (hs s hsoa)
  refine Blind.freshLen ((Blind.header q.header).seq ((Blind.question hq).seq hb)) (fun r => ?_) h
  unfold NotifyRequest.to_wire
  rcases h1 : q.header.to_wire r with ⟨x | _ | _, r1⟩
  · rw [St.bind_ok h1, St.bind_apply, St.bind_apply, St.bind_apply, h1]
    simp only
    rcases h2 : q.question.to_wire r1 with ⟨y | _ | _, r2⟩
    · rw [St.bind_ok h2]
      cases q.soa <;> rfl
    · rw [St.bind_err h2]
    · rw [St.bind_panic h2]
  · rw [St.bind_err h1, St.bind_err (St.bind_err h1)]
  · rw [St.bind_panic h1, St.bind_panic (St.bind_panic h1)]

/-- a record set by itself -/
theorem c94_rrset (s : RRset) (hs : s.Typed) (before before' : List UInt8) (h : before.length = before'.length) :
    (s.to_wire (Render.new before)).1 = (s.to_wire (Render.new before')).1 ∧
      ((s.to_wire (Render.new before)).1 = .ok () → (s.to_wire (Render.new before)).2.data = (s.to_wire (Render.new before')).2.data) ∧
      (s.to_wire (Render.new before)).2.data.length = (s.to_wire (Render.new before')).2.data.length :=
  (Blind.rrset hs).fresh h

/-- a renderer on a buffer of `n` octets that has sent some messages, each after a `reset`, not all of which fitted -/
inductive Served (n : Nat) : Render → Prop
  | new (before : List UInt8) : before.length = n → Served n (Render.new before)
  | sent {r : Render} (m : Response) : Served n r → m.Typed → (m.to_wire r.reset).1 ≠ .panic → Served n (m.to_wire r.reset).2

theorem Served.shaped {n : Nat} {r : Render} (h : Served n r) : Shaped n r := by
  induction h with
  | new b hb => rw [← hb]; exact Shaped.new b
  | @sent r m _ hm hp ih =>
    obtain ⟨h1, h2⟩ := ih.reset
    rw [h1] at hp ⊢
    rw [← h2]
    exact Shaped.sent hm _ hp

/-- **C94**, history: after any number of other messages, cut short, refused or complete, a message is sent by a reset renderer
exactly as by a new one on a buffer of zeros -/
theorem c94_history (n : Nat) (r : Render) (hr : Served n r) (m : Response) (hm : m.Typed) :
    (m.to_wire r.reset).1 = (m.to_wire (Render.new (List.replicate n 0))).1 ∧
      ∀ k, (m.to_wire r.reset).1 = .ok k → (m.to_wire r.reset).2.data = (m.to_wire (Render.new (List.replicate n 0))).2.data := by
  obtain ⟨h1, h2⟩ := hr.shaped.reset
  rw [h1]
  exact c94_response m hm _ _ (by rw [h2, List.length_replicate])

/-- the same after any other use of the renderer -/
theorem c94_reused {before : List UInt8} {h : Hist} (hr : Reached before h) (m : Response) (hm : m.Typed) :
    (m.to_wire h.r.reset).1 = (m.to_wire (Render.new (List.replicate before.length 0))).1 ∧
      ∀ k, (m.to_wire h.r.reset).1 = .ok k →
        (m.to_wire h.r.reset).2.data = (m.to_wire (Render.new (List.replicate before.length 0))).2.data := by
  obtain ⟨h1, h2⟩ := c29_reset hr
  rw [h1]
  exact c94_response m hm _ _ (by rw [h2, List.length_replicate])

theorem spelledMsg_typed : spelledMsg.Typed := by
  refine ⟨⟨[[97]], by decide, rfl⟩, ?_⟩
  intro t sets hs s hx
  cases t <;> simp [Response.section_, spelledMsg] at hs
  subst hs
  simp only [List.mem_singleton] at hx
  subst hx
  refine ⟨⟨[[97]], by decide, rfl⟩, ?_⟩
  intro rd hrd
  simp only [List.mem_singleton] at hrd
  subst hrd
  exact ⟨_, rfl, trivial, ⟨[[98], [97]], by decide, rfl⟩, trivial⟩

/-- the premises are met: a renderer on 37 octets of rubbish has sent a message and sends it again, and so on; it is complete
every time -/
theorem c94_example : (∃ r, Served 37 r ∧ Served 37 (spelledMsg.to_wire r.reset).2) ∧
    ∀ r, Served 37 r → (spelledMsg.to_wire r.reset).1 = .ok 37 ∧ (spelledMsg.to_wire r.reset).2.data = spelledOctets.take 37 := by
  have v1 : (spelledMsg.to_wire (Render.new (List.replicate 37 0))).1 = .ok 37 := by decide +kernel
  have v2 : (spelledMsg.to_wire (Render.new (List.replicate 37 0))).2.data = spelledOctets.take 37 := by decide +kernel
  have all : ∀ r, Served 37 r → (spelledMsg.to_wire r.reset).1 = .ok 37 ∧ (spelledMsg.to_wire r.reset).2.data = spelledOctets.take 37 := by
    intro r hr
    have a := c94_history 37 r hr spelledMsg spelledMsg_typed
    have a1 := a.1.trans v1
    exact ⟨a1, (a.2 37 a1).trans v2⟩
  refine ⟨?_, all⟩
  have h0 : Served 37 (Render.new (List.replicate 37 0xaa)) := .new _ (by simp)
  generalize Render.new (List.replicate 37 0xaa) = r at h0
  exact ⟨r, h0, Served.sent spelledMsg h0 spelledMsg_typed (by rw [(all r h0).1]; simp)⟩

/-- Why the octets are compared after a success only: when a record set does not fit, `data` shows the two octets left free for
the length, and they are what the buffer held before. -/
theorem c94_refused_example :
    let s : RRset := ⟨Name.ofLabels [[97]], .MX, .IN, 60, [⟨.MX, [.u16 10, .name (Name.ofLabels [[98], [97]])]⟩]⟩
    (s.to_wire (Render.new (List.replicate 14 0xaa))).1 = .err ∧
      (s.to_wire (Render.new (List.replicate 14 0xaa))).2.data = [1, 97, 0, 0, 15, 0, 1, 0, 0, 0, 60, 0xaa, 0xaa] := by
  decide +kernel

end R53
