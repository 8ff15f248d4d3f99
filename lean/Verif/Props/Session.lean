import Verif.Spec.Session
import Verif.Props.Zone
import Verif.Props.Blind
/-!
# C112: a server that runs for long
-/
namespace R53
open Name (ofLabels)

theorem TOp.run_snoc {T : Type} (m : Build) (op : TOp T) : ∀ (ops : List (TOp T)) (s s1 s2 : Dom T) (outs : List (Option T)) (a : Option T), TOp.run m ops s = (.ok outs, s1) →
    op.exec m s1 = (.ok a, s2) → TOp.run m (ops ++ [op]) s = (.ok (outs ++ [a]), s2)
  | [], s, s1, s2, outs, a, h1, h2 => by
    cases h1
    show (do let a ← op.exec m; let as ← TOp.run m []; pure (a :: as)) s = _
    rw [St.bind_ok h2]; rfl
  | o :: ops, s, s1, s2, outs, a, h1, h2 => by
    rw [TOp.run] at h1
    obtain ⟨b, s3, e1, h1⟩ := St.bind_ok_inv h1
    obtain ⟨bs, s4, e2, h1⟩ := St.bind_ok_inv h1
    cases h1
    have := TOp.run_snoc m op ops s3 s1 s2 bs a e2 h2
    rw [List.cons_append, TOp.run, St.bind_ok e1, St.bind_ok this]
    rfl

theorem TreeReached.snoc {T : Type} {m : Build} {ops : List (TOp T)} {s : Dom T} (h : TreeReached m ops s) (op : TOp T) (hop : op.OK m) :
    ∃ a s', op.exec m s = (.ok a, s') ∧ TreeReached m (ops ++ [op]) s' := by
  obtain ⟨t, hs⟩ := h.shown
  obtain ⟨a, s', e, _⟩ := Dom.exec_table (m := m) hs hop
  obtain ⟨hok, outs, e0⟩ := h
  refine ⟨a, s', e, fun o ho => ?_, outs ++ [a], TOp.run_snoc m op ops _ _ _ _ _ e0 e⟩
  rcases List.mem_append.1 ho with ho | ho
  · exact hok o ho
  · rw [List.mem_singleton] at ho; subst ho; exact hop

theorem serve_reply (m : Build) (tree : Dom (List RRset)) (raw backing : List UInt8) : Server.serve m tree raw backing =
    (Server.reply m tree raw).bind fun msg => match msg.to_wire (Render.new backing) with
      | (.ok _, r) => .ok r.data
      | (.err, _) => .err
      | (.panic, _) => .panic := by
  unfold Server.serve Server.reply
  cases Request.from_wire raw with
  | err => rfl
  | panic => rfl
  | ok q =>
    simp only [Res.bind_ok]
    cases tree.find m q.question.name with
    | err => rfl
    | panic => rfl
    | ok r =>
      simp only [Res.bind_ok]
      cases r.get_value tree with
      | err => rfl
      | panic => rfl
      | ok v => rfl

/-- the replies can be sent -/
theorem reply_fits (m : Build) (ops : List (TOp (List RRset))) (tree : Dom (List RRset)) (h : TreeReached m ops tree) (n : Nat)
    (hst : ∀ ls v, TOp.insert ls (some v) ∈ ops → Stored n v) (raw : List UInt8) (msg : Response) (hr : Server.reply m tree raw = .ok msg) : msg.tidy.FitsIn n := by
  have hkept := Table.kept (fun v => Stored n v) ops Table.empty (fun x hx => by cases hx) hst
  have nothing : Stored n [] := ⟨fun s hs => (nomatch hs), by simp⟩
  unfold Server.reply at hr
  obtain ⟨q, hq, hr⟩ := Res.bind_eq_ok.1 hr
  obtain ⟨r, hf, hr⟩ := Res.bind_eq_ok.1 hr
  obtain ⟨v, hv, hr⟩ := Res.bind_eq_ok.1 hr
  obtain ⟨_, _, ⟨ls, hvl, hn⟩, _⟩ := c56_checks_partial raw q hq
  rw [hn] at hf
  obtain ⟨f1, f2⟩ := c83_find_told m ops tree h ls hvl r hf
  have hs : Stored n (v.getD []) := by
    cases hc : (Table.empty.after ops).nodes.closest (lowerName ls) with
    | none =>
      obtain rfl := f1 hc
      cases hv
      exact nothing
    | some k =>
      obtain ⟨p, x, rfl, _, g2, g3⟩ := f2 k hc
      have hval : (Table.empty.after ops).valueOf k = x.value := by rw [Table.valueOf, g3]; rfl
      have hvn : v = x.value := by
        unfold Dom.FindResult.get_value at hv
        rw [if_neg (by dsimp only; split <;> simp), g2] at hv
        exact (Res.ok.inj hv).symm
      subst hvn
      cases hx : x.value with
      | none => exact nothing
      | some w => exact Table.valueOf_kept (P := fun v => Stored n v) hkept (hval.trans hx)
  have hlen : (List.replicate n (0 : UInt8)).length = n := List.length_replicate
  obtain ⟨msg', a1, a2, _⟩ := served_any hs raw q hq r.flag (List.replicate n 0) hlen
  rw [hr] at a1
  obtain rfl := Res.ok.inj a1
  rw [hlen] at a2
  exact a2

/-- one request, in the middle of the life of the server -/
theorem ask_step (m : Build) (ops : List (TOp (List RRset))) (tree : Dom (List RRset)) (h : TreeReached m ops tree) (n : Nat) (hn : 526 ≤ n)
    (hst : ∀ ls v, TOp.insert ls (some v) ∈ ops → Stored n v) (r : Render) (hr : Served n r) (raw : List UInt8) (hok : (Event.ask raw).OK m n) :
    ∃ sent r', (Event.ask raw).step m (tree, r) = (.ok sent, tree, r') ∧ Served n r' ∧ Answered (Table.empty.after ops) n raw sent := by
  rcases c43_request_total raw with e | ⟨q, e, _⟩
  · refine ⟨none, r, ?_, hr, .inl ⟨e, rfl⟩⟩
    have : Server.reply m tree raw = .err := by unfold Server.reply; rw [e]; rfl
    simp only [Event.step, this]
  obtain ⟨_, _, ⟨ls, hv, hname⟩, _⟩ := c56_checks_partial raw q e
  have hlist : q.question.name.labelList = ls := by rw [hname, R53.labels_ofLabels hv]
  obtain ⟨x1, x2⟩ := hr.shaped.reset
  generalize hx : r.buffer.data = x at x1 x2
  subst x2
  obtain ⟨out, msg', a1, a2, a3, a4, a5, a6, a7, a8, a9⟩ := c103_serve m ops tree h x hst raw q e ls hv hname (fun hm => by
    have := hok hm q e
    rwa [hlist] at this) (by have := hv.2; omega)
  rw [serve_reply] at a1
  cases hrep : Server.reply m tree raw with
  | err => rw [hrep] at a1; cases a1
  | panic => rw [hrep] at a1; cases a1
  | ok msg =>
    rw [hrep] at a1
    replace a1 : (match msg.to_wire (Render.new x) with
      | (.ok _, r) => Res.ok r.data
      | (.err, _) => .err
      | (.panic, _) => .panic) = .ok out := a1
    generalize hw : msg.to_wire (Render.new x) = w at a1
    obtain ⟨y, rr⟩ := w
    cases y with
    | err => cases a1
    | panic => cases a1
    | ok k =>
      obtain rfl := Res.ok.inj a1
      have hw' : msg.to_wire r.reset = (.ok k, rr) := by rw [x1]; exact hw
      refine ⟨some rr.data, rr, ?_, ?_, .inr ⟨q, rr.data, msg', e, rfl, a2, a3, a4, a5, a6, ?_⟩⟩
      · simp only [Event.step, hrep, hw']
      · have ht := (reply_fits m ops tree h x.length hst raw msg hrep).typed
        have := Served.sent msg.tidy hr ht (by rw [msg.tidy_to_wire, hw']; simp)
        rwa [msg.tidy_to_wire, hw'] at this
      · rw [hlist]
        refine ⟨a7, a8, fun hcf hsz => a9 hcf ?_⟩
        rw [hname, Name.ofLabels_raw, ← nameWire_eq] at hsz
        exact hsz

theorem session_from (m : Build) (n : Nat) (hn : 526 ≤ n) : ∀ (es : List Event) (ops : List (TOp (List RRset))) (tree : Dom (List RRset)) (r : Render),
    TreeReached m ops tree → (∀ ls v, TOp.insert ls (some v) ∈ ops → Stored n v) → Served n r → (∀ e ∈ es, e.OK m n) →
    ∃ sent s', Event.run m es (tree, r) = (.ok sent, s') ∧ AllAnswered n (Table.empty.after ops) es sent
  | [], ops, tree, r, _, _, _, _ => ⟨[], (tree, r), rfl, trivial⟩
  | .change op :: es, ops, tree, r, h, hst, hr, ho => by
    have h1 := ho (.change op) (by simp)
    obtain ⟨a, tree1, e1, h2⟩ := h.snoc op h1.1
    obtain ⟨sent, s', e2, h3⟩ := session_from m n hn es (ops ++ [op]) tree1 r h2 (fun ls v hi => by
      rcases List.mem_append.1 hi with hi | hi
      · exact hst ls v hi
      · rw [List.mem_singleton] at hi; exact h1.2 ls v hi.symm) hr fun e he => ho e (by simp [he])
    have e3 : (Event.change op).step m (tree, r) = (.ok none, tree1, r) := by simp only [Event.step, e1]
    refine ⟨none :: sent, s', ?_, rfl, ?_⟩
    · rw [Event.run, St.bind_ok e3, St.bind_ok e2]; rfl
    · have : Table.empty.after (ops ++ [op]) = ((Table.empty.after ops).step op).2 := Table.after_snoc ops _ op
      rw [this] at h3; exact h3
  | .ask raw :: es, ops, tree, r, h, hst, hr, ho => by
    obtain ⟨a, r1, e1, h2, h3⟩ := ask_step m ops tree h n hn hst r hr raw (ho (.ask raw) (by simp))
    obtain ⟨sent, s', e2, h4⟩ := session_from m n hn es ops tree r1 h hst h2 fun e he => ho e (by simp [he])
    refine ⟨a :: sent, s', ?_, h3, h4⟩
    rw [Event.run, St.bind_ok e1, St.bind_ok e2]; rfl

/-- **C112**. A server that starts with an empty tree and a buffer of at least 526 octets, whatever is in them: any sequence of changes of its data and of octets coming in, in any order. It
never panics, and answers every request with what its data say at that time, not with anything from before; octets that are no request it does not answer. -/
theorem c112_session (m : Build) (n : Nat) (hn : 526 ≤ n) (before : List UInt8) (hb : before.length = n) (es : List Event) (ho : ∀ e ∈ es, e.OK m n) :
    ∃ sent s', Event.run m es (Dom.new, Render.new before) = (.ok sent, s') ∧ AllAnswered n Table.empty es sent :=
  session_from m n hn es [] Dom.new (Render.new before) ⟨fun _ h => (nomatch h), [], rfl⟩ (fun _ _ h => (nomatch h)) (.new before hb) ho

/-- the premises are met: a question for `A.`, the data of `a.`, the question again, the node of `a.` removed, the question a third time, octets that are no request. What should be
said changes every time: refused, the address, refused again -/
theorem c112_example : ∃ raw q, Request.from_wire raw = .ok q ∧ q.question = ⟨ofLabels [[65]], .A, .IN⟩ ∧
    (∀ e ∈ [Event.ask raw, .change (.insert [[97]] (some [ExchangeSample.addr [1, 2, 3, 4], ExchangeSample.auth])), .ask raw, .change (.removeNode [[97]]), .ask raw, .ask [1, 2, 3]],
      e.OK .debug 526) ∧
    Request.from_wire [1, 2, 3] = .err ∧
    Server.known (Table.empty : Table (List RRset)) (lowerName [[65]]) = none ∧
    Server.says (Server.known (Table.empty.after [.insert [[97]] (some [ExchangeSample.addr [1, 2, 3, 4], ExchangeSample.auth])]) (lowerName [[65]])) (lowerName [[65]]) .A .Answer =
      [([[97]], .A, ⟨.A, [.ip [1, 2, 3, 4]]⟩)] ∧
    Server.known (Table.empty.after [.insert [[97]] (some [ExchangeSample.addr [1, 2, 3, 4], ExchangeSample.auth]), .removeNode [[97]]]) (lowerName [[65]]) = none := by
  obtain ⟨f1, f2, f3, f4, _⟩ := c56_new 7 [[65]] (by decide) .A rfl
  obtain ⟨raw, hraw⟩ : ∃ raw, Request.from_wire raw = .ok (Request.new 7 (ofLabels [[65]]) .A) := by
    rcases c56_roundtrip _ f1 f2 f3 f4 (List.replicate 32 0) with h | ⟨n, r, _, _, _, h⟩
    · obtain ⟨r, this, _⟩ := (c56_exact (Request.new 7 (ofLabels [[65]]) .A) [[65]] (by decide) rfl (List.replicate 32 0)).1 (by decide)
      rw [this] at h; cases h
    · exact ⟨_, h []⟩
  have bad : Request.from_wire [1, 2, 3] = .err := by decide +kernel
  have hask : (Event.ask raw).OK .debug 526 := fun _ q hq => by
    rw [hraw] at hq
    obtain rfl := Res.ok.inj hq
    decide +kernel
  have hbad : (Event.ask [1, 2, 3]).OK .debug 526 := fun _ q hq => by rw [bad] at hq; cases hq
  refine ⟨raw, _, hraw, rfl, fun e he => ?_, bad, by decide +kernel, by decide +kernel, by decide +kernel⟩
  simp only [List.mem_cons, List.not_mem_nil, or_false] at he
  rcases he with rfl | rfl | rfl | rfl | rfl | rfl
  · exact hask
  · refine ⟨fun ls hl => ?_, fun ls v hi => ?_⟩
    · simp only [TOp.names, List.mem_singleton] at hl; subst hl; decide
    · rw [TOp.insert.injEq, Option.some.injEq] at hi
      obtain ⟨_, rfl⟩ := hi
      refine ⟨fun s hs => ?_, by decide⟩
      simp only [List.mem_cons, List.not_mem_nil, or_false] at hs
      rcases hs with rfl | rfl
      · exact ⟨ExchangeSample.addr_fits _ rfl 526 (by omega), by decide⟩
      · exact ⟨ExchangeSample.auth_fits 526 (by omega), by decide⟩
  · exact hask
  · refine ⟨fun ls hl => ?_, fun ls v hi => by cases hi⟩
    simp only [TOp.names, List.mem_singleton] at hl; subst hl; decide
  · exact hask
  · exact hbad

end R53
