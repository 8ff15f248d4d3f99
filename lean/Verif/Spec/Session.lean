import Verif.Spec.Server
/-!
# A name server that runs for long, for C112

Not code of /repo: a user's program with a `DomainTree` and one `MessageRender`, which it uses again for every answer after a `reset`.
-/
namespace R53

/-- what happens to the server: its data change, by one operation on the tree, or octets come in -/
inductive Event where
  | change (op : TOp (List RRset))
  | ask (raw : List UInt8)

/-- the response to a request (the first part of `Server.serve`) -/
def Server.reply (m : Build) (tree : Dom (List RRset)) (raw : List UInt8) : Res Response := do
  let q ← Request.from_wire raw
  let r ← tree.find m q.question.name
  let v ← r.get_value tree
  BOp.runAll (replyCalls q (Server.calls q.question.typ r.flag (v.getD []))) (Response.with_question 0 q.question.name q.question.typ)

/-- one step of the server; what it sends, if anything. The renderer is reset and used again -/
def Event.step (m : Build) : Event → St (Dom (List RRset) × Render) (Option (List UInt8))
  | .change op => fun (tree, r) =>
    match op.exec m tree with
    | (.ok _, tree) => (.ok none, tree, r)
    | (.err, tree) => (.err, tree, r)
    | (.panic, tree) => (.panic, tree, r)
  | .ask raw => fun (tree, r) =>
    match Server.reply m tree raw with
    | .ok msg =>
      match msg.to_wire r.reset with
      | (.ok _, r) => (.ok (some r.data), tree, r)
      | (.err, r) => (.ok none, tree, r)
      | (.panic, r) => (.panic, tree, r)
    | .err => (.ok none, tree, r)
    | .panic => (.panic, tree, r)

/-- the server: one event after the other -/
def Event.run (m : Build) : List Event → St (Dom (List RRset) × Render) (List (Option (List UInt8)))
  | [] => pure []
  | e :: es => do
    let a ← e.step m
    let as ← Event.run m es
    pure (a :: as)

/-- what should be sent for octets received, in a buffer of `n` octets, if the names and record sets are those of `M`: nothing if they are no request; else a response that the client
decodes, to its question and with its id, which says exactly what `M` says, or is flagged as truncated and empty; it is complete if the buffer holds it with all names
written out and no two of the names collide -/
def Answered (M : Table (List RRset)) (n : Nat) (raw : List UInt8) (sent : Option (List UInt8)) : Prop :=
  (Request.from_wire raw = .err ∧ sent = none) ∨
  ∃ q out msg, Request.from_wire raw = .ok q ∧ sent = some out ∧ out.length ≤ n ∧ Response.from_wire out = .ok msg ∧
    msg.header.id = q.header.id ∧ msg.question = q.question ∧ msg.header.is_flag_set .QueryRespone = true ∧
    msg.header.rcode = (if Server.known M (lowerName q.question.name.labelList) = none then .Refused else .NoError) ∧
    ((∀ t, ((msg.section_ t).sets.flatMap RRset.facts).Perm
        (Server.says (Server.known M (lowerName q.question.name.labelList)) (lowerName q.question.name.labelList) q.question.typ t)) ∨
      (msg.header.is_flag_set .Truncation = true ∧ ∀ t, msg.section_ t = none)) ∧
    (ClashFree (q.question.name :: Server.names (Server.known M (lowerName q.question.name.labelList))) →
      q.question.name.raw.length + 16 +
        ((Server.says (Server.known M (lowerName q.question.name.labelList)) (lowerName q.question.name.labelList) q.question.typ .Answer ++
          Server.says (Server.known M (lowerName q.question.name.labelList)) (lowerName q.question.name.labelList) q.question.typ .Authority).map factSize).sum ≤ n →
      ∀ t, ((msg.section_ t).sets.flatMap RRset.facts).Perm
        (Server.says (Server.known M (lowerName q.question.name.labelList)) (lowerName q.question.name.labelList) q.question.typ t))

/-- what should be sent for all the events: for each request what the table says at that time -/
def AllAnswered (n : Nat) : Table (List RRset) → List Event → List (Option (List UInt8)) → Prop
  | _, [], [] => True
  | M, .change op :: es, s :: ss => s = none ∧ AllAnswered n (M.step op).2 es ss
  | M, .ask raw :: es, s :: ss => Answered M n raw s ∧ AllAnswered n M es ss
  | _, _, _ => False

/-- the events are such that C103 speaks of: the names put into the tree are ASCII (in a debug build all names), the sets can be sent -/
def Event.OK (m : Build) (n : Nat) : Event → Prop
  | .change op => op.OK m ∧ ∀ ls v, op = .insert ls (some v) → Stored n v
  | .ask raw => m = .debug → ∀ q, Request.from_wire raw = .ok q → ∀ l ∈ q.question.name.labelList, ∀ c ∈ l, c.toNat < 128

end R53
