import Verif.Spec.Exchange
import Verif.Spec.Nodes
import Verif.Props.Tree
import Verif.Model.Std
/-!
# A name server written with the library, for C103

Not code of /repo: the program of a user, who keeps record sets in a `DomainTree` under their names and answers requests from it. It is there to say that the
parts of the library work together.
-/
namespace R53

/-- the calls for what the tree says about the name asked for: the sets of the type asked for; from above the name only who knows more; else nothing -/
def Server.calls (typ : RRType) (flag : Dom.FindFlag) (v : List RRset) : List BOp :=
  match flag with
  | .ExactMatch => (v.filter fun s => s.typ = typ).map (.add .Answer)
  | .PartialMatch => (v.filter fun s => s.typ = .NS).map (.add .Authority)
  | .NotFound => [.rcode .Refused]

/-- the server: decode the request, look its name up, build the response, send it -/
def Server.serve (m : Build) (tree : Dom (List RRset)) (raw : List UInt8) (backing : List UInt8) : Res (List UInt8) := do
  let q ← Request.from_wire raw
  let r ← tree.find m q.question.name
  let v ← r.get_value tree
  let msg ← BOp.runAll (replyCalls q (Server.calls q.question.typ r.flag (v.getD []))) (Response.with_question 0 q.question.name q.question.typ)
  match msg.to_wire (Render.new backing) with
  | (.ok _, r) => .ok r.data
  | (.err, _) => .err
  | (.panic, _) => .panic

/-- record sets that can be kept for a name and sent in a buffer of `L` octets: they fit, none is OPT, and there are not more records than a section can count -/
structure Stored (L : Nat) (v : List RRset) : Prop where
  fits : ∀ s ∈ v, s.FitsIn L ∧ s.typ ≠ .OPT
  count : (v.flatMap RRset.facts).length ≤ 65535

/-- what a response to a request should say in section `t`, given what is known: the sets of the name of the type asked for; the name servers of the closest name above; nothing -/
def Server.says (known : Option (List Label × List RRset)) (name : List Label) (typ : RRType) (t : SectionType) : List (List Label × RRType × RData) :=
  match known with
  | none => []
  | some (k, v) =>
    if k = name then (if t = .Answer then (v.filter fun s => s.typ = typ).flatMap RRset.facts else [])
    else (if t = .Authority then (v.filter fun s => s.typ = .NS).flatMap RRset.facts else [])

/-- what a table of names and record sets knows about a name: the longest end of it that has a node, with its sets -/
def Server.known (M : Table (List RRset)) (name : List Label) : Option (List Label × List RRset) :=
  (M.nodes.closest name).map fun k => (k, (M.valueOf k).getD [])

/-- the names in what is known -/
def Server.names (known : Option (List Label × List RRset)) : List Name :=
  match known with
  | none => []
  | some (_, v) => v.flatMap RRset.names

/-! ## loading a zone, for C104 -/

/-- a user's program that loads a zone: each group of lines is read as a record set, which is put behind the sets that its owner already has -/
def Server.load (m : Build) : List (List (List UInt8)) → St (Dom (List RRset)) Unit
  | [] => pure ()
  | g :: gs => do
    let set ← St.lift (RRset.from_strs stdExt m g)
    let tree ← St.get
    let r ← St.lift (tree.find m set.name)
    let v ← St.lift (if r.flag = .ExactMatch then r.get_value tree else .ok none)
    let _ ← Dom.insert m set.name (some (v.getD [] ++ [set]))
    Server.load m gs

/-! ## learning from responses, for C110 -/

/-- a user's program that puts record sets behind those that their owners already have -/
def Server.keep (m : Build) : List RRset → St (Dom (List RRset)) Unit
  | [] => pure ()
  | set :: sets => do
    let tree ← St.get
    let r ← St.lift (tree.find m set.name)
    let v ← St.lift (if r.flag = .ExactMatch then r.get_value tree else .ok none)
    let _ ← Dom.insert m set.name (some (v.getD [] ++ [set]))
    Server.keep m sets

/-- the sets of all sections of a message but its OPT -/
def Server.told (msg : Response) : List RRset :=
  (msg.answer.getD [] ++ (msg.authority.getD [] ++ msg.additional.getD [])).filter fun s => s.typ ≠ .OPT

/-- a user's program that decodes responses as they are received and keeps what they say -/
def Server.learn (m : Build) : List (List UInt8) → St (Dom (List RRset)) Unit
  | [] => pure ()
  | raw :: rest => do
    let msg ← St.lift (Response.from_wire raw)
    Server.keep m (Server.told msg)
    Server.learn m rest

/-- the sets of an owner (in lower case) -/
def setsOf (sets : List RRset) (owner : List Label) : List RRset := sets.filter fun s => lowerName s.name.labelList = owner

end R53
