import Verif.Model.Text
import Verif.Model.Message
/-!
# Model of the `Display` impls of headers, questions, EDNS and messages

`write!` and `writeln!` append to the text; the formatter itself does not fail.
-/
namespace R53

/-- `Display` of a flag header_flag.rs:40-44, each behind a space as in header.rs:112-114 -/
def HeaderFlag.spaced (f : HeaderFlag) : List UInt8 := 32 :: f.to_str

/-- `Display for Header` header.rs:104-121 -/
def Header.to_string (h : Header) : List UInt8 :=
  ascii ";; ->>HEADER<<- opcode: " ++ h.opcode.to_str ++ ascii ", status: " ++ h.rcode.to_str ++ ascii ", id: " ++
    decimal h.id.toNat ++ ascii "\n" ++
  ascii ";; flags: " ++ h.setted_flags.flatMap HeaderFlag.spaced ++ ascii "; " ++
  ascii "QUERY: " ++ decimal h.qd_count.toNat ++ ascii ", " ++
  ascii "ANSWER: " ++ decimal h.an_count.toNat ++ ascii ", " ++
  ascii "AUTHORITY: " ++ decimal h.ns_count.toNat ++ ascii ", " ++
  ascii "ADDITIONAL: " ++ decimal h.ar_count.toNat ++ ascii ", "

/-- `Display for Question` question.rs:39-43 -/
def Question.to_string (q : Question) : Res (List UInt8) := do
  let n ← q.name.to_string
  pure (n ++ ascii " " ++ q.class_.to_str ++ ascii " " ++ q.typ.to_str)

/-- `Display for Edns` edns.rs:78-86 -/
def Edns.to_string (e : Edns) : List UInt8 :=
  ascii "; EDNS: version: " ++ decimal e.version.toNat ++ ascii ", " ++
  (if e.dnssec_aware then ascii "flags: do; " else []) ++ ascii "udp: " ++ decimal e.udp_size.toNat

/-- the closure of response.rs:87-93, collected: a set is written unless it is an OPT record -/
def Section.showSets (x : Ext) : List RRset → Res (List UInt8)
  | [] => .ok []
  | s :: ss => do
    let t ← if s.typ ≠ .OPT then s.to_string x else .ok []
    let ts ← showSets x ss
    pure (t ++ ts)

/-- `Display for Section` response.rs:82-99 -/
def Section.to_string (x : Ext) : Section → Res (List UInt8)
  | some rrsets => showSets x rrsets
  | none => .ok []

/-- the `if let Some(edns)` of response.rs:215-217 -/
def Response.showEdns : Option Edns → List UInt8
  | some edns => ascii ";; OPT PSEUDOSECTION:\n" ++ edns.to_string
  | none => []

/-- one `if` of response.rs:221-231: title, section and `tail`, when the header counts records there -/
def Response.showSection (x : Ext) (count : UInt16) (title : List UInt8) (s : Section) (tail : List UInt8) : Res (List UInt8) :=
  if count > 0 then do
    let t ← s.to_string x
    pure (title ++ t ++ tail)
  else .ok []

/-- `Display for Response` response.rs:212-234 -/
def Response.to_string (x : Ext) (m : Response) : Res (List UInt8) := do
  let edns ← m.get_edns
  let q ← m.question.to_string
  let a ← showSection x m.header.an_count (ascii ";; ANSWER SECTION:\n") m.answer (ascii "\n")
  let n ← showSection x m.header.ns_count (ascii ";; AUTHORITY SECTION:\n") m.authority (ascii "\n")
  let d ← showSection x m.header.ar_count (ascii ";; ADDITIONAL SECTION:\n") m.additional []
  pure (m.header.to_string ++ ascii "\n" ++ showEdns edns ++ ascii ";; QUESTION SECTION:\n" ++ q ++ ascii "\n\n" ++ a ++ n ++ d)

/-- `Display for Request` request.rs:60-66 -/
def Request.to_string (r : Request) : Res (List UInt8) := do
  let q ← r.question.to_string
  pure (r.header.to_string ++ ascii "\n" ++ ascii ";; QUESTION SECTION:\n" ++ q ++ ascii "\n\n")

/-- `Display for NotifyRequest` notify.rs:74-82 -/
def NotifyRequest.to_string (x : Ext) (r : NotifyRequest) : Res (List UInt8) := do
  let n ← r.question.name.to_string
  let s ← match r.soa with
    | some soa => do
      let t ← soa.to_string x
      pure (ascii "soa " ++ t ++ ascii "\n")
    | none => .ok []
  pure (ascii "notify for zone " ++ n ++ ascii "\n" ++ s)

end R53
