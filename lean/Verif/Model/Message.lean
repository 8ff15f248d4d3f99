import Verif.Model.RRset
/-!
# Model of `edns.rs`, `response.rs`, `response_builder.rs`, `response_iter.rs`, `request.rs`, `notify.rs`

`Display` impls are in Model/Show. The random header id is an argument.
-/
namespace R53

/-! ## edns.rs -/

/-- `Edns` edns.rs:16-22. `EdnsOption` (edns.rs:25) is an empty struct, so `options` is only a count. -/
structure Edns where
  version : UInt8
  extened_rcode : UInt8
  udp_size : UInt16
  dnssec_aware : Bool
  options : Option Nat
deriving DecidableEq, Repr

namespace Edns

/-- edns.rs:10 -/
def VERSION_SHIFT : UInt32 := 16
/-- edns.rs:11 -/
def EXTRCODE_SHIFT : UInt32 := 24
/-- edns.rs:12 -/
def VERSION_MASK : UInt32 := 0x00ff0000
/-- edns.rs:13 -/
def EXTFLAG_DO : UInt32 := 0x00008000

/-- edns.rs:28-39 -/
def from_rrset (s : RRset) : Res Edns := do
  assertR (s.typ = .OPT)
  let flags := s.ttl
  pure ⟨((flags &&& VERSION_MASK) >>> VERSION_SHIFT).toUInt8, (flags >>> EXTRCODE_SHIFT).toUInt8, s.class_.to_u16,
    decide (flags &&& EXTFLAG_DO ≠ 0), none⟩

/-- the flag word, edns.rs:42-46 and 57-61 -/
def flags (e : Edns) : UInt32 :=
  let f := e.extened_rcode.toUInt32 <<< EXTRCODE_SHIFT
  let f := f ||| ((e.version.toUInt32 <<< VERSION_SHIFT) &&& VERSION_MASK)
  if e.dnssec_aware then f ||| EXTFLAG_DO else f

/-- edns.rs:41-54 -/
def to_rrset (e : Edns) : RRset := ⟨Name.root, .OPT, RRClass.new e.udp_size, e.flags, []⟩

/-- edns.rs:56-68 -/
def to_wire (e : Edns) : St Render Unit := do
  Render.write_u8 0
  RRType.OPT.to_wire
  (RRClass.Unknown e.udp_size).to_wire
  Render.write_u32 e.flags
  Render.write_u16 0

/-- edns.rs:70-75 -/
def rr_count (e : Edns) : Nat := e.options.getD 1

end Edns

/-! ## response.rs -/

/-- `SectionType` response.rs:15-19 -/
inductive SectionType where
  | Answer | Authority | Additional
deriving DecidableEq, Repr

/-- `Section` response.rs:22 -/
abbrev Section := Option (List RRset)

namespace Section

/-- response.rs:31-43 -/
def rr_count (s : Section) : Nat :=
  match s with
  | none => 0
  | some rrsets => rrsets.foldl (fun count rrset => if rrset.rr_count = 0 then count + 1 else count + rrset.rr_count) 0

/-- the loop and the final push of `from_wire`, response.rs:56-68; `acc` is `rrsets`, `last` is `last_rrset`;
`rdatas.remove(0)` panics on an empty vector -/
def fromLoop : (n : Nat) → (acc : List RRset) → (last : RRset) → St InBuf (List RRset)
  | 0, acc, last => pure (acc ++ [last])
  | n + 1, acc, last => do
    let rrset ← RRset.from_wire
    let same ← St.lift (rrset.is_same_rrset last)
    if same then
      if rrset.typ = .OPT then St.fail
      else match rrset.rdatas with
        | [] => St.boom
        | rd :: _ => fromLoop n acc { last with rdatas := last.rdatas ++ [rd] }
    else fromLoop n (acc ++ [last]) rrset

/-- response.rs:45-70 -/
def from_wire (rr_count : UInt16) (typ : SectionType) : St InBuf Section :=
  if rr_count = 0 then pure none
  else do
    let last ← RRset.from_wire
    if last.typ = .OPT ∧ typ ≠ .Additional then St.fail
    else do
      let rrsets ← fromLoop (rr_count.toNat - 1) [] last
      pure (some rrsets)

/-- the loop of response.rs:74-76 -/
def toLoop : List RRset → St Render Unit
  | [] => pure ()
  | s :: ss => do
    s.to_wire
    toLoop ss

/-- response.rs:72-79 -/
def to_wire (s : Section) : St Render Unit :=
  match s with
  | none => pure ()
  | some rrsets => toLoop rrsets

end Section

/-- `Response` response.rs:102-106; the array `sections` is three fields -/
structure Response where
  header : Header
  question : Question
  answer : Section
  authority : Section
  additional : Section
deriving DecidableEq, Repr

namespace Response

/-- response.rs:109-118 -/
def with_question (id : UInt16) (name : Name) (qtype : RRType) : Response :=
  ⟨{ (Header.default 0).set_flag .RecursionDesired true with id := id }, Question.new name qtype, none, none, none⟩

/-- the part of `from_wire` after the `InputBuffer` is made, response.rs:122-136 -/
def read : St InBuf Response := do
  let header ← Header.from_wire
  if header.qd_count ≠ 1 then St.fail
  else do
    let question ← Question.from_wire
    let answer ← Section.from_wire header.an_count .Answer
    let auth ← Section.from_wire header.ns_count .Authority
    let additional ← Section.from_wire header.ar_count .Additional
    pure ⟨header, question, answer, auth, additional⟩

/-- response.rs:120-137 -/
def from_wire (raw : List UInt8) : Res Response := (read (InBuf.new raw)).1

/-- response.rs:191-193 (also `section_mut`, 187-189) -/
def section_ (m : Response) : SectionType → Section
  | .Answer => m.answer
  | .Authority => m.authority
  | .Additional => m.additional

/-- `self.sections[section as usize] = s` (response.rs:187-205) -/
def setSection (m : Response) (t : SectionType) (s : Section) : Response :=
  match t with
  | .Answer => { m with answer := s }
  | .Authority => { m with authority := s }
  | .Additional => { m with additional := s }

/-- response.rs:139-152 -/
def get_edns (m : Response) : Res (Option Edns) :=
  match m.additional with
  | none => .ok none
  | some rrsets => match rrsets.getLast? with
    | none => .ok none
    | some rrset => if rrset.typ = .OPT then do pure (some (← Edns.from_rrset rrset)) else .ok none

/-- response.rs:154-159; `as u16` -/
def recalculate_header (m : Response) : Response :=
  { m with header := { m.header with
      qd_count := 1
      an_count := UInt16.ofNat (Section.rr_count m.answer)
      ns_count := UInt16.ofNat (Section.rr_count m.authority)
      ar_count := UInt16.ofNat (Section.rr_count m.additional) } }

/-- `.unwrap()` of a `Result` (response.rs:179-184) -/
def unwrap {σ α : Type} (w : St σ α) : St σ α := fun s =>
  match w s with
  | (.err, s') => (.panic, s')
  | x => x

/-- response.rs:176-185 -/
def truncate (m : Response) (pos : Nat) : St Render Unit := do
  let header := m.header.set_flag .Truncation true
  unwrap (Render.write_u16_at 2 header.header_flag)
  unwrap (Render.write_u16_at 6 0)
  unwrap (Render.write_u16_at 8 0)
  unwrap (Render.write_u16_at 10 0)
  unwrap (Render.truncate pos)

/-- the loop of response.rs:167-173; the `return Ok(pos_after_question)` ends it -/
def sectionsLoop (m : Response) (pos : Nat) : List Section → St Render Nat
  | [] => do
    let r ← St.get
    pure r.len
  | s :: ss => fun r =>
    match Section.to_wire s r with
    | (.ok _, r') => sectionsLoop m pos ss r'
    | (.err, r') => (do m.truncate pos; pure pos : St Render Nat) r'
    | (.panic, r') => (.panic, r')

/-- response.rs:161-174 -/
def to_wire (m : Response) : St Render Nat := do
  m.header.to_wire
  m.question.to_wire
  let r ← St.get
  sectionsLoop m r.len [m.answer, m.authority, m.additional]

/-- response.rs:195-197 -/
def section_rrset_count (m : Response) (t : SectionType) : Nat := ((m.section_ t).map List.length).getD 0

/-- response.rs:199-201: the section taken, and what is left -/
def take_section (m : Response) (t : SectionType) : Section × Response := (m.section_ t, m.setSection t none)

/-- response.rs:203-205 -/
def clear_section (m : Response) (t : SectionType) : Response := m.setSection t none

end Response

/-! ## derived `==` -/

/-- the elements of two vectors of the same length, lazily (derived `PartialEq`, response.rs:28, 97) -/
def Section.eqSets (sort : List RData → Res (List RData)) : List RRset → List RRset → Res Bool
  | a :: as, b :: bs => do
    if ← a.eq sort b then eqSets sort as bs else pure false
  | _, _ => .ok true

/-- `==` of `Section(Option<Vec<RRset>>)` response.rs:21 (derived); vectors compare their lengths first -/
def Section.eq (sort : List RData → Res (List RData)) : Section → Section → Res Bool
  | none, none => .ok true
  | some a, some b => if a.length ≠ b.length then .ok false else Section.eqSets sort a b
  | _, _ => .ok false

/-- `==` of messages response.rs:101 (derived): header (structural, header.rs:14), question, the three sections, up to the first
difference -/
def Response.eq (sort : List RData → Res (List RData)) (a b : Response) : Res Bool := do
  if a.header ≠ b.header then pure false
  else if ← a.question.eq b.question then
    if ← Section.eq sort a.answer b.answer then
      if ← Section.eq sort a.authority b.authority then Section.eq sort a.additional b.additional
      else pure false
    else pure false
  else pure false

/-! ## response_builder.rs: every method is a function on the response it borrows -/
namespace Builder

/-- response_builder.rs:22-25 -/
def id (m : Response) (v : UInt16) : Response := { m with header := { m.header with id := v } }
/-- response_builder.rs:27-30 -/
def set_flag (m : Response) (f : HeaderFlag) : Response := { m with header := m.header.set_flag f true }
/-- response_builder.rs:32-35 -/
def clear_flag (m : Response) (f : HeaderFlag) : Response := { m with header := m.header.set_flag f false }
/-- response_builder.rs:37-40 -/
def opcode (m : Response) (op : Opcode) : Response := { m with header := { m.header with opcode := op } }
/-- response_builder.rs:42-45 -/
def rcode (m : Response) (rc : Rcode) : Response := { m with header := { m.header with rcode := rc } }
/-- response_builder.rs:47-50 -/
def question (m : Response) (q : Question) : Response := { m with question := q }

/-- `position(|old| old.is_same_rrset(&rrset))` then `append`, or `push`: response_builder.rs:63-67 -/
def merge (rrset : RRset) : List RRset → Res (List RRset)
  | [] => .ok [rrset]
  | old :: rest => do
    if ← old.is_same_rrset rrset then pure ({ old with rdatas := old.rdatas ++ rrset.rdatas } :: rest)
    else do
      let rest ← merge rrset rest
      pure (old :: rest)

/-- response_builder.rs:61-72 -/
def add_rrset (m : Response) (t : SectionType) (rrset : RRset) : Res Response :=
  match m.section_ t with
  | some rrsets => do
    let rrsets ← merge rrset rrsets
    pure (m.setSection t (some rrsets))
  | none => .ok (m.setSection t (some [rrset]))

/-- response_builder.rs:52-55 -/
def edns (m : Response) (e : Edns) : Res Response := add_rrset m .Additional e.to_rrset

/-- response_builder.rs:57-59 -/
def make_response (m : Response) : Response := set_flag m .QueryRespone

/-- `Vec::retain(|rrset| !f(rrset))` with a stateful `f` (`FnMut`), visiting every element in order (response_builder.rs:80) -/
def retain {σ : Type} (f : σ → RRset → Bool × σ) : σ → List RRset → List RRset × σ
  | st, [] => ([], st)
  | st, s :: ss =>
    let (b, st) := f st s
    let (rest, st) := retain f st ss
    (if b then rest else s :: rest, st)

/-- response_builder.rs:74-83 -/
def remove_rrset_by {σ : Type} (m : Response) (t : SectionType) (f : σ → RRset → Bool × σ) (st : σ) : Response × σ :=
  match m.section_ t with
  | some rrsets => let (rest, st) := retain f st rrsets; (m.setSection t (some rest), st)
  | none => (m, st)

/-- response_builder.rs:85-88 -/
def clear_section (m : Response) (t : SectionType) : Response := m.clear_section t

/-- response_builder.rs:90-98 -/
def with_section (m : Response) (t : SectionType) (f : Section → Section) : Response :=
  let (rrsets, m) := m.take_section t
  m.setSection t (f rrsets)

/-- response_builder.rs:100-102 -/
def done (m : Response) : Response := m.recalculate_header

end Builder

/-! ## response_iter.rs -/

/-- `ResponseIter` response_iter.rs:6-13 -/
structure ResponseIter where
  index : Nat
  back_index : Nat
  answer_rrset_count : Nat
  authority_rrset_count : Nat
  additional_rrset_count : Nat
  msg : Response
deriving DecidableEq, Repr

namespace ResponseIter

/-- response_iter.rs:16-30 -/
def new (m : Response) : ResponseIter :=
  let a := m.section_rrset_count .Answer
  let b := m.section_rrset_count .Authority
  let c := m.section_rrset_count .Additional
  ⟨0, a + c + b, a, b, c, m⟩

/-- the place of an index, response_iter.rs:33-42 -/
def place (it : ResponseIter) (index : Nat) : Res (SectionType × Nat) :=
  if index < it.answer_rrset_count then .ok (.Answer, index)
  else if index < it.answer_rrset_count + it.authority_rrset_count then do
    pure (.Authority, ← csub index it.answer_rrset_count)
  else do
    pure (.Additional, ← csub (← csub index it.answer_rrset_count) it.authority_rrset_count)

/-- response_iter.rs:32-48; both `unwrap` -/
def get_rrset_at_index (it : ResponseIter) (index : Nat) : Res (RRset × SectionType) := do
  let (typ, pos) ← it.place index
  match it.msg.section_ typ with
  | none => .panic
  | some rrsets => do
    let s ← idx rrsets pos
    pure (s, typ)

/-- response_iter.rs:54-62 -/
def next (it : ResponseIter) : Res (Option (RRset × SectionType) × ResponseIter) :=
  if it.index = it.back_index then .ok (none, it)
  else do
    let item ← it.get_rrset_at_index it.index
    pure (some item, { it with index := it.index + 1 })

/-- response_iter.rs:73-80 -/
def next_back (it : ResponseIter) : Res (Option (RRset × SectionType) × ResponseIter) :=
  if it.index = it.back_index then .ok (none, it)
  else do
    let b ← csub it.back_index 1
    let item ← it.get_rrset_at_index b
    pure (some item, { it with back_index := b })

/-- response_iter.rs:64-69 -/
def size_hint (it : ResponseIter) : Res (Nat × Option Nat) := do
  let remain ← csub (it.answer_rrset_count + it.authority_rrset_count + it.additional_rrset_count) it.index
  pure (remain, some remain)

end ResponseIter

/-! ## request.rs -/

/-- `Request` request.rs:13-16 -/
structure Request where
  header : Header
  question : Question
deriving DecidableEq, Repr

namespace Request

/-- request.rs:19-31 -/
def new (id : UInt16) (name : Name) (qtype : RRType) : Request :=
  ⟨{ (Header.default 0).set_flag .RecursionDesired true with id := id }, ⟨name, qtype, .IN⟩⟩

/-- request.rs:35-50; the third test repeats the second, as in the source -/
def read : St InBuf Request := do
  let header ← Header.from_wire
  if header.qd_count = 1 then do
    let question ← Question.from_wire
    if header.an_count ≠ 0 then St.fail
    else if header.an_count ≠ 0 then St.fail
    else pure ⟨header, question⟩
  else St.fail

/-- request.rs:33-51 -/
def from_wire (raw : List UInt8) : Res Request := (read (InBuf.new raw)).1

/-- request.rs:53-57 -/
def to_wire (q : Request) : St Render Nat := do
  q.header.to_wire
  q.question.to_wire
  let r ← St.get
  pure r.len

end Request

/-! ## notify.rs -/

/-- `NotifyRequest` notify.rs:15-19 -/
structure NotifyRequest where
  header : Header
  question : Question
  soa : Option RRset
deriving DecidableEq, Repr

namespace NotifyRequest

/-- notify.rs:22-42 -/
def new (id : UInt16) (zone : Name) (soa : Option RRset) : NotifyRequest :=
  let header : Header := { Header.default id with opcode := .Notify }
  let header := header.set_flag .AuthAnswer true
  let header := { header with qd_count := 1 }
  let header := if soa.isSome then { header with an_count := 1 } else header
  ⟨header, ⟨zone, .SOA, .IN⟩, soa⟩

/-- notify.rs:44-62 -/
def from_wire (header : Header) (question : Question) : St InBuf NotifyRequest :=
  if header.an_count = 1 then do
    let rrset ← RRset.from_wire
    if rrset.typ ≠ .SOA then St.fail else pure ⟨header, question, some rrset⟩
  else pure ⟨header, question, none⟩

/-- notify.rs:64-71 -/
def to_wire (q : NotifyRequest) : St Render Nat := do
  q.header.to_wire
  q.question.to_wire
  match q.soa with
  | none => pure ()
  | some soa => soa.to_wire
  let r ← St.get
  pure r.len

end NotifyRequest

/-- `NotifyResponse` notify.rs:85-88 -/
structure NotifyResponse where
  header : Header
  question : Question
deriving DecidableEq, Repr

namespace NotifyResponse

/-- notify.rs:91-97 -/
def new (req : NotifyRequest) : NotifyResponse := ⟨req.header.set_flag .QueryRespone true, req.question⟩

/-- notify.rs:99-105 -/
def from_wire (header : Header) (question : Question) : St InBuf NotifyResponse := pure ⟨header, question⟩

/-- notify.rs:107-111 -/
def to_wire (q : NotifyResponse) : St Render Nat := do
  q.header.to_wire
  q.question.to_wire
  let r ← St.get
  pure r.len

end NotifyResponse
end R53
