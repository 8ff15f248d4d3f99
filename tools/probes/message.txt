import Verif.Spec.Encode
import Verif.Model.Hex
import Verif.Spec.Builder
import Verif.Spec.Codes
import Verif.Spec.Hex
open R53
namespace Probe
def okEq {α} [DecidableEq α] (r : Res α) (a : α) : Bool := match r with | .ok b => b == a | _ => false
def nm (l : List (List UInt8)) : Name := Name.ofLabels l
def www : Name := nm [[119,119,119],[101,120],[97]]
def mail : Name := nm [[109],[101,120],[97]]
def root : Name := nm []
def big : Name := nm (List.replicate 3 (List.replicate 63 120) ++ [List.replicate 61 121])
def names : List Name := [www, mail, root, big, nm [[97]], nm [[101,120],[97]], nm [[0],[255]], www]
/-! C20-C22 -/
def seqd (n : Nat) : List UInt8 := (List.range n).map fun i => UInt8.ofNat (i*37+201)
def cuts : List Nat := [0,1,2,3,4,5,6,7,8,9]
def c20 : Bool := cuts.all fun n => cuts.all fun p => p > n ||
  let b : InBuf := ⟨seqd n, p⟩
  (match InBuf.read_u8 b with | (.ok v, b') => p + 1 ≤ n && (seqd n)[p]? == some v && b' == ⟨seqd n, p+1⟩ | (.err, b') => p + 1 > n && b' == b | _ => false) &&
  (match InBuf.read_u16 b with | (.ok v, b') => p + 2 ≤ n && ((seqd n).drop p).take 2 == be16 v && b' == ⟨seqd n, p+2⟩ | (.err, b') => p + 2 > n && b' == b | _ => false) &&
  (match InBuf.read_u32 b with | (.ok v, b') => p + 4 ≤ n && ((seqd n).drop p).take 4 == be32 v && b' == ⟨seqd n, p+4⟩ | (.err, b') => p + 4 > n && b' == b | _ => false) &&
  cuts.all fun k => (match InBuf.read_bytes k b with | (.ok v, b') => p + k ≤ n && ((seqd n).drop p).take k == v && b' == ⟨seqd n, p+k⟩ | (.err, b') => p + k > n && b' == b | _ => false)
def c21 : Bool := cuts.all fun cap => cuts.all fun l => l > cap ||
  let b : OutBuf := ⟨seqd cap, l⟩
  let ok (m : St OutBuf Unit) (o : List UInt8) : Bool := match m b with | (.ok _, b') => l + o.length ≤ cap && b'.contents == b.contents ++ o && b'.capacity == cap | (.err, b') => l + o.length > cap && b' == b | _ => false
  ok (OutBuf.write_u8 77) [77] && ok (OutBuf.write_u16 0xabcd) [0xab,0xcd] && ok (OutBuf.write_u32 0x12345678) [0x12,0x34,0x56,0x78] && (cuts.all fun k => ok (OutBuf.write_bytes (List.replicate k 9)) (List.replicate k 9)) &&
  (cuts.all fun p => (match OutBuf.write_u16_at p 0xabcd b with | (.ok _, b') => p + 2 ≤ l && b'.contents == overwrite b.contents p [0xab,0xcd] | (.err, b') => p + 2 > l && b' == b | _ => false) &&
    (match OutBuf.write_u8_at p 7 b with | (.ok _, b') => p + 1 ≤ l && b'.contents == overwrite b.contents p [7] | (.err, b') => p + 1 > l && b' == b | _ => false) &&
    (match OutBuf.truncate p b with | (.ok _, b') => p < l && b'.contents == b.contents.take p | (.err, b') => p ≥ l && b' == b | _ => false) &&
    (match OutBuf.skip p b with | (.ok _, b') => l + p < cap && b'.len == l + p && b'.contents.take l == b.contents | (.err, b') => l + p ≥ cap && b' == b | _ => false) &&
    (okEq (b.at_ p) (b.contents.getD p 0) == decide (p < l)))
def c23 : Bool := (List.range 256).all fun i => let d := [UInt8.ofNat i, UInt8.ofNat (255-i)]
  match Hex.to_hex d with | .ok s => s.length == 4 && Hex.from_hex s == some d && Hex.from_hex ([32] ++ s ++ [10]) == some d && Hex.from_hex (s.dropLast) == none && Hex.from_hex (s ++ [103]) == none && Hex.from_hex (toUppercase s) == some d | _ => false
/-! C24-C29, C72: names in a message -/
def writeAll (c : Bool) : List Name → Render → List Nat × Render
  | [], r => ([], r)
  | n :: ns, r => match Render.write_name n c r with | (.ok _, r') => let (l, r'') := writeAll c ns r'; (r.len :: l, r'') | (_, r') => ([], r')
def c24 : Bool := [true, false].all fun c =>
  let (ps, r) := writeAll c names (Render.new (List.replicate 2000 0))
  ps.length == names.length && (ps.zip names).all fun (p, n) => match Name.from_wire ⟨r.data, p⟩ with | (.ok n', _) => n' == n | _ => false
def c25 : Bool := let (_, r) := writeAll false names (Render.new (List.replicate 2000 0)); r.data == names.flatMap Name.raw
def c26 : Bool := -- far names are not pointed at
  let (_, r) := writeAll true [www, mail] { Render.new (List.replicate 20000 0) with buffer := ⟨List.replicate 20000 0, 16380⟩ }
  match Name.from_wire ⟨r.data, 16380⟩, Name.from_wire ⟨r.data, 16380 + www.raw.length⟩ with | (.ok a, _), (.ok b, _) => a == www && b == mail | _, _ => false
def c27 : Bool := let (_, r) := writeAll true names (Render.new (List.replicate 2000 0)); r.reset == Render.new r.buffer.data
def c72 : Bool := names.all fun n => let (_, r) := writeAll true names (Render.new (List.replicate 2000 0))
  match Render.write_name n true r with | (.ok _, r') => r'.len == r.len + (if n == root then 1 else 2) | _ => false
/-! C30-C35 -/
def c30 : Bool := (List.range 300).all fun i => let v := UInt16.ofNat i; (RRType.new v).as_u16 == v && (RRClass.new v).to_u16 == v &&
  (match ianaTypes.find? (·.1 == i) with | some (_, s) => RRType.new v != .Unknown v && (RRType.from_str (ascii s) matches .ok _) && (match RRType.from_str (ascii s) with | .ok t => t == RRType.new v | _ => false) | none => RRType.new v == .Unknown v) &&
  (match ianaClasses.find? (·.1 == i) with | some (_, s) => (match RRClass.from_str (ascii s) with | .ok t => t == RRClass.new v | _ => false) | none => RRClass.new v == .Unknown v)
def c33 : Bool := (List.range 16).all fun i => let v := UInt8.ofNat i
  (match ianaOpcodes.find? (·.1 == i) with | some (_, s) => (Opcode.new v).to_u8 == v && (Opcode.new v).to_str == ascii s | none => Opcode.new v == .Reserved) &&
  (match ianaRcodes.find? (·.1 == i) with | some (_, s) => (Rcode.new v).to_u8 == v && (Rcode.new v).to_str == ascii s && okEq (Rcode.from_str (ascii s)) (Rcode.new v) | none => Rcode.new v == .Reserved)
def headers : List Header := (List.range 300).map fun i => ⟨UInt16.ofNat (i*777), UInt16.ofNat (i*2191) &&& 0x87b0, Opcode.new (UInt8.ofNat (i%16)), Rcode.new (UInt8.ofNat (i/16%16)), UInt16.ofNat i, UInt16.ofNat (i+1000), UInt16.ofNat (i*5), UInt16.ofNat (i*331)⟩
def c34 : Bool := headers.all fun h => match h.to_wire (Render.new (List.replicate 12 0)) with
  | (.ok _, r) => (match Header.from_wire ⟨r.data, 0⟩ with | (.ok h', b) => h' == h && b.pos == 12 | _ => false) && r.data.take 2 == be16 h.id && (let w := (r.data.getD 2 0).toNat*256 + (r.data.getD 3 0).toNat; w/2048%16 == h.opcode.to_u8.toNat && w%16 == h.rcode.to_u8.toNat && w/32768 == h.flag.toNat/32768)
    && r.data.drop 4 == be16 h.qd_count ++ be16 h.an_count ++ be16 h.ns_count ++ be16 h.ar_count | _ => false
def flags : List HeaderFlag := [.QueryRespone, .AuthAnswer, .Truncation, .RecursionDesired, .RecursionAvailable, .AuthenticData, .CheckDisable]
def c35 : Bool := headers.all fun h => flags.all fun f => [true,false].all fun s => (flags.all fun g => (h.set_flag f s).is_flag_set g == if g == f then s else h.is_flag_set g) && (h.setted_flags == flags.filter h.is_flag_set)
/-! C36-C39 -/
def chars (n : Nat) : List UInt8 := List.replicate n 97
def rds : List RData := [⟨.A, [.ip [1,2,3,255]]⟩, ⟨.AAAA, [.ip (seqd 16)]⟩, ⟨.NS, [.name www]⟩, ⟨.CNAME, [.name www]⟩, ⟨.PTR, [.name mail]⟩, ⟨.DNAME, [.name mail]⟩, ⟨.RP, [.name www, .name mail]⟩, ⟨.TXT, [.text [[32,34,10,200],[],[97], chars 255]]⟩, ⟨.MX, [.u16 65534, .name mail]⟩,
  ⟨.SOA, [.name www, .name mail, .u32 1, .u32 4294967295, .u32 10, .u32 99, .u32 1000]⟩, ⟨.SRV, [.u16 1, .u16 9, .u16 10, .name www]⟩, ⟨.NAPTR, [.u16 1, .u16 2, .bytes [32,34], .bytes [92], .bytes [1], .name www]⟩,
  ⟨.RRSIG, [.rrtype .A, .u8 8, .u8 255, .u32 300, .u32 1600000000, .u32 4294967295, .u16 7, .name www, .bytes [1,2,3]]⟩, ⟨.NSEC, [.name www, .bytes [1,2,3]]⟩, ⟨.NSEC3, [.u8 1, .u8 2, .u16 3, .bytes [1,2], .bytes [9], .bytes [1,2,3]]⟩,
  ⟨.DS, [.u16 7, .u8 1, .u8 2, .bytes [0,16,255]]⟩, ⟨.DNSKEY, [.u16 7, .u8 1, .u8 2, .bytes [0,16,255]]⟩, ⟨.NSEC3PARAM, [.u8 1, .u8 2, .u16 3, .bytes [10]]⟩, ⟨.OPT, [.bytes [1,2]]⟩, ⟨.CAA, [.u8 1, .bytes (ascii "issue"), .bytes (ascii "a b\"")]⟩, ⟨.CERT, [.u16 1, .u16 2, .u8 3, .bytes [4]]⟩, ⟨.URI, [.u16 1, .u16 2, .bytes [3,4]]⟩]
def c36 : Bool := rds.all fun rd => match rd.to_wire (Render.new (List.replicate 600 0)) with
  | (.ok _, r) => (match RData.from_wire rd.kind (UInt16.ofNat r.len) ⟨r.data ++ [1,2,3], 0⟩ with | (.ok rd', b) => rd' == rd && b.pos == r.len | _ => false) &&
    (match (encData rd) [] 0 with | (o, _) => o == r.data) &&
    [r.len - 1, r.len + 1].all fun l => (match RData.from_wire rd.kind (UInt16.ofNat l) ⟨r.data ++ [1,2,3], 0⟩ with | (.ok _, b) => b.pos == l | (.err, _) => true | (.panic, _) => false)
  | _ => false
def c37 : Bool := rds.all fun rd => match rd.to_wire (Render.new (List.replicate 600 0)) with
  | (.ok _, r) => (List.range r.len).all fun l => match RData.from_wire rd.kind (UInt16.ofNat l) ⟨r.data.take l, 0⟩ with | (.panic, _) => false | (.ok rd', _) => rd' != rd | _ => true
  | _ => false
/-! messages -/
def mk (q : Name) (a b c : List RRset) : Response := Response.recalculate_header ⟨⟨7, 0x8580, .Query, .NXDomain, 0, 0, 0, 0⟩, ⟨q, .MX, .IN⟩, if a == [] then none else some a, if b == [] then none else some b, if c == [] then none else some c⟩
def sets : List RRset := rds.filter (·.kind != .OPT) |>.map fun rd => ⟨mail, rd.kind, .IN, 300, [rd, rd]⟩
def opt : RRset := ⟨root, .OPT, .Unknown 4096, 0x01028000, []⟩
def msgs : List Response := [mk www [] [] [], mk www (sets.take 3) ((sets.drop 3).take 4) (sets.drop 7 ++ [opt]), mk mail [] (sets.take 1) [], mk root [⟨www, .NS, .CH, 5, [⟨.NS, [.name mail]⟩, ⟨.NS, [.name www]⟩]⟩, ⟨mail, .A, .IN, 6, [⟨.A, [.ip [1,2,3,4]]⟩]⟩] [] [opt]]
def sizesOf (m : Response) : List Nat := let e := m.encoded.length; [0,1,5,11,12,13, m.headSize - 1, m.headSize, m.headSize + 1, m.headSize + 2, m.headSize + 9, m.headSize + 13, m.headSize + 30, e - 1, e, e + 1, e + 100, e / 2 + 9]
def c73 : Bool := msgs.all fun m => (sizesOf m).all fun n => match m.to_wire (Render.new (List.replicate n 0)) with
  | (.ok k, r) => k == r.len && ((n ≥ m.encoded.length && r.data == m.encoded) || (n < m.encoded.length && n ≥ m.headSize + m.firstPiece && r.data == (⟨{ m.header.set_flag .Truncation true with an_count := 0, ns_count := 0, ar_count := 0 }, m.question, none, none, none⟩ : Response).encoded))
  | (.err, _) => n < m.headSize
  | (.panic, _) => n ≥ m.headSize && n < m.headSize + m.firstPiece && n < m.encoded.length
def c44 : Bool := msgs.all fun m => okEq (Response.from_wire (m.encoded ++ [9,9])) m
def c43 : Bool := msgs.all fun m => let e := m.encoded; (List.range e.length).all fun i => i % 23 != 3 || (Response.from_wire (e.take i) matches .err) &&
  [0, 41, 64, 192].all fun v => let r := Response.from_wire (e.set i v); !(r matches .panic)
def c47 : Bool := msgs.all fun m => let h := m.recalculate_header.header; h.qd_count == 1 && h.an_count.toNat == (Section.records m.answer).length && h.ns_count.toNat == (Section.records m.authority).length && h.ar_count.toNat == (Section.records m.additional).length && h.id == m.header.id
/-- C53: records one by one or joined -/
def splitUp (l : List RRset) : List RRset := l.flatMap RRset.records
def c53 : Bool := msgs.all fun m => okEq (Response.from_wire ({ m with answer := m.answer.map splitUp, additional := m.additional.map splitUp } : Response).encoded) m
def c54 : Bool := (Response.from_wire (mk www [opt] [] []).encoded matches .err) && (Response.from_wire (mk www [] [opt] []).encoded matches .err) && (Response.from_wire (mk www [] [] [opt, opt]).encoded matches .err) && (Response.from_wire (mk www [] [] [opt]).encoded matches .ok _)
def c55 : Bool := [(⟨0, 1, 4096, true, none⟩ : Edns), ⟨3, 255, 1, false, none⟩].all fun e => okEq (Edns.from_rrset e.to_rrset) e && (match Builder.edns (mk www (sets.take 2) [] sets) e with | .ok m => okEq m.get_edns (some e) | _ => false) &&
  (match e.to_wire (Render.new (List.replicate 11 0)), e.to_rrset.to_wire (Render.new (List.replicate 11 0)) with | (.ok _, r), (.ok _, r') => r == r' && r.len == 11 && r.data.take 5 == [0,0,41] ++ be16 e.udp_size && r.data.getD 5 0 == e.extened_rcode && r.data.getD 6 0 == e.version | _, _ => false)
/-- C48-C51 -/
def c48 : Bool := msgs.all fun m => [SectionType.Answer, .Authority, .Additional].all fun t => match Builder.add_rrset m t (sets.getD 3 opt) with
  | .ok m' => [SectionType.Answer, .Authority, .Additional].all (fun u => u == t || m'.section_ u == m.section_ u) && (Section.records (m'.section_ t)).length == (Section.records (m.section_ t)).length + 2 && m'.header == m.header
     && (match Builder.add_rrset m' t (sets.getD 3 opt) with | .ok m'' => (m''.section_ t).sets.length == (m'.section_ t).sets.length | _ => false)
  | _ => false
def c49 : Bool := msgs.all fun m => (Builder.remove_rrset_by m .Additional (fun n _ => (n == 1, n + 1)) 0).1.additional.sets == m.additional.sets.take 1 ++ m.additional.sets.drop 2
def c50 : Bool := msgs.all fun m => (Builder.with_section m .Authority (fun s => s.map List.reverse)) == { m with authority := m.authority.map List.reverse } && Builder.clear_section m .Answer == { m with answer := none } && (m.take_section .Additional) == (m.additional, { m with additional := none }) && (Builder.make_response m).header.is_flag_set .QueryRespone
def run : List End → ResponseIter → List (Option (RRset × SectionType))
  | [], _ => []
  | e :: es, it => match (if e == .front then it.next else it.next_back) with | .ok (x, it') => x :: run es it' | _ => []
def c51 : Bool := msgs.all fun m => [[], List.replicate 40 End.front, List.replicate 40 .back, (List.range 40).map fun i => if i % 3 == 0 then .back else .front].all fun es => run es (ResponseIter.new m) == (deque es m.items).1
/-- C56 C57 -/
def c56 : Bool := let q := Request.new 9 www .MX; q.header.is_flag_set .RecursionDesired && q.header.id == 9 && match q.to_wire (Render.new (List.replicate 50 0)) with | (.ok n, r) => n == r.len && okEq (Request.from_wire r.data) q && r.data == (⟨q.header, q.question, none, none, none⟩ : Response).encoded | _ => false
def c57 : Bool := [none, some (⟨www, .SOA, .IN, 5, [⟨.SOA, [.name www, .name mail, .u32 1, .u32 2, .u32 3, .u32 4, .u32 5]⟩]⟩ : RRset)].all fun soa => let q := NotifyRequest.new 9 www soa
  q.header.opcode == .Notify && q.header.is_flag_set .AuthAnswer && q.header.an_count == (if soa.isSome then 1 else 0) && (match q.to_wire (Render.new (List.replicate 150 0)) with
  | (.ok n, r) => n == r.len && r.data == (⟨q.header, q.question, soa.map fun s => [s], none, none⟩ : Response).encoded && (match NotifyRequest.from_wire q.header q.question ⟨r.data, 12 + www.raw.length + 4⟩ with | (.ok q', _) => q' == q | _ => false) | _ => false) &&
  (NotifyResponse.new q).header.is_flag_set .QueryRespone && (NotifyResponse.new q).question == q.question
def all : List (String × Bool) := [("C20", c20), ("C21", c21), ("C23", c23), ("C24", c24), ("C25", c25), ("C26", c26), ("C27", c27), ("C72", c72), ("C30", c30), ("C33", c33), ("C34", c34), ("C35", c35), ("C36", c36), ("C37", c37), ("C73", c73), ("C44", c44), ("C43", c43), ("C47", c47), ("C53", c53), ("C54", c54), ("C55", c55), ("C48", c48), ("C49", c49), ("C50", c50), ("C51", c51), ("C56", c56), ("C57", c57)]
#eval (all.filter fun p => !p.2).map (·.1)
end Probe
