import Verif.Spec.Text
open R53 R53.StrBuf
namespace Probe
def showHex (d : List UInt8) : List UInt8 := match Hex.to_hex d with | .ok s => s | _ => []
def x : Ext := ⟨showHex, Hex.from_hex, showHex, Hex.from_hex, showHex, Hex.from_hex⟩
def chars (n : Nat) : List UInt8 := List.replicate n 97
/-- C41: print then read, with blanks and a tail -/
def ds : List (List UInt8) := ((List.range 256).map fun i => [UInt8.ofNat i]) ++ [chars 255, [34,92,59,32,0,9,127,128,255,48,49,50], [92,92,48], [49,50,51]]
def round41 : Bool := ds.all fun d => match read_char_string ⟨[32,9] ++ Field.string_to_str d ++ [32,34], 0⟩ with | (.ok e, b) => e == d && b.raw.drop b.pos == [32,34] | _ => false
def text41 : Bool := (read_text ⟨Field.text_to_str ds, 0⟩).1 == .ok ds
def asc41 : Bool := ds.all fun d => (Field.string_to_str d).all fun c => 32 ≤ c && c < 127
/-- C41: what is accepted -/
def table : List (List UInt8 × Option (List UInt8 × List UInt8)) := [
  (ascii "\"a\\\"b\" c", some (ascii "a\"b", ascii " c")), (ascii " \"\\065\\255\\000\"", some ([65,255,0], [])), (ascii "\"\\256\"", none), (ascii "\"\\25\"", none), (ascii "\"\\2x5\"", none),
  (ascii "\"abc", none), (ascii "abc\"", none), (ascii "  ", none), ([], none), (ascii "\"\\\"", none), (ascii "\"\\x\"", some (ascii "x", [])), ([34] ++ chars 256 ++ [34], none), ([34] ++ chars 255 ++ [34], some (chars 255, [])),
  ([34] ++ chars 255 ++ ascii "\\065" ++ [34], none), ([34] ++ chars 254 ++ ascii "\\065" ++ [34], some (chars 254 ++ [65], [])), (ascii "\"a\nb\"\"c\"", some (ascii "a\nb", ascii "\"c\""))]
def read41 : Bool := table.all fun (s, e) => match read_char_string ⟨s, 0⟩, e with | (.ok d, b), some (d', r) => d == d' && b.raw.drop b.pos == r | (.err, _), none => true | _, _ => false
/-- C42 -/
def texts : List (List UInt8) := [[], ascii "a", ascii " a.b  300\tIN ", ascii "\r\n x\x0cyy z", ascii "   ", [195,169,32,195,169], ascii "a b c d e"]
def nextN : Nat → StrBuf → List (Res (Option (List UInt8))) × StrBuf
  | 0, b => ([], b)
  | k+1, b => let (r, b) := read_str b; let (rs, b) := nextN k b; (r :: rs, b)
def next42 : Bool := texts.all fun s => (List.range 8).all fun k =>
  let (rs, b) := nextN k ⟨s, 0⟩
  rs == (List.range k).map (fun i => .ok (words s)[i]?) &&
  match (read_left b).1 with
  | .ok o => let l := o.getD []; words l == (words s).drop k && s.drop (s.length - l.length) == l && words (s.take (s.length - l.length)) == (words s).take k && o != some [] && ((read_left (read_left b).2).1 == .ok none)
  | _ => false
/-- C70 -/
def www : Name := Name.ofLabels [[119, 119, 87], [97]]
def rds : List RData := [⟨.A, [.ip [1,2,3,255]]⟩, ⟨.AAAA, [.ip (chars 16)]⟩, ⟨.NS, [.name www]⟩, ⟨.TXT, [.text [[32,34,10,200],[97]]]⟩, ⟨.MX, [.u16 65535, .name (Name.ofLabels [])]⟩,
  ⟨.SOA, [.name www, .name www, .u32 0, .u32 4294967295, .u32 10, .u32 99, .u32 1000]⟩, ⟨.SRV, [.u16 0, .u16 9, .u16 10, .name www]⟩, ⟨.NAPTR, [.u16 1, .u16 2, .bytes [32,34], .bytes [92], .bytes [1], .name www]⟩,
  ⟨.RRSIG, [.rrtype .A, .u8 8, .u8 255, .u32 300, .u32 1600000000, .u32 4294967295, .u16 7, .name www, .bytes [1,2,3]]⟩, ⟨.RRSIG, [.rrtype .ANY, .u8 8, .u8 0, .u32 300, .u32 0, .u32 951782400, .u16 7, .name www, .bytes [9]]⟩,
  ⟨.DS, [.u16 7, .u8 1, .u8 2, .bytes [0,16,255]]⟩, ⟨.DNSKEY, [.u16 7, .u8 1, .u8 2, .bytes [0,16,255]]⟩, ⟨.NSEC3PARAM, [.u8 1, .u8 2, .u16 3, .bytes [10]]⟩, ⟨.OPT, [.bytes [1,2]]⟩, ⟨.CAA, [.u8 1, .bytes (ascii "issue"), .bytes (ascii "a b\"")]⟩]
def good (rd : RData) : Bool := (rd.to_str x matches .ok _)
def one70 : Bool := rds.all fun rd => !good rd || [RRClass.IN, .CH, .HS].all fun c =>
  let r : RRset := ⟨www, rd.kind, c, 86400, [rd]⟩
  match r.to_string x with | .ok t => RRset.from_str x .debug t == .ok r && t.getLast? == some 10 && RRset.from_str x .debug (t.dropLast) == .ok r && RRset.from_strs x .debug [t] == .ok r && !t.dropLast.contains 10 | _ => false
def many70 : Bool := rds.all fun rd => !good rd || rd.kind == .OPT ||
  let r : RRset := ⟨www, rd.kind, .IN, 86400, [rd, rd, rd]⟩
  match r.to_string x, RRset.to_string x ⟨www, rd.kind, .IN, 86400, [rd]⟩ with | .ok t, .ok l => t == l ++ l ++ l && RRset.from_strs x .debug [l, l, l] == .ok r | _, _ => false
def data70 : Bool := rds.all fun rd => !good rd || match rd.to_str x with | .ok t => RData.from_str x .debug rd.kind (ascii " \t" ++ t) == .ok rd | _ => false
def lay70 : Bool := [ascii " a.  5 in\tns  wwW.a. ", ascii "\na. 5 ns wwW.a.\n", ascii "a. 5 IN NS wwW.a", ascii "a. 05 nS wwW.a."].all fun t => RRset.from_str x .debug t == .ok ⟨Name.ofLabels [[97]], .NS, .IN, 5, [⟨.NS, [.name www]⟩]⟩
/-- C71 -/
def bad : List (List UInt8) := [ascii "a", ascii "a. 5", ascii "a. 5 IN", ascii "a. 5 IN RRSIG", ascii "a. 5 IN RRSIG A 8 2 300 2020 1", ascii "a. 5 IN RRSIG A 8 2 300 20201301000000 1", ascii "a. 5 IN RRSIG A 8 2 300 20200101250000 1",
  ascii "a. 5 IN TXT \"", ascii "a. 5 IN TXT \"\\", ascii "a. 5 IN TXT \"\\2", ascii "a. 4294967296 IN A", ascii "a. 5 IN DS 1 2 3 0", ascii "a. 5 XX A", ascii "a. 5 IN TYPE7 00", [195,169], ascii "a. 5 IN TXT \"" ++ [195,169,34], ascii "x 5 IN DNSKEY 1 1 1"]
def safe71 : Bool := bad.all fun s => RRset.from_str x .debug s != .panic
def ops : List TextOp := [.next, .left, .charString, .text]
def calls71 : Bool := ([ascii "\"a", ascii "\"\\2", [], ascii " ", ascii "a \"b", ascii "\"a\"\"b\" ", [34] ++ chars 300]).all fun s => ops.all fun a => ops.all fun b => ops.all fun c => !(TextOp.run [a,b,c] ⟨s,0⟩).contains .panic
def uni71 : Bool := ([[195,169,32,195,169], [34,195,169,34,195,169], ascii " " ++ [226,130,172]]).all fun s => ops.all fun a => ops.all fun b =>
  (TextOp.run [a] ⟨s,0⟩).contains .err || !(TextOp.run [a,b] ⟨s,0⟩).contains .panic
def all : List (String × Bool) := [("C41 round", round41), ("C41 text", text41), ("C41 ascii", asc41), ("C41 read", read41), ("C42", next42), ("C70 one", one70), ("C70 many", many70), ("C70 data", data70), ("C70 layout", lay70), ("C71 records", safe71), ("C71 calls", calls71), ("C71 unicode", uni71)]
#eval (all.filter fun p => !p.2).map (·.1)
end Probe
