import Verif.Model.Std
open R53
namespace Probe
/-- C84: texts of data, and what they denote -/
def t : List (RRType × String × Option (List FieldVal)) := [
 (.A, "1.2.3.4", some [.ip [1,2,3,4]]), (.A, "1.2.3.04", none), (.A, "1.2.3", none), (.A, "1.2.3.256", none), (.A, "255.255.255.255", some [.ip [255,255,255,255]]), (.A, "1.2.3.4.5", none), (.A, "0001.2.3.4", none), (.A, "1..2.3", none),
 (.AAAA, "::", some [.ip (List.replicate 16 0)]), (.AAAA, "1:2:3:4:5:6:7:8", some [.ip [0,1,0,2,0,3,0,4,0,5,0,6,0,7,0,8]]), (.AAAA, "1:2:3:4:5:6:7::8", none), (.AAAA, "1:2:3:4:5:6:7::", some [.ip [0,1,0,2,0,3,0,4,0,5,0,6,0,7,0,0]]),
 (.AAAA, "1:2:3:4:5:6:1.2.3.4", some [.ip [0,1,0,2,0,3,0,4,0,5,0,6,1,2,3,4]]), (.AAAA, "1:2:3:4:5:6:7:1.2.3.4", none), (.AAAA, "::1.2.3.4", some [.ip [0,0,0,0,0,0,0,0,0,0,0,0,1,2,3,4]]), (.AAAA, "::12345", none), (.AAAA, "::00aF", some [.ip [0,0,0,0,0,0,0,0,0,0,0,0,0,0,0,0xaf]]), (.AAAA, "1::2::3", none), (.AAAA, ":1::", none), (.AAAA, "::1.2.3.4:5", none), (.AAAA, "1:2:3:4:5:6:7:8:9", none),
 (.MX, "+10 a.", some [.u16 10, .name (Name.ofLabels [[97]])]), (.MX, "-10 a.", none), (.MX, "+ a.", none), (.MX, "65536 a.", none), (.MX, "0065535 a.", some [.u16 65535, .name (Name.ofLabels [[97]])]), (.MX, "1", none), (.MX, "1 a. b.", some [.u16 1, .name (Name.ofLabels [[97]])]),
 (.NS, "a\\.b", some [.name (Name.ofLabels [[97,46],[98]])]), (.NS, "x\\065y", some [.name (Name.ofLabels [[120,53,121]])]), (.NS, "\\ab", some [.name (Name.ofLabels [[92,97,97,98]])]), (.NS, "a\\256", none), (.NS, "a\\bc", some [.name (Name.ofLabels [[97,98,98,99]])]), (.NS, "@", some [.name (Name.ofLabels [])]), (.NS, "a\\", none), (.NS, "a..b", none), (.NS, ".a", none), (.NS, "a\\\\b", some [.name (Name.ofLabels [[97,92,98,98]])]),
 (.DNSKEY, "1 2 3 Zm9v", some [.u16 1, .u8 2, .u8 3, .bytes (ascii "foo")]), (.DNSKEY, "1 2 3 Zm9 vYg", some [.u16 1, .u8 2, .u8 3, .bytes (ascii "foob")]), (.DNSKEY, "1 2 3 Zm9vYg=", some [.u16 1, .u8 2, .u8 3, .bytes (ascii "foob")]), (.DNSKEY, "1 2 3 Zm9vYg===", none), (.DNSKEY, "1 2 3 Zm9vYh==", none), (.DNSKEY, "1 2 3 Zm9vYmF=", none), (.DNSKEY, "1 2 3 Z", none), (.DNSKEY, "1 2 3 Zm9v\u00a0Ym\u2003E=", some [.u16 1, .u8 2, .u8 3, .bytes (ascii "fooba")]), (.DNSKEY, "1 2 3 Zm_v", none), (.DNSKEY, "1 2 3", none),
 (.DS, "1 2 3 0aF0", some [.u16 1, .u8 2, .u8 3, .bytes [0x0a,0xf0]]), (.DS, "1 2 3 0aF", none), (.DS, "1 2 256 0aF0", none),
 (.CAA, "0 \"issue\" \"a\\\"b\"", some [.u8 0, .bytes (ascii "issue"), .bytes (ascii "a\"b")]), (.CAA, "0 issue \"a\"", none)]
def stamp (s : String) : Res RData := RData.from_str stdExt .release .RRSIG (ascii ("A 8 2 300 " ++ s ++ " 19700101000000 7 a. Zm9v"))
def ts : List (String × Option UInt32) := [("20200229235959", some 1583020799), ("20190229000000", none), ("20201301000000", none), ("20200100000000", none), ("20200101240000", none), ("20200101236000", none), ("20200101235960", none), ("20200931000000", none), ("20201231000000", some 1609372800), ("2020+1+1000000", some 1577836800), ("-00101010000+0", some 2225754240), ("21060207062816", some 0), ("2020010100000", none), ("202001010000000", none), ("19000229000000", none), ("20000229000000", some 951782400)]
def bad : List String := (t.filter fun (k, s, e) => (RData.from_str stdExt .release k s.toUTF8.toList) != (match e with | some v => .ok ⟨k, v⟩ | none => .err)).map (fun p => p.2.1)
def badTs : List String := (ts.filter fun (s, e) => (match stamp s, e with | .ok ⟨_, vs⟩, some v => vs[4]? != some (.u32 v) | .err, none => false | _, _ => true)).map (·.1)
def lines : List (String × Option RRset) := [
 ("a 1 A 1.2.3.4", some ⟨Name.ofLabels [[97]], .A, .IN, 1, [⟨.A, [.ip [1,2,3,4]]⟩]⟩), ("a 1 ch a 1.2.3.4", some ⟨Name.ofLabels [[97]], .A, .CH, 1, [⟨.A, [.ip [1,2,3,4]]⟩]⟩), ("\u00a0a 1 ch a 1.2.3.4\u3000\u2009", some ⟨Name.ofLabels [[97]], .A, .CH, 1, [⟨.A, [.ip [1,2,3,4]]⟩]⟩),
 ("a 1 ın nſ b", some ⟨Name.ofLabels [[97]], .NS, .IN, 1, [⟨.NS, [.name (Name.ofLabels [[98]])]⟩]⟩), ("a IN A 1.2.3.4", none), ("a 1 IN 1.2.3.4", none), ("a 4294967296 A 1.2.3.4", none), ("a 1 xx A 1.2.3.4", none), ("a 1 IN IN A 1.2.3.4", none), ("a 1 A", none), ("a 1 ANY A 1.2.3.4", some ⟨Name.ofLabels [[97]], .A, .ANY, 1, [⟨.A, [.ip [1,2,3,4]]⟩]⟩), ("a 1 TSIG 00", none)]
def badLines : List String := (lines.filter fun (s, e) => RRset.from_str stdExt .release s.toUTF8.toList != (match e with | some v => .ok v | none => .err)).map (·.1)
#eval (bad ++ badTs ++ badLines).map fun s => "C84 " ++ s
end Probe
