import Verif.Model.Show
import Verif.Model.Build
import Verif.Model.Hex
open R53
namespace Probe
def hx (d : List UInt8) : List UInt8 := match Hex.to_hex d with | .ok t => t | _ => []
def x : Ext := ⟨hx, Hex.from_hex, hx, Hex.from_hex, hx, Hex.from_hex⟩
def okEq {α} [DecidableEq α] (r : Res α) (a : α) : Bool := match r with | .ok b => b == a | _ => false
def nm (l : List (List UInt8)) : Name := Name.ofLabels l
def w : Name := nm [[119],[97]]
def v : Name := nm [[118],[97]]
def a4 (b : UInt8) : RData := ⟨.A, [.ip [1,2,3,b]]⟩
def sA : RRset := ⟨w, .A, .IN, 60, [a4 4, a4 5]⟩
def sB : RRset := ⟨v, .A, .IN, 60, [a4 4]⟩
def sN : RRset := ⟨w, .NS, .IN, 61, [⟨.NS, [.name v]⟩]⟩
def secs : List Section := [none, some [sA], some [sB], some [sA, sN], some [sN, sA]]
def ed (d : Bool) (s : UInt16) (ver : UInt8) : RRset := (Edns.mk ver 0 s d none).to_rrset
def adds : List Section := [none, some [sB], some [sB, ed false 512 0], some [ed false 512 0], some [ed true 512 0], some [ed false 513 0], some [ed false 512 1]]
def cnt (s : Section) : UInt16 := UInt16.ofNat (Section.rr_count s)
def msgs : List Response := (secs.flatMap fun a => secs.flatMap fun n => adds.map fun d => ⟨⟨7,0x8180,.Query,.NoError,1,cnt a,cnt n,cnt d⟩,⟨w,.A,.IN⟩,a,n,d⟩) ++
  ([7,8].flatMap fun i => [0,0x8000,0x100,0x8180].flatMap fun f => [Opcode.Query,.Notify].flatMap fun o => [Rcode.NoError,.NXDomain].flatMap fun r => [⟨w,.A,.IN⟩,⟨w,.NS,.IN⟩,⟨w,.A,.CH⟩,⟨v,.A,.IN⟩].map fun q =>
    ⟨⟨i,f,o,r,1,3,0,0⟩,q,some [sA,sN],none,none⟩) ++
  ([(0,1,3),(1,0,3),(1,3,0),(2,1,3)].map fun (q,n,d) => ⟨⟨7,0,.Query,.NoError,q,3,n,d⟩,⟨w,.A,.IN⟩,some [sA,sN],none,none⟩)
def distinct {α β} [BEq α] [BEq β] (l : List (α × β)) : Bool := l.all fun p => l.all fun q => (p.1 == q.1) == (p.2 == q.2)
instance : BEq (Res (List UInt8)) := ⟨fun a b => match a, b with | .ok a, .ok b => a == b | _, _ => false⟩
def lines (t : List UInt8) : List (List UInt8) := t.splitOn 10
def shown : Bool := (msgs.map fun m => (m, m.to_string x)) |> fun l => distinct l
def back : Bool := msgs.all fun m => match m.to_string x with
  | .ok t => let rec_ := ((lines t).filter fun l => l.contains 9).map (RRset.from_str x .debug)
      let want := [m.answer, m.authority, m.additional].flatMap fun s => ((s.getD []).filter (·.typ != .OPT)).flatMap fun s => s.rdatas.map fun d => ({ s with rdatas := [d] } : RRset)
      rec_.length == want.length && (rec_.zip want).all fun (r, q) => okEq r q
  | _ => false
def req : Bool := distinct ([Question.mk w .A .IN, ⟨v,.A,.IN⟩, ⟨w,.NS,.IN⟩].flatMap fun q => [7,8].map fun i => ((⟨⟨i,0,.Query,.NoError,1,0,0,0⟩,q⟩ : Request), (⟨⟨i,0,.Query,.NoError,1,0,0,0⟩,q⟩ : Request).to_string))
def lit : Bool := okEq (Response.to_string x ⟨⟨7,0x8180,.Query,.NoError,1,2,0,1⟩,⟨w,.A,.IN⟩,some [sA],none,some [ed true 512 0]⟩)
  (ascii ";; ->>HEADER<<- opcode: QUERY, status: NOERROR, id: 7\n;; flags:  qr rd ra; QUERY: 1, ANSWER: 2, AUTHORITY: 0, ADDITIONAL: 1, \n;; OPT PSEUDOSECTION:\n; EDNS: version: 0, flags: do; udp: 512;; QUESTION SECTION:\nw.a. IN A\n\n;; ANSWER SECTION:\nw.a.\t60\tIN\tA\t01020304\nw.a.\t60\tIN\tA\t01020305\n\n;; ADDITIONAL SECTION:\n")
def eqm := msgs.filter fun m => (m.additional.getD []).all (·.typ != .OPT)
def eqs : Bool := eqm.all fun a => eqm.all fun b => okEq (Response.eq (fun l => .ok l) a b) (a == b)
def bld : Bool := match Builder.build x .debug 7 (ascii "w.a") .A [[ascii "w.a 60 IN A 01020304", ascii "w.a 60 IN A 01020305"]] [[ascii "w.a 61 IN NS v.a"]] [[ascii "v.a 60 IN A 01020304"]] (some 512) with
  | .ok m => m == ⟨⟨7,0x8100,.Query,.NoError,1,2,1,2⟩,⟨w,.A,.IN⟩,some [sA],some [sN],some [sB, ed false 512 0]⟩ | _ => false
#eval (([("shown/C81",shown),("back/C81",back),("req/C81",req),("lit/C81",lit),("eqs/C79",eqs),("bld/C77",bld)] : List (String × Bool)).filter fun p => !p.2).map (·.1)
