import Verif.Spec.Seek
import Verif.Model.Message
import Verif.Spec.Size
open R53
/-! executable form of c73_exact and c73_cases on messages with colliding names and with empty data -/
def nA : Name := Name.ofLabels [[114, 116, 109, 122]]
def nB : Name := Name.ofLabels [[114, 117, 112, 115]]
def nAx : Name := Name.ofLabels [[120], [114, 116, 109, 122]]
def nBx : Name := Name.ofLabels [[120], [114, 117, 112, 115]]
def nS : Name := Name.ofLabels [[55, 98, 110, 100]]
def nL : Name := Name.ofLabels [[97, 50], [113, 105]]
def aSet (n : Name) (k : Nat) : RRset := ⟨n, .A, .IN, 60, (List.range k).map fun i => ⟨.A, [.ip [10, 0, 0, UInt8.ofNat i]]⟩⟩
def cSet (n t : Name) : RRset := ⟨n, .CNAME, .IN, 60, [⟨.CNAME, [.name t]⟩]⟩
def msg (q : Name) (s : List RRset) : Response := ⟨⟨0x1234, 0x8000, .Query, .NoError, 1, UInt16.ofNat s.length, 0, 0⟩, ⟨q, .A, .IN⟩, some s, none, none⟩
def msgs : List Response := [
  msg nA [cSet nA nB, aSet nB 4], msg nA [cSet nA nB, aSet nB 2], msg nA [cSet nA nB, aSet nB 3], msg nA [cSet nA nB, aSet nA 2, aSet nB 1, cSet nB nA],
  msg nAx [cSet nAx nBx, aSet nBx 2], msg nB [cSet nB nA, aSet nA 5], msg nB [cSet nA nBx, cSet nBx nAx, aSet nA 1, aSet nB 1],
  msg nA [⟨nA, .TXT, .IN, 0, [⟨.TXT, [.text []]⟩]⟩], msg nA [⟨nB, .OPT, .IN, 0, []⟩, aSet nB 2],
  msg nA [⟨nA, .TXT, .IN, 0, [⟨.TXT, [.text []]⟩, ⟨.TXT, [.text [[1]]]⟩]⟩], msg nA [aSet nA 20], msg nB [], msg nS [cSet nS nL, aSet nL 3, aSet nS 3], msg nL [cSet nL nS, aSet nS 3, aSet nL 3]]
def agree (m : Response) (L : Nat) : Bool :=
  let out := m.to_wire (Render.new (List.replicate L 0xff))
  match m.written with
  | some x => if x.room ≤ L then (match out with | (.ok n, r) => n = x.octets.length ∧ r.data = x.octets | _ => false)
              else (match out with | (.ok n, r) => n = m.headSize ∧ r.data.length = m.headSize ∧ m.headSize ≤ L | (.err, _) => L < m.headSize | (.panic, _) => m.headSize ≤ L ∧ L < m.headSize + 255)
  | none => (match out with | (.ok n, r) => n = m.headSize ∧ r.data.length = m.headSize ∧ m.headSize ≤ L | (.err, _) => L < m.headSize | (.panic, _) => m.headSize ≤ L ∧ L < m.headSize + 255)
def refuted : List Nat := (List.range msgs.length).filter fun i =>
  ((List.range 300).any fun L => !(agree (msgs.getD i (msg nA [])) L))
#eval refuted
