import Verif.Spec.Name
import Verif.Spec.Slice
import Verif.Model.Show
open R53
namespace Probe
def okEq {α} [DecidableEq α] (r : Res α) (a : α) : Bool := match r with | .ok b => b == a | _ => false
def isOk {α} (r : Res α) : Bool := match r with | .ok _ => true | _ => false
def isPanic {α} (r : Res α) : Bool := match r with | .panic => true | _ => false
def isErr {α} (r : Res α) : Bool := match r with | .err => true | _ => false
abbrev L := List (List UInt8)
def b63 : List UInt8 := List.replicate 63 120
def lss : List L := [[], [[97]], [[65]], [[98]], [[97],[97]], [[119,119,119],[101,120],[97]], [[87,119,119],[69,120],[65]], [[101,120],[97]], [[42],[97]], [[42]], [[42,97],[97]],
  [[97,98],[99]], [[97],[98,99]], [[97,98,99]], [b63,b63,b63,List.replicate 61 121], [b63,b63,b63,List.replicate 60 121], [b63], List.replicate 127 [122], List.replicate 5 [122], [[90],[122]], [[91],[97]], [[64],[97]], [[96]], [[123]], [[97,98],[97]], [[3,97],[1,97]],[[1,97]]]
def lowL (l : L) : L := l.map fun x => x.map fun c => if 65 ≤ c ∧ c ≤ 90 then c + 32 else c
def nm (l : L) : Name := Name.ofLabels l
def sq (l : L) : LabelSequence := LabelSequence.ofLabels l
def wlen (l : L) : Nat := (l.map fun x => x.length + 1).sum + 1
def valid (l : L) : Bool := wlen l ≤ 255
def com : L → L → Nat
  | a :: as, b :: bs => if a == b then com as bs + 1 else 0
  | _, _ => 0
def common (a b : L) : Nat := com (lowL a).reverse (lowL b).reverse + 1
def rel (a b : L) : NameRelation := let c := common a b - 1
  if c == a.length && c == b.length then .Equal else if c == a.length then .SuperDomain else if c == b.length then .SubDomain else .CommonAncestor
def cmpB : List UInt8 → List UInt8 → Ordering
  | [], [] => .eq | [], _ => .lt | _, [] => .gt
  | a :: as, b :: bs => if a < b then .lt else if a > b then .gt else cmpB as bs
def cmpL : L → L → Ordering
  | [], [] => .eq | [], _ => .lt | _, [] => .gt
  | a :: as, b :: bs => match cmpB a b with | .eq => cmpL as bs | o => o
def ks : List Nat := [0,1,2,3,4,5,127,128]
def eq_ : Bool := lss.all fun a => lss.all fun b => okEq ((nm a).eq (nm b)) (lowL a == lowL b)
def hash_ : Bool := lss.all fun a => lss.all fun b => ((nm a).hashFeed == (nm b).hashFeed) == (lowL a == lowL b)
def cmp_ : Bool := lss.all fun a => lss.all fun b => [Build.debug, Build.release].all fun m => okEq ((nm a).cmp m (nm b)) (cmpL (lowL a).reverse (lowL b).reverse)
def rel_ : Bool := lss.all fun a => lss.all fun b => match (nm a).get_relation .debug (nm b) with | .ok r => r.relation == rel a b && r.common_label_count == common a b | _ => false
def sane (a : L) : Bool := a.all fun x => x.all (· > 41)
def sub_ : Bool := lss.all fun a => [[], [[101,120],[97]], [[119,119,119],[101,120],[97]], [[87,119,119],[69,120],[65]]].all fun b => !sane a || !sane b || okEq ((nm a).is_subdomain (nm b)) ((lowL b).isSuffixOf (lowL a))
def split_ : Bool := lss.all fun a => ks.all fun i => ks.all fun k =>
  let all := a ++ [[]]; let r := (nm a).split i k
  if i ≥ all.length then isErr r else if k == 0 then true else let got := ((all.drop i).take k).filter (· ≠ []); okEq r (nm got)
def parent_ : Bool := lss.all fun a => ks.all fun i => if i ≤ a.length then okEq ((nm a).parent i) (nm (a.drop i)) else !isOk ((nm a).parent i)
def strip_ : Bool := lss.all fun a => ks.all fun i => if i ≤ a.length then okEq ((nm a).strip_left i) (nm (a.drop i)) && okEq ((nm a).into_ancestor i) (nm (a.drop i)) &&
    okEq ((nm a).strip_right i) (nm (a.take (a.length - i))) && okEq ((nm a).into_child i) (nm (a.take (a.length - i)))
  else isPanic ((nm a).strip_left i) && isPanic ((nm a).strip_right i) && isPanic ((nm a).into_ancestor i) && isPanic ((nm a).into_child i)
def concat_ : Bool := lss.all fun a => lss.all fun b => (if valid (a ++ b) then okEq ((nm a).concat (nm b)) (nm (a ++ b)) else isErr ((nm a).concat (nm b))) &&
  [[], [[97]], [[98],[99]]].all fun c => if valid (a ++ b ++ c) then okEq ((nm a).concat_all [nm b, nm c]) (nm (a ++ b ++ c)) else isErr ((nm a).concat_all [nm b, nm c])
def rev_ : Bool := lss.all fun a => okEq (nm a).reverse (nm a.reverse)
def low_ : Bool := lss.all fun a => okEq (nm a).as_lowercase (nm (lowL a))
def wild_ : Bool := lss.all fun a => okEq (nm a).is_wildcard (a.head? == some [42]) && (nm a).is_root == (a == [])
def intoSeq_ : Bool := lss.all fun a => let all := a ++ [[]]; ks.all fun i => ks.all fun j => !(i ≤ j && j < all.length) || okEq ((nm a).into_label_sequence i j) (sq ((all.drop i).take (j - i + 1)))
def rests : List L := lss ++ lss.map (· ++ [[]])
def good (l : L) : Bool := l ≠ [] && (wire l).length ≤ 255
def seqs : List L := rests.filter good
def seqSplit_ : Bool := seqs.all fun l => ks.all fun i => ks.all fun k => let r := (sq l).split i k
  if i ≥ l.length || k == 0 then isErr r else okEq r (sq ((l.drop i).take k), sq (l.take i ++ l.drop (i + k)))
def seqEq_ : Bool := seqs.all fun a => seqs.all fun b => (sq a).equals (sq b) false == (lowL a == lowL b) && (sq a).equals (sq b) true == (a == b)
def seqCmp_ : Bool := seqs.all fun a => seqs.all fun b => okEq ((sq a).cmp .debug (sq b)) (cmpL (lowL a).reverse (lowL b).reverse)
def seqCat_ : Bool := lss.all fun a => lss.all fun b => a == [] || okEq ((sq a).concat_all [sq (b ++ [[]])]) (nm (a ++ b)) == valid (a ++ b)
  && isErr ((sq (a ++ [[]])).concat_all [sq (b ++ [[]])]) && okEq ((sq (a ++ [[]])).concat_all []) (nm a) && (b == [] || (isErr ((sq a).concat_all [sq b]) && isErr ((sq a).concat_all [sq (b ++ [[]]), sq b]) && isErr ((sq a).concat_all [sq (b ++ [[]]), sq [[]]])
  && okEq ((sq a).concat_all [sq b, sq [[]]]) (nm (a ++ b)) == valid (a ++ b)))
def sl (l : L) : Res LabelSlice := LabelSlice.from_label_sequence (sq l)
def slice_ : Bool := seqs.all fun l => ks.all fun i => ks.all fun j => i + j ≥ l.length || (let sub := (l.drop i).take (l.length - i - j)
  match (do let s ← sl l; let s ← s.strip_left i; s.strip_right j) with
  | .ok s => okEq s.bytes (wire sub) && okEq s.label_count sub.length && okEq s.len (wire sub).length && isPanic (s.strip_left sub.length) && isPanic (s.strip_right sub.length)
  | _ => false)
def sliceCmp_ : Bool := seqs.all fun a => seqs.all fun b => [0,1].all fun i => i ≥ a.length || i ≥ b.length || [true, false].all fun cs =>
  match (do let x ← sl a; let x ← x.strip_left i; let y ← sl b; let y ← y.strip_left i; let e ← x.equals y cs; let r ← x.compare .debug y cs; pure (e, r)) with
  | .ok (e, r) => let f := if cs then id else lowL; let a' := f (a.drop i); let b' := f (b.drop i); e == (a' == b') && r.common_label_count == com a'.reverse b'.reverse && (decide (r.order < 0)) == (cmpL a'.reverse b'.reverse == .lt) && (decide (r.order > 0)) == (cmpL a'.reverse b'.reverse == .gt)
    && (r.relation == .Equal) == (a' == b') && (r.relation == .None) == (com a'.reverse b'.reverse == 0)
  | _ => false
def plain (l : L) : Bool := l.all fun x => x.all fun c => 97 ≤ c && c ≤ 122
def txt (l : L) : List UInt8 := match l with | [] => [] | [x] => x | x :: xs => x ++ [46] ++ txt xs
def text_ : Bool := (lss.filter plain).all fun l => l == [] || (okEq ((sq l).to_string) (txt l) && okEq (LabelSequence.from_str (txt l)) (sq l) && okEq (LabelSequence.from_str (txt l ++ [46])) (sq (l ++ [[]])) && okEq ((sq (l ++ [[]])).to_string) (txt l ++ [46])
  && okEq (nm l).to_string (txt l ++ [46]) && okEq (Name.new (txt l)) (nm l) && okEq (Name.new (txt l ++ [46])) (nm l))
def esc_ : Bool := okEq (nm [[46,92,34,64,36,40,41,59,32,0,127,255,100]]).to_string (ascii "\\.\\\\\\\"\\@\\$\\(\\)\\;\\032\\000\\127\\255d.") && okEq (nm []).to_string [46]
#eval (([("eq/C07",eq_),("hash/C08",hash_),("cmp/C09",cmp_),("rel/C11",rel_),("sub/C12",sub_),("split/C13",split_),("parent/C13",parent_),("strip/C13",strip_),("concat/C14",concat_),("rev/C15",rev_),("low/C16",low_),("wild/C18",wild_),("intoSeq/C17",intoSeq_),
  ("seqSplit/C17",seqSplit_),("seqEq/C17",seqEq_),("seqCmp/C80",seqCmp_),("seqCat/C17",seqCat_),("slice/C80",slice_),("sliceCmp/C80",sliceCmp_),("text/C05,C80",text_),("esc/C05",esc_)] : List (String × Bool)).filter fun p => !p.2).map (·.1)
