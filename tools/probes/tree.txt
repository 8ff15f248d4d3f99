import Verif.Spec.Tree
open R53 R53.Dom
namespace Probe
def names : List (List Label) := [[[97],[99,111,109]],[[65],[99,111,109]],[[98],[99,111,109]],[[99],[99,111,109]],[[100],[99,111,109]],[[101],[99,111,109]],[[102],[99,111,109]],
  [[103],[99,111,109]],[[104],[99,111,109]],[[105],[99,111,109]],[[106],[99,111,109]],[[99,111,109]],[[120],[97],[99,111,109]],[[121],[120],[97],[99,111,109]],[[122],[121],[97],[99,111,109]],[[110]],[[111]],[],
  [[120],[97,97],[99]],[[121],[97,97],[99]],[[97,97],[99]]]
def next (s : Nat) : Nat := (s * 6364136223846793005 + 1442695040888963407) % 2^64
def gen : Nat → Nat → List (TOp Nat)
  | 0, _ => []
  | n+1, s =>
    let s1 := next s; let s2 := next s1
    let nm := names.getD ((s2 / 2^33) % names.length) []
    let k := (s1 / 2^35) % 12
    (if k < 6 then .insert nm (some (n+1)) else if k < 9 then .removeNode nm else if k < 10 then .get nm else if k < 11 then .callback nm true else .wildcard nm true) :: gen n s2
/-- C58 -/
def map58 (ops : List (TOp Nat)) : Bool := match (TOp.run .debug ops Dom.new).1 with | .ok o => o == TOp.specRun (fun _ => none) ops | _ => false
/-- C68 -/
def safe68 (ops : List (TOp Nat)) : Bool := (TOp.run .debug ops Dom.new).1 matches .ok _
def toTr (s : Dom Nat) : Nat → Ptr → Option (Tr Nat)
  | 0, _ => none
  | f+1, p => if p = 0 then some .nil else do
    let n ← s.heap p
    let l ← toTr s f n.left; let d ← toTr s f n.down; let r ← toTr s f n.right
    some (.node ⟨p, n.flag.is_red, n.flag.is_callback_enabled, n.flag.is_wildcard, [], n.value⟩ l d r)
def bh : Tr Nat → Option Nat
  | .nil => some 0
  | .node i l _ r => do
    let a ← bh l; let b ← bh r
    if a ≠ b then none else if i.red && (l.isRed || r.isRed) then none else some (if i.red then a else a + 1)
def lay (s : Dom Nat) (par : Ptr) (sub : Bool) : Tr Nat → Bool
  | .nil => true
  | .node i l d r => (match s.heap i.addr with | some n => n.parent == par && n.flag == mkFlag i.red sub i.cb i.wc | none => false) && lay s i.addr false l && lay s i.addr true d && lay s i.addr false r
/-- C61 -/
def bal61 (ops : List (TOp Nat)) : Bool :=
  let s := (TOp.run .debug ops Dom.new).2
  match toTr s (s.next + 1) s.root with
  | some t => lay s 0 true t && t.levels.all fun x => (bh x).isSome && !x.isRed
  | none => false
/-- C62 -/
def len62 (ops : List (TOp Nat)) : Bool :=
  let s := (TOp.run .debug ops Dom.new).2
  match toTr s (s.next + 1) s.root with
  | some t => s.len == t.size
  | none => false
/-- C63 -/
def chain63 (ops : List (TOp Nat)) : Bool :=
  let s := (TOp.run .debug ops Dom.new).2
  names.all fun ls => match s.find_node .debug (Name.ofLabels ls) .new with
    | .ok (r, c) => if r.flag = .NotFound then true else match c.pop with
      | .ok (c', p) => p == r.node && (match s.look p with
        | .ok n => (match s.get_absolute_name c' n.name with | .ok nm => (match s.find .debug nm with | .ok r' => r' == ⟨p, .ExactMatch⟩ | _ => false) && (r.flag != .ExactMatch || nm.raw.map lowerByte == (Name.ofLabels ls).raw.map lowerByte) | _ => false)
        | _ => false)
      | _ => false
    | _ => false
/-- C59 -/
def close59 (ops : List (TOp Nat)) : Bool :=
  let s := (TOp.run .debug ops Dom.new).2
  let q := fun ls => s.find .debug (Name.ofLabels ls)
  let all := names ++ names.map ([113] :: ·)
  all.all fun ls => match q ls with
    | .ok r => if r.flag = .ExactMatch then true else
       let sufs := (List.range (ls.length + 1)).map (ls.drop ·)
       (match sufs.findSome? (fun k => match q k with | .ok ⟨p, .ExactMatch⟩ => some p | _ => none) with
         | some p => r == ⟨p, .PartialMatch⟩
         | none => r == ⟨0, .NotFound⟩)
    | _ => false
def seeds : List (List (TOp Nat)) := (List.range 60).map fun i => gen (10 + i) (i * 7919 + 3)
#eval (([("C58", map58), ("C59", close59), ("C61", bal61), ("C62", len62), ("C63", chain63), ("C68", safe68)] : List (String × (List (TOp Nat) → Bool))).filter fun p => !seeds.all p.2).map Prod.fst
end Probe
