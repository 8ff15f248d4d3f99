import Verif.Spec.Nodes
open R53 R53.Dom
namespace Probe
def names : List (List Label) := [[[97],[99,111,109]],[[65],[99,111,109]],[[98],[99,111,109]],[[99],[99,111,109]],[[100],[99,111,109]],[[101],[99,111,109]],[[102],[99,111,109]],
  [[103],[99,111,109]],[[104],[99,111,109]],[[105],[99,111,109]],[[106],[99,111,109]],[[99,111,109]],[[120],[97],[99,111,109]],[[121],[120],[97],[99,111,109]],[[122],[121],[97],[99,111,109]],[[110]],[[111]],[],
  [[120],[97,97],[99]],[[121],[97,97],[99]],[[97,97],[99]]]
def next (s : Nat) : Nat := (s * 6364136223846793005 + 1442695040888963407) % 2^64
def gen : Nat → Nat → List (TOp Nat)
  | 0, _ => []
  | n+1, s =>
    let s1 := next s; let s2 := next s1
    let nm := names.getD ((s2 / 2^33) % names.length) []
    let k := (s1 / 2^35) % 12
    (if k < 6 then .insert nm (some (n+1)) else if k < 9 then .removeNode nm else if k < 10 then .remove nm else if k < 11 then .callback nm true else .wildcard nm true) :: gen n s2

/-- C83 history -/
def hist (ops : List (TOp Nat)) : Bool := match TOp.run .debug ops Dom.new with
  | (.ok o, s) => o == Table.empty.answers ops && s.len == (Table.empty.after ops).nodes.length + (Table.empty.after ops).lost && s.is_empty == (Table.empty.after ops).nodes.isEmpty
  | _ => false
/-- C83 find -/
def fnd (ops : List (TOp Nat)) : Bool :=
  let s := (TOp.run .debug ops Dom.new).2
  let N := (Table.empty.after ops).nodes
  (names ++ names.map ([113] :: ·)).all fun ls => match s.find .debug (Name.ofLabels ls) with
    | .ok r => (match N.closest (lowerName ls) with
      | none => r == ⟨0, .NotFound⟩
      | some k => r.flag == (if k = lowerName ls then .ExactMatch else .PartialMatch) && (match s.look r.node with
        | .ok n => N.at? k == some ⟨n.value, n.flag.is_callback_enabled, n.flag.is_wildcard⟩
        | _ => false))
    | _ => false
/-- C83 insert -/
def ins (ops : List (TOp Nat)) : Bool :=
  let s := (TOp.run .debug ops Dom.new).2
  let N := (Table.empty.after ops).nodes
  (names ++ names.map ([113] :: ·)).all fun ls => match Dom.insert .debug (Name.ofLabels ls) (some 7) s with
    | (.ok (p, a), s') => a == N.insertAnswer (lowerName ls) && (match s'.find .debug (Name.ofLabels ls) with | .ok r => r == ⟨p, .ExactMatch⟩ | _ => false)
    | _ => false
def seeds : List (List (TOp Nat)) := ((List.range 40).map fun i => gen (10 + i) (i * 7919 + 3)) ++ ((List.range 10).map fun i => gen (5 + i) (i * 7919 + 3) ++ [.clear] ++ gen (5 + i) (i * 7918 + 3))
#eval (([("history", hist), ("find", fnd), ("insert", ins)] : List (String × (List (TOp Nat) → Bool))).filter fun p => !seeds.all p.2).map Prod.fst
end Probe
