import Verif.Spec.Mem
open R53 R53.Dom
namespace Probe
def names : List (List Label) := [[[97],[99,111,109]],[[65],[99,111,109]],[[98],[99,111,109]],[[99],[99,111,109]],[[100],[99,111,109]],[[101],[99,111,109]],[[102],[99,111,109]],
  [[103],[99,111,109]],[[104],[99,111,109]],[[105],[99,111,109]],[[106],[99,111,109]],[[99,111,109]],[[120],[97],[99,111,109]],[[121],[120],[97],[99,111,109]],[[122],[121],[97],[99,111,109]],[[110]],[[111]],[],
  [[120],[97,97],[99]],[[121],[97,97],[99]],[[97,97],[99]]]
def next (s : Nat) : Nat := (s * 6364136223846793005 + 1442695040888963407) % 2^64
def gen : Nat → Nat → List (TOp Nat)
  | 0, _ => []
  | n+1, s =>
    let s1 := next s; let s2 := next s1
    let nm := names.getD ((s2 / 2^33) % names.length) []
    let k := (s1 / 2^35) % 12
    (if k < 6 then .insert nm (some (n+1)) else if k < 9 then .removeNode nm else if k < 10 then .remove nm else if k < 11 then .callback nm true else .wildcard nm true) :: gen n s2

def cells (s : Dom Nat) : Nat := ((List.range (s.next + 3)).filter fun p => (s.heap p).isSome).length
/-- C93 allocated -/
def alc (ops : List (TOp Nat)) : Bool := match TOp.run .debug ops Dom.new with
  | (.ok _, s) => cells s == (Table.empty.after ops).nodes.length + (Table.empty : Table Nat).takenOut ops
  | _ => false
/-- C93 drop -/
def drp (ops : List (TOp Nat)) : Bool := match TOp.run .debug ops Dom.new with
  | (.ok _, s) => (match Dom.clear s with | (.ok _, s') => cells s' == (Table.empty : Table Nat).takenOut ops | _ => false)
  | _ => false
def seeds : List (List (TOp Nat)) := ((List.range 40).map fun i => gen (10 + i) (i * 7919 + 3)) ++ ((List.range 10).map fun i => gen (5 + i) (i * 7919 + 3) ++ [.clear] ++ gen (5 + i) (i * 7918 + 3))
#eval (([("allocated", alc), ("drop", drp)] : List (String × (List (TOp Nat) → Bool))).filter fun p => !seeds.all p.2).map Prod.fst
end Probe
