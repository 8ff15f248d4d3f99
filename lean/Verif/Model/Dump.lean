import Verif.Model.Tree
import Verif.Model.Text
/-!
# Model of what the domain tree prints

`DomainTree::dump` (tree.rs) and `Display for NodeChain` (node_chain.rs), as the octets they print, and the `Ord` of `NodePtr` (node.rs).
-/
namespace R53

/-- derived `Debug` of `Color`, flag.rs:41-45 -/
def Color.debug : Color → List UInt8
  | .Red => ascii "Red"
  | .Black => ascii "Black"

/-- derived `Debug` of `NameRelation`, name.rs:13-20 -/
def NameRelation.debug : NameRelation → List UInt8
  | .SuperDomain => ascii "SuperDomain"
  | .SubDomain => ascii "SubDomain"
  | .Equal => ascii "Equal"
  | .CommonAncestor => ascii "CommonAncestor"
  | .None => ascii "None"

/-- derived `Debug` of `NameComparisonResult`, name.rs:41-46; the order is an `i8` -/
def NameComparisonResult.debug (c : NameComparisonResult) : List UInt8 :=
  ascii "NameComparisonResult { order: " ++ (if c.order < 0 then ascii "-" else []) ++ decimal c.order.natAbs ++ ascii ", common_label_count: " ++
    decimal c.common_label_count ++ ascii ", relation: " ++ c.relation.debug ++ ascii " }"

namespace Dom
variable {T : Type}

/-- tree.rs:552-555; the depth times five is taken to be within `usize` -/
def indent (depth : Nat) : List UInt8 := List.replicate (depth * 5) 32

/-- tree.rs:521-528: which child of its parent a node is -/
def dumpSide (s : Dom T) (p parent : Ptr) : Res (List UInt8) :=
  if parent = 0 then .ok []
  else do
    let q ← s.look parent
    pure (if q.left = p then ascii "left>" else if q.right = p then ascii "right>" else [])

/-- tree.rs:513-549; recursion on pointers, so with a bound -/
def dump_helper (s : Dom T) : Nat → Ptr → Nat → Res (List UInt8)
  | 0, _, _ => .panic
  | fuel + 1, p, depth =>
    if p = 0 then .ok (indent depth ++ ascii "NULL\n")
    else do
      let n ← s.look p
      let side ← s.dumpSide p n.parent
      let name ← n.name.to_string
      let down ← (if n.down = 0 then .ok []
        else do
          let d ← s.look n.down
          let dn ← d.name.to_string
          let t ← dump_helper s fuel n.down (depth + 1)
          pure (indent (depth + 1) ++ ascii "begin down from " ++ dn ++ ascii "\n\n" ++ t ++ indent (depth + 1) ++ ascii "end down from " ++ dn ++ ascii "\n")
        : Res (List UInt8))
      let l ← dump_helper s fuel n.left (depth + 1)
      let r ← dump_helper s fuel n.right (depth + 1)
      pure (indent depth ++ side ++ name ++ ascii " (" ++ n.flag.get_color.debug ++ ascii ")" ++
        (if n.value.isNone then ascii "[invisible]" else []) ++ (if n.flag.is_subtree_root then ascii " [subtreeroot]" else []) ++ ascii "\n" ++
        down ++ l ++ r)

/-- tree.rs:507-511 -/
def dump (s : Dom T) (depth : Nat) : Res (List UInt8) := do
  let t ← s.dump_helper (s.next + 1) s.root depth
  pure (indent depth ++ ascii "tree has " ++ decimal s.len ++ ascii " node(s)\n" ++ t)

/-- the names of the nodes of a chain, node_chain.rs:24-26 -/
def chainText (s : Dom T) : List Ptr → Res (List UInt8)
  | [] => .ok []
  | p :: ps => do
    let n ← s.look p
    let t ← n.name.to_string
    let ts ← chainText s ps
    pure (t ++ ascii "," ++ ts)

/-- `Display for NodeChain` node_chain.rs:13-31 -/
def Chain.to_string (s : Dom T) (c : Chain) : Res (List UInt8) :=
  if c.last_compared = 0 then .ok (ascii "level: " ++ decimal c.nodes.length ++ ascii ", last_compared is nil")
  else do
    let t ← s.chainText c.nodes
    pure (ascii "level: " ++ decimal c.nodes.length ++ ascii ", last_compared_relation " ++ c.last_compared_result.debug ++
      ascii " nodes:[" ++ t ++ ascii " ]")

/-- `Ord for NodePtr` node.rs:43-47 (`PartialOrd`, node.rs:49-53, is the same); the equality (node.rs:55-59) is that of addresses -/
def ptrCmp (m : Build) (s : Dom T) (p q : Ptr) : Res Ordering := do
  let a ← s.look p
  let b ← s.look q
  a.name.cmp m b.name

/-- a write through `FindResult::get_value_mut`, tree.rs:40-47: nothing happens where it gives `None` -/
def write (r : FindResult) (v : T) : St (Dom T) Bool :=
  if r.flag = .NotFound then pure false
  else do
    let n ← deref r.node
    if n.value.isNone then pure false
    else do
      upd r.node fun n => { n with value := some v }
      pure true

end Dom
end R53
