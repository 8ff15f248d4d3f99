import Verif.Model.Tree
/-!
# Node chains as they are stored

`NodeChain` (node_chain.rs) with its array of 128 node pointers and its `level_count`, and the search of tree.rs on such a chain. `Model/Tree`
keeps the part of the array below `level_count` only; `NodeChain.live` cuts it out, and C99 shows that the search cannot tell the difference.
-/
namespace R53
namespace Dom
variable {T : Type}

/-- node_chain.rs:5-11; a node pointer is an address, the null pointer is 0 -/
structure NodeChain where
  level_count : Nat
  nodes : List Ptr
  last_compared : Ptr
  last_compared_result : NameComparisonResult
deriving DecidableEq, Repr

namespace NodeChain

/-- node_chain.rs:34-46 -/
def new : NodeChain := ⟨0, List.replicate 128 0, 0, ⟨0, 0, .Equal⟩⟩

/-- node_chain.rs:63-65; the subtraction panics on an empty chain, or without overflow checks the index is out of bounds -/
def top (c : NodeChain) : Res Ptr := do idx c.nodes (← csub c.level_count 1)

/-- node_chain.rs:68-70 -/
def bottom (c : NodeChain) : Res Ptr := idx c.nodes 0

/-- node_chain.rs:72-76 -/
def push (c : NodeChain) (p : Ptr) : Res NodeChain := do
  assertR (c.level_count < 128)
  pure { c with nodes := c.nodes.set c.level_count p, level_count := c.level_count + 1 }

/-- node_chain.rs:78-82: the chain afterwards, and the node -/
def pop (c : NodeChain) : Res (NodeChain × Ptr) := do
  assertR (0 < c.level_count)
  let p ← idx c.nodes (c.level_count - 1)
  pure ({ c with level_count := c.level_count - 1 }, p)

/-- the loop of node_chain.rs:53-55, from round `i` on for `k` more rounds -/
def fillNames (s : Dom T) (c : NodeChain) : Nat → Nat → List LabelSequence → Res (List LabelSequence)
  | 0, _, names => .ok names
  | k + 1, i, names => do
    let p ← idx c.nodes (c.level_count - i - 1)
    let n ← s.look p
    fillNames s c k (i + 1) (names.set i n.name)

/-- node_chain.rs:48-60; `expect` -/
def get_absolute_name (s : Dom T) (c : NodeChain) (child : LabelSequence) : Res Name := do
  let r ← if c.level_count = 0 then pure (child.concat_all [])
    else do
      let p ← idx c.nodes (c.level_count - 1)
      let n ← s.look p
      let names ← fillNames s c (c.level_count - 1) 1 (List.replicate 128 n.name)
      let names ← slice names 0 c.level_count
      pure (child.concat_all names)
  match r with
  | .ok n => pure n
  | _ => .panic

end NodeChain

/-- the callback test of tree.rs:322-329, as in Model/Tree -/
def callbackA {P : Type} (s : Dom T) (cb : Option (Ptr → Name → P → Bool × P)) (chain : NodeChain) (node : Ptr) (n : Node T) (param : P) :
    Res (Bool × P) :=
  if n.flag.is_callback_enabled then
    match cb with
    | none => .ok (false, param)
    | some f => do
      let name ← chain.get_absolute_name s n.name
      pure (f node name param)
  else .ok (false, param)

/-- the loop of tree.rs:301-341, as in Model/Tree -/
def findLoopA {P : Type} (m : Build) (s : Dom T) (cb : Option (Ptr → Name → P → Bool × P)) :
    Nat → Ptr → LabelSlice → FindResult → NodeChain → P → Res (FindResult × NodeChain × P)
  | 0, _, _, _, _, _ => .panic
  | fuel + 1, node, slice, result, chain, param =>
    if node = 0 then .ok (result, chain, param)
    else do
      let n ← s.look node
      let cur ← LabelSlice.from_label_sequence n.name
      let c ← slice.compare m cur false
      let chain := { chain with last_compared := node, last_compared_result := c }
      match c.relation with
      | .Equal => do
        let chain ← chain.push node
        pure (⟨node, .ExactMatch⟩, chain, param)
      | .None => findLoopA m s cb fuel (if c.order < 0 then n.left else n.right) slice result chain param
      | .SubDomain => do
        let (stop, param) ← s.callbackA cb chain node n param
        if stop then pure (⟨node, .PartialMatch⟩, chain, param)
        else do
          let chain ← chain.push node
          let slice ← slice.strip_right c.common_label_count
          findLoopA m s cb fuel n.down slice ⟨node, .PartialMatch⟩ chain param
      | _ => pure (result, chain, param)

/-- tree.rs:291-343 -/
def searchA {P : Type} (m : Build) (s : Dom T) (target : Name) (chain : NodeChain) (cb : Option (Ptr → Name → P → Bool × P)) (param : P) :
    Res (FindResult × NodeChain × P) := do
  let slice ← LabelSlice.from_name target
  findLoopA m s cb (s.next + 1) s.root slice ⟨0, .NotFound⟩ chain param

end Dom
end R53
