import Verif.Model.Chain
/-!
# What a node chain should do

A chain is a stack of nodes that holds at most 128 of them. Independent of the array it is kept in.
-/
namespace R53
open Dom

/-- the calls on a chain -/
inductive ChainOp where
  | push (p : Ptr) | pop | top | bottom
deriving DecidableEq, Repr

namespace ChainOp

/-- one call on the chain of the code: its answer (none for `push`) and the chain afterwards -/
def call (c : NodeChain) : ChainOp → Res (Option Ptr × NodeChain)
  | push p => do
    let c' ← c.push p
    pure (none, c')
  | pop => do
    let (c', p) ← c.pop
    pure (some p, c')
  | top => do
    let p ← c.top
    pure (some p, c)
  | bottom => do
    let p ← c.bottom
    pure (some p, c)

/-- the answers to a history of calls; it ends with the first panic -/
def run (c : NodeChain) : List ChainOp → Res (List (Option Ptr))
  | [] => .ok []
  | op :: ops => do
    let (x, c') ← op.call c
    let xs ← run c' ops
    pure (x :: xs)

/-- the same calls on a stack; `first` is what `bottom` answers: the first node of the stack, and when the stack is empty again, still the node that was the
first one before (the null pointer 0 if there never was one) -/
def stack (st : List Ptr) (first : Ptr) : List ChainOp → Res (List (Option Ptr))
  | [] => .ok []
  | push p :: ops =>
    if st.length < 128 then do
      let xs ← stack (st ++ [p]) (if st = [] then p else first) ops
      pure (none :: xs)
    else .panic
  | pop :: ops =>
    match st.getLast? with
    | some p => do
      let xs ← stack st.dropLast first ops
      pure (some p :: xs)
    | none => .panic
  | top :: ops =>
    match st.getLast? with
    | some p => do
      let xs ← stack st first ops
      pure (some p :: xs)
    | none => .panic
  | bottom :: ops => do
    let xs ← stack st first ops
    pure (some first :: xs)

end ChainOp

namespace Dom.NodeChain

/-- the nodes on the chain, the first one pushed first -/
def stacked (c : NodeChain) : List Ptr := c.nodes.take c.level_count

/-- as all calls leave a chain -/
structure Fit (c : NodeChain) : Prop where
  size : c.nodes.length = 128
  count : c.level_count ≤ 128

/-- the chain of Model/Tree -/
def live (c : NodeChain) : Chain := ⟨c.stacked, c.last_compared, c.last_compared_result⟩

end Dom.NodeChain

/-- the same name searched for again and again, all on one chain; the chain in the end -/
def Dom.searchAgain {T : Type} (m : Build) (s : Dom T) (n : Name) : Nat → NodeChain → Res NodeChain
  | 0, c => .ok c
  | k + 1, c => do
    let (_, c', _) ← searchA m s n c (none : Option (Ptr → Name → Unit → Bool × Unit)) ()
    searchAgain m s n k c'
end R53
