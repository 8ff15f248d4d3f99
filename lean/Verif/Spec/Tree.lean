import Verif.Model.Tree
import Verif.Spec.Signed
/-!
# Vocabulary for the domain tree

`Tr` is the shape of a tree of nodes: every node has a left and a right neighbour subtree in its own level and, under `down`,
the root of the next level. `Holds` and `Shape` (in `Proofs/TreeHeap`) say that the nodes in memory have such a shape.
-/
namespace R53

/-- one node without its links; `addr` is where it lives -/
structure Info (T : Type) where
  addr : Ptr
  red : Bool
  cb : Bool
  wc : Bool
  labels : List Label
  value : Option T

/-- a level (left, right) of nodes with deeper levels below (middle) -/
inductive Tr (T : Type) where
  | nil
  | node (i : Info T) (l d r : Tr T)

namespace Tr
variable {T : Type}

/-- the pointer to a tree -/
def ptr : Tr T → Ptr
  | nil => 0
  | node i _ _ _ => i.addr

/-- the number of nodes in all levels -/
def size : Tr T → Nat
  | nil => 0
  | node _ l d r => l.size + d.size + r.size + 1

/-- the colour a null pointer counts as is black -/
def isRed : Tr T → Bool
  | nil => false
  | node i _ _ _ => i.red

/-- the nodes of one level from left to right, each with the level below it; the colour is left out -/
def ents : Tr T → List (Info T × Tr T)
  | nil => []
  | node i l d r => l.ents ++ ({ i with red := false }, d) :: r.ents

/-- a level is a red-black tree of black height `n`: no red node has a red child, and every way down meets `n` black nodes -/
def RB : Tr T → Nat → Prop
  | nil, n => n = 0
  | node i l _ r, n =>
    (i.red = true ∧ l.isRed = false ∧ r.isRed = false ∧ l.RB n ∧ r.RB n) ∨
    (i.red = false ∧ ∃ k, n = k + 1 ∧ l.RB k ∧ r.RB k)

end Tr

/-- what a node means: where it is, its absolute name (the labels with the empty root label last), its value and its user flags -/
structure Entry (T : Type) where
  addr : Ptr
  name : List Label
  value : Option T
  cb : Bool
  wc : Bool

/-- the entry of a node in a level whose names end with `suf` -/
def Info.entry {T : Type} (suf : List Label) (i : Info T) : Entry T := ⟨i.addr, i.labels ++ suf, i.value, i.cb, i.wc⟩

/-- all nodes of a tree: each level from left to right, the levels below a node after it. The labels of a node are the part of its name that
its level adds to the name of the node above. -/
def Tr.nodes {T : Type} (suf : List Label) : Tr T → List (Entry T)
  | .nil => []
  | .node i l d r => l.nodes suf ++ i.entry suf :: d.nodes (i.labels ++ suf) ++ r.nodes suf

/-- the most significant label of a run of labels -/
def lastL (ls : List Label) : Label := ls.getLastD []

/-- a level: a red-black tree with a black root, the most significant labels strictly increasing from left to right -/
def Tr.Level {T : Type} (t : Tr T) : Prop :=
  (∃ n, t.RB n) ∧ t.isRed = false ∧ (t.ents.map fun e => lastL e.1.labels).Pairwise fun a b => cmpLabel a b = .lt

/-- the same with the most significant labels increasing by their octets as signed numbers; on ASCII labels it is the same -/
def Tr.SLevel {T : Type} (t : Tr T) : Prop :=
  (∃ n, t.RB n) ∧ t.isRed = false ∧ (t.ents.map fun e => lastL e.1.labels).Pairwise fun a b => cmpSigned a b = .lt

/-- the flag octets of a node -/
def mkFlag (red sub cb wc : Bool) : NodeFlag :=
  ⟨(if red then 0 else 1) ||| (if sub then 2 else 0) ||| (if cb then 4 else 0) ||| (if wc then 8 else 0)⟩

namespace Dom
variable {T P : Type}

/-- no label of a stored name ends with a zero octet -/
def NoNul (t : Tr T) : Prop := ∀ e ∈ t.nodes [], ∀ x ∈ e.name, x.getLast? ≠ some 0

/-- some node is above `e`, and the label of the name of `e` right below that node ends with a zero octet -/
def Sealed (t : Tr T) (e : Entry T) : Prop := ∃ x ∈ t.nodes [], ∃ a, a :: x.name <:+ e.name ∧ a.getLast? = some 0

/-- the callbacks along a list of nodes: the node that asked to stop, if any, and the parameter afterwards -/
def callbacks (cb : Option (Ptr → Name → P → Bool × P)) : List (Entry T) → P → Option (Entry T) × P
  | [], p => (none, p)
  | e :: es, p =>
    match cb with
    | none => callbacks cb es p
    | some f =>
      if e.cb then
        if (f e.addr (Name.ofLabels e.name.dropLast) p).1 then (some e, (f e.addr (Name.ofLabels e.name.dropLast) p).2)
        else callbacks cb es (f e.addr (Name.ofLabels e.name.dropLast) p).2
      else callbacks cb es p

/-- the nodes strictly above a name, the topmost first -/
structure Enclosers (t : Tr T) (tgt : List Label) (L : List (Entry T)) : Prop where
  mem : ∀ e, e ∈ L ↔ e ∈ t.nodes [] ∧ IsSubdomain tgt e.name ∧ ¬ SameName tgt e.name
  sorted : L.Pairwise fun a b => a.name.length < b.name.length

/-- a search for `tgt` comes, before any callback says stop, to a node that wants the callback and is `Sealed` -/
def Blocked (t : Tr T) (tgt : List Label) (cb : Option (Ptr → Name → P → Bool × P)) (p : P) : Prop :=
  cb ≠ none ∧ ∃ L1 e L2, Enclosers t tgt (L1 ++ e :: L2) ∧ (callbacks cb L1 p).1 = none ∧ e.cb = true ∧ Sealed t e

/-- where nodes are -/
def addrs (es : List (Entry T)) : List Ptr := es.map Entry.addr

/-- what a search for `tgt` answers: the result, the chain of nodes and the parameter of the callback -/
inductive Answer (t : Tr T) (tgt : List Label) (cb : Option (Ptr → Name → P → Bool × P)) (p : P) : FindResult → List Ptr → P → Prop where
  /-- a callback asked to stop -/
  | stopped (L1 : List (Entry T)) (e : Entry T) (L2 : List (Entry T)) {q : P} (all : Enclosers t tgt (L1 ++ e :: L2))
      (cbs : callbacks cb (L1 ++ [e]) p = (some e, q)) : Answer t tgt cb p ⟨e.addr, .PartialMatch⟩ (addrs L1) q
  /-- there is a node with the name -/
  | exact (L : List (Entry T)) (e : Entry T) {q : P} (all : Enclosers t tgt L) (mem : e ∈ t.nodes []) (same : SameName tgt e.name)
      (cbs : callbacks cb L p = (none, q)) : Answer t tgt cb p ⟨e.addr, .ExactMatch⟩ (addrs L ++ [e.addr]) q
  /-- there is none; `e` is the closest node above -/
  | closest (L : List (Entry T)) (e : Entry T) {q : P} (all : Enclosers t tgt (L ++ [e])) (no : ∀ x ∈ t.nodes [], ¬ SameName tgt x.name)
      (cbs : callbacks cb (L ++ [e]) p = (none, q)) : Answer t tgt cb p ⟨e.addr, .PartialMatch⟩ (addrs (L ++ [e])) q
  /-- no node encloses the name -/
  | notFound (no : ∀ x ∈ t.nodes [], ¬ IsSubdomain tgt x.name) : Answer t tgt cb p ⟨0, .NotFound⟩ [] p

/-- the nodes in memory are the tree `t`: every node holds what `t` says, with links to its neighbours, to the level below and up -/
def Layout (s : Dom T) (par : Ptr) (sub : Bool) : Tr T → Prop
  | .nil => True
  | .node i l d r => i.addr ≠ 0 ∧ s.heap i.addr = some ⟨mkFlag i.red sub i.cb i.wc, l.ptr, r.ptr, par, d.ptr, .ofLabels i.labels, i.value⟩ ∧
      Layout s i.addr false l ∧ Layout s i.addr true d ∧ Layout s i.addr false r

/-- the tree object refers to `t`, whose nodes are all different -/
structure Represents (s : Dom T) (t : Tr T) : Prop where
  root : s.root = t.ptr
  layout : Layout s 0 true t
  nodup : (addrs (t.nodes [])).Nodup

end Dom

namespace Tr
variable {T : Type}

/-- the height of a level -/
def height : Tr T → Nat
  | nil => 0
  | node _ l _ r => max l.height r.height + 1

/-- the levels below the nodes of a level, at any depth -/
def lower : Tr T → List (Tr T)
  | nil => []
  | node _ l d r => l.lower ++ d :: d.lower ++ r.lower

/-- all levels -/
def levels (t : Tr T) : List (Tr T) := t :: t.lower

end Tr

/-! ## the tree as a map -/

/-- an operation of a program that uses a tree; names are given by their labels -/
inductive TOp (T : Type) where
  /-- `insert` -/
  | insert (ls : List Label) (v : Option T)
  /-- `find`, and `remove_node` if the name is there -/
  | removeNode (ls : List Label)
  /-- `remove` -/
  | remove (ls : List Label)
  /-- `find`, and the value if the name is there -/
  | get (ls : List Label)
  /-- `find`, and `set_callback` if the name is there -/
  | callback (ls : List Label) (b : Bool)
  /-- `find`, and `set_wildcard` if the name is there -/
  | wildcard (ls : List Label) (b : Bool)
  /-- `clear` -/
  | clear

namespace TOp
variable {T : Type}

def names : TOp T → List (List Label)
  | insert ls _ | removeNode ls | remove ls | get ls | callback ls _ | wildcard ls _ => [ls]
  | clear => []

/-- the operation puts its name into the tree -/
def Inserts : TOp T → Prop
  | insert _ _ => True
  | _ => False

instance (op : TOp T) : Decidable op.Inserts := by cases op <;> unfold Inserts <;> infer_instance

/-- names are legal; a name put into the tree is ASCII, and in a debug build so is one only looked for -/
def OK (m : Build) (op : TOp T) : Prop := ∀ ls ∈ op.names, ValidName ls ∧ (m = .debug ∨ op.Inserts → ∀ l ∈ ls, ∀ c ∈ l, c.toNat < 128)

/-- what is right in a debug build is so in both -/
theorem OK.mono {op : TOp T} (h : op.OK .debug) (m : Build) : op.OK m := fun ls hl => ⟨(h ls hl).1, fun _ => (h ls hl).2 (.inl rfl)⟩

/-- what the program does -/
def exec (m : Build) : TOp T → St (Dom T) (Option T)
  | insert ls v => do
    let r ← Dom.insert m (Name.ofLabels ls) v
    pure r.2.join
  | removeNode ls => do
    let s ← St.get
    let r ← St.lift (s.find m (Name.ofLabels ls))
    if r.flag = .ExactMatch then Dom.remove_node r.node else pure none
  | remove ls => Dom.remove m (Name.ofLabels ls)
  | get ls => do
    let s ← St.get
    let r ← St.lift (s.find m (Name.ofLabels ls))
    if r.flag = .ExactMatch then St.lift (r.get_value s) else pure none
  | callback ls b => do
    let s ← St.get
    let r ← St.lift (s.find m (Name.ofLabels ls))
    if r.flag = .ExactMatch then do Dom.set_callback r.node b; pure none else pure none
  | wildcard ls b => do
    let s ← St.get
    let r ← St.lift (s.find m (Name.ofLabels ls))
    if r.flag = .ExactMatch then do Dom.set_wildcard r.node b; pure none else pure none
  | clear => do Dom.clear; pure none

/-- a history: the results -/
def run (m : Build) : List (TOp T) → St (Dom T) (List (Option T))
  | [] => pure []
  | op :: ops => do
    let a ← op.exec m
    let as ← run m ops
    pure (a :: as)

/-- a history whose panics are caught: every operation starts from the memory the one before left, whether that one panicked or not -/
def caught (m : Build) : List (TOp T) → Dom T → List (Res (Option T)) × Dom T
  | [], s => ([], s)
  | op :: ops, s => ((op.exec m s).1 :: (caught m ops (op.exec m s).2).1, (caught m ops (op.exec m s).2).2)

/-- a map from names in lower case to values, and what an operation should do to it (`remove` is left out) -/
def spec (M : List Label → Option T) : TOp T → Option T × (List Label → Option T)
  | insert ls v => (M (lowerName ls), fun k => if k = lowerName ls then v else M k)
  | removeNode ls | remove ls => (M (lowerName ls), fun k => if k = lowerName ls then none else M k)
  | get ls => (M (lowerName ls), M)
  | callback _ _ | wildcard _ _ => (none, M)
  | clear => (none, fun _ => none)

/-- the results a history should have, on a map -/
def specRun (M : List Label → Option T) : List (TOp T) → List (Option T)
  | [] => []
  | op :: ops => (op.spec M).1 :: specRun (op.spec M).2 ops

/-- the map after a history -/
def specMap (M : List Label → Option T) : List (TOp T) → List Label → Option T
  | [] => M
  | op :: ops => specMap (op.spec M).2 ops

/-- `remove` is only asked for stored names, or for names without a stored ancestor -/
def Fair (M : List Label → Option T) : TOp T → Prop
  | remove ls => M (lowerName ls) ≠ none ∨ ∀ k, k <:+ lowerName ls → M k = none
  | _ => True

/-- a history in which every `remove` is fair when it is asked -/
def FairRun (M : List Label → Option T) : List (TOp T) → Prop
  | [] => True
  | op :: ops => op.Fair M ∧ FairRun (op.spec M).2 ops

/-- a caught history answers as a map would, operations that panic left out; nothing is asked of it after a `remove` that is not fair -/
def Right (M : List Label → Option T) : List (TOp T) → List (Res (Option T)) → Prop
  | [], [] => True
  | op :: ops, r :: rs => op.Fair M → (r = .panic ∧ Right M ops rs) ∨ (r = .ok (op.spec M).1 ∧ Right (op.spec M).2 ops rs)
  | _, _ => False

/-- no name is given that has a label ending with a zero octet -/
def NoNul (op : TOp T) : Prop := ∀ ls ∈ op.names, ∀ l ∈ ls, l.getLast? ≠ some 0

/-- the operation leaves a value under the name `ks` if there is one -/
def Spares (ks : List Label) : TOp T → Prop
  | insert ls v => lowerName ls = lowerName ks → v.isSome
  | removeNode ls => lowerName ls ≠ lowerName ks
  | remove ls => ¬ lowerName ks <:+ lowerName ls
  | clear => False
  | _ => True

end TOp

end R53
