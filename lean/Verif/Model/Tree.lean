import Verif.Model.Name
/-!
# Model of `domaintree/` (`flag.rs`, `node.rs`, `node_chain.rs`, `tree.rs`)

The nodes live in a heap: a partial map from addresses to nodes, 0 is the null pointer and never allocated. Using a pointer
that is null or not allocated is undefined behaviour in Rust (`unsafe`); here it is a panic, so "never panics" includes memory
safety of the accesses. A `*mut *mut Node` is a `Loc`: the `root` field of the tree or the `down` field of a node. Loops over
pointers have a bound, `next + 1` (one more than all nodes ever allocated); running into it counts as a panic, so "never
panics" includes termination. `dump` and the `Ord` of `NodePtr` are in `Model/Dump`; the derived `Debug` of nodes and `Send`/`Sync` are left out.
-/
namespace R53

/-! ## flag.rs -/

/-- `NodeFlag(u16)` flag.rs:1-2 -/
structure NodeFlag where
  bits : UInt16
deriving DecidableEq, Repr

/-- `Color` flag.rs:41-45 -/
inductive Color where
  | Red | Black
deriving DecidableEq, Repr

namespace NodeFlag

/-- flag.rs:36 -/
def COLOR_MASK : UInt16 := 0x0001
/-- flag.rs:37 -/
def SUBTREE_ROOT_MASK : UInt16 := 0x0002
/-- flag.rs:38 -/
def CALLBACK_MASK : UInt16 := 0x0004
/-- flag.rs:39 -/
def WILDCARD_MASK : UInt16 := 0x0008

/-- flag.rs:15-17 -/
def enable (f : NodeFlag) (mask : UInt16) : NodeFlag := ⟨f.bits ||| mask⟩
/-- flag.rs:20-22 -/
def disable (f : NodeFlag) (mask : UInt16) : NodeFlag := ⟨f.bits &&& ~~~mask⟩
/-- flag.rs:6-12 -/
def set (f : NodeFlag) (is_enable : Bool) (mask : UInt16) : NodeFlag := if is_enable then f.enable mask else f.disable mask
/-- flag.rs:25-27 -/
def is_enable (f : NodeFlag) (mask : UInt16) : Bool := decide (f.bits &&& mask ≠ 0)
/-- flag.rs:31-33 -/
def default : NodeFlag := ⟨0⟩
/-- flag.rs:54-56 -/
def is_black (f : NodeFlag) : Bool := f.is_enable COLOR_MASK
/-- flag.rs:49-51 -/
def is_red (f : NodeFlag) : Bool := !f.is_black
/-- flag.rs:59-64 -/
def set_color (f : NodeFlag) (c : Color) : NodeFlag :=
  match c with
  | .Red => f.disable COLOR_MASK
  | .Black => f.enable COLOR_MASK
/-- flag.rs:67-73 -/
def get_color (f : NodeFlag) : Color := if f.is_enable COLOR_MASK then .Black else .Red
/-- flag.rs:76-78 -/
def set_subtree_root (f : NodeFlag) (b : Bool) : NodeFlag := f.set b SUBTREE_ROOT_MASK
/-- flag.rs:81-83 -/
def is_subtree_root (f : NodeFlag) : Bool := f.is_enable SUBTREE_ROOT_MASK
/-- flag.rs:86-88 -/
def set_callback (f : NodeFlag) (b : Bool) : NodeFlag := f.set b CALLBACK_MASK
/-- flag.rs:91-93 -/
def is_callback_enabled (f : NodeFlag) : Bool := f.is_enable CALLBACK_MASK
/-- flag.rs:96-98 -/
def set_wildcard (f : NodeFlag) (b : Bool) : NodeFlag := f.set b WILDCARD_MASK
/-- flag.rs:101-103 -/
def is_wildcard (f : NodeFlag) : Bool := f.is_enable WILDCARD_MASK

end NodeFlag

/-! ## node.rs -/

/-- `NodePtr` node.rs:31-32: an address, 0 is null -/
abbrev Ptr := Nat

/-- `Node` node.rs:8-16 -/
structure Node (T : Type) where
  flag : NodeFlag
  left : Ptr
  right : Ptr
  parent : Ptr
  down : Ptr
  name : LabelSequence
  value : Option T

/-- `DomainTree` tree.rs:49-52 together with the heap; `next` is the next address the allocator gives out -/
structure Dom (T : Type) where
  heap : Ptr → Option (Node T)
  next : Ptr
  root : Ptr
  len : Nat

/-- `*mut *mut Node` (tree.rs:221-225, 398-402; node.rs:233-239): where the pointer to the root of a level is stored -/
inductive Loc where
  | root
  | down (p : Ptr)
deriving DecidableEq, Repr

namespace Dom
variable {T : Type}

/-- the heap with one node replaced: the effect of a write through a `NodePtr` (node.rs:77-176) -/
def set (s : Dom T) (p : Ptr) (n : Node T) : Dom T := { s with heap := fun q => if q = p then some n else s.heap q }

/-- `*self.0` read (node.rs:83-206); a null or freed pointer is undefined behaviour in Rust, `panic` here -/
def deref (p : Ptr) : St (Dom T) (Node T) := fun s =>
  match s.heap p with
  | some n => (.ok n, s)
  | none => (.panic, s)

/-- a write through `*self.0` (node.rs:77-176), as `deref` -/
def upd (p : Ptr) (f : Node T → Node T) : St (Dom T) Unit := fun s =>
  match s.heap p with
  | some n => (.ok (), s.set p (f n))
  | none => (.panic, s)

/-- node.rs:61-72 -/
def alloc (name : LabelSequence) (v : Option T) : St (Dom T) Ptr := fun s =>
  (.ok s.next, { s.set s.next ⟨.default, 0, 0, 0, 0, name, v⟩ with next := s.next + 1 })

/-- node.rs:77-81 -/
def set_color (p : Ptr) (c : Color) : St (Dom T) Unit := upd p fun n => { n with flag := n.flag.set_color c }
/-- node.rs:83-89 -/
def get_color (p : Ptr) : St (Dom T) Color := if p = 0 then pure .Black else do pure (← deref p).flag.get_color
/-- node.rs:91-93 -/
def is_red (p : Ptr) : St (Dom T) Bool := do pure (decide ((← get_color p) = .Red))
/-- node.rs:95-97 -/
def is_black (p : Ptr) : St (Dom T) Bool := do pure (!(← is_red p))
/-- node.rs:99-103 -/
def set_subtree_root (p : Ptr) (b : Bool) : St (Dom T) Unit := upd p fun n => { n with flag := n.flag.set_subtree_root b }
/-- node.rs:105-107 -/
def is_subtree_root (p : Ptr) : St (Dom T) Bool := do pure (← deref p).flag.is_subtree_root
/-- node.rs:109-113 -/
def set_callback (p : Ptr) (b : Bool) : St (Dom T) Unit := upd p fun n => { n with flag := n.flag.set_callback b }
/-- node.rs:119-123 -/
def set_wildcard (p : Ptr) (b : Bool) : St (Dom T) Unit := upd p fun n => { n with flag := n.flag.set_wildcard b }
/-- node.rs:133-135 -/
def get_value (p : Ptr) : St (Dom T) (Option T) := do pure (← deref p).value
/-- node.rs:147-153 -/
def set_value (p : Ptr) (v : Option T) : St (Dom T) (Option T) := do
  let n ← deref p
  upd p fun n => { n with value := v }
  pure n.value
/-- node.rs:155-157 -/
def set_parent (p q : Ptr) : St (Dom T) Unit := upd p fun n => { n with parent := q }
/-- node.rs:159-161 -/
def set_left (p q : Ptr) : St (Dom T) Unit := upd p fun n => { n with left := q }
/-- node.rs:163-165 -/
def set_right (p q : Ptr) : St (Dom T) Unit := upd p fun n => { n with right := q }
/-- node.rs:167-169 -/
def parent (p : Ptr) : St (Dom T) Ptr := do pure (← deref p).parent
/-- node.rs:171-173 -/
def down (p : Ptr) : St (Dom T) Ptr := do pure (← deref p).down
/-- node.rs:175-177 -/
def set_down (p q : Ptr) : St (Dom T) Unit := upd p fun n => { n with down := q }
/-- node.rs:201-203 -/
def left (p : Ptr) : St (Dom T) Ptr := do pure (← deref p).left
/-- node.rs:205-207 -/
def right (p : Ptr) : St (Dom T) Ptr := do pure (← deref p).right

/-- node.rs:179-186 -/
def grand_parent (p : Ptr) : St (Dom T) Ptr := do
  let q ← parent p
  if q = 0 then pure 0 else parent q

/-- node.rs:188-199 -/
def uncle (p : Ptr) : St (Dom T) Ptr := do
  let g ← grand_parent p
  if g = 0 then pure 0
  else do
    let q ← parent p
    let gl ← left g
    if q = gl then right g else left g

/-- the loop of `subtree_root`, node.rs:215-217 -/
def subtreeRootLoop : Nat → Ptr → St (Dom T) Ptr
  | 0, _ => St.boom
  | fuel + 1, p => do
    if ← is_subtree_root p then pure p
    else do
      let q ← parent p
      subtreeRootLoop fuel q

/-- node.rs:213-219 -/
def subtree_root (p : Ptr) : St (Dom T) Ptr := do
  let s ← St.get
  subtreeRootLoop (s.next + 1) p

/-- node.rs:221-223 -/
def get_upper_node (p : Ptr) : St (Dom T) Ptr := do
  let r ← subtree_root p
  parent r

/-- `*root` read (tree.rs:148, 427) -/
def load (l : Loc) : St (Dom T) Ptr :=
  match l with
  | .root => do pure (← St.get).root
  | .down p => down p

/-- `*root = p` (tree.rs:233, node.rs:320) -/
def store (l : Loc) (q : Ptr) : St (Dom T) Unit :=
  match l with
  | .root => fun s => (.ok (), { s with root := q })
  | .down p => set_down p q

/-- node.rs:302-310 -/
def get_sibling (par child : Ptr) : St (Dom T) Ptr :=
  if par = 0 then pure 0
  else do
    let l ← left par
    if l = child then right par else left par

/-- node.rs:312-328 -/
def connect_child (root : Loc) (current old new : Ptr) : St (Dom T) Unit := do
  let par ← parent current
  if par = 0 then store root new
  else do
    let l ← left par
    if l = old then set_left par new
    else do
      let r ← right par
      if r = old then set_right par new
      else set_down par new

/-- exchange of two pointer fields followed by the check for the direct child, node.rs:242-245 -/
def swapLeft (self lower : Ptr) : St (Dom T) Unit := do
  let a ← left self
  let b ← left lower
  set_left self b
  set_left lower a
  let l ← left lower
  if l = lower then set_left lower self else pure ()

/-- node.rs:247-250 -/
def swapRight (self lower : Ptr) : St (Dom T) Unit := do
  let a ← right self
  let b ← right lower
  set_right self b
  set_right lower a
  let l ← right lower
  if l = lower then set_right lower self else pure ()

/-- node.rs:252-255 -/
def swapParent (self lower : Ptr) : St (Dom T) Unit := do
  let a ← parent self
  let b ← parent lower
  set_parent self b
  set_parent lower a
  let p ← parent self
  if p = self then set_parent self lower else pure ()

/-- node.rs:257-262 -/
def swapFlags (self lower : Ptr) : St (Dom T) Unit := do
  let self_color ← get_color self
  set_color self (← get_color lower)
  set_color lower self_color
  let self_is_subroot ← is_subtree_root self
  set_subtree_root self (← is_subtree_root lower)
  set_subtree_root lower self_is_subroot

/-- node.rs:265-269 -/
def relinkSelf (self lower : Ptr) : St (Dom T) Unit := do
  let p ← parent self
  let l ← left p
  if l = lower then set_left p self
  else do
    let r ← right p
    if r = lower then set_right p self else pure ()

/-- `if !child.is_null() { child.set_parent(p) }` (node.rs:270-275, tree.rs:98-100, 124-126, 261-267) -/
def adopt (child p : Ptr) : St (Dom T) Unit := if child ≠ 0 then set_parent child p else pure ()

/-- node.rs:241-276 -/
def exchange (self lower : Ptr) (root : Loc) : St (Dom T) Unit := do
  swapLeft self lower
  swapRight self lower
  swapParent self lower
  swapFlags self lower
  connect_child root lower self lower
  relinkSelf self lower
  adopt (← right lower) lower
  adopt (← left lower) lower

/-- node.rs:278-284; `unwrap` of the split -/
def split_to_parent (self : Ptr) (parent_label_count : Nat) : St (Dom T) Ptr := do
  let n ← deref self
  let start ← St.lift (csub n.name.label_count parent_label_count)
  match n.name.split start parent_label_count with
  | .ok (par, rest) => do
    upd self fun n => { n with name := rest }
    alloc par none
  | _ => St.boom

/-! ## tree.rs -/

/-- tree.rs:94-118 -/
def left_rotate (root : Loc) (node : Ptr) : St (Dom T) Unit := do
  let rgt ← right node
  let rleft ← left rgt
  set_right node rleft
  adopt rleft node
  let par ← parent node
  set_parent rgt par
  if !(← is_subtree_root node) then do
    set_subtree_root rgt false
    let pl ← left par
    if node = pl then set_left par rgt else set_right par rgt
  else do
    set_subtree_root rgt true
    store root rgt
  set_left rgt node
  set_parent node rgt
  set_subtree_root node false

/-- tree.rs:120-144 -/
def right_rotate (root : Loc) (node : Ptr) : St (Dom T) Unit := do
  let lft ← left node
  let lright ← right lft
  set_left node lright
  adopt lright node
  let par ← parent node
  set_parent lft par
  if !(← is_subtree_root node) then do
    set_subtree_root lft false
    let pr ← right par
    if node = pr then set_right par lft else set_left par lft
  else do
    set_subtree_root lft true
    store root lft
  set_right lft node
  set_parent node lft
  set_subtree_root node false

/-- the two rotations at the end of a round of `insert_fixup`, tree.rs:162-177. Both sides of each `&&` are read here (in Rust the second only if the
first holds), so the model can only use a null pointer where the code does not. -/
def insertRotate (root : Loc) (node par grand : Ptr) : St (Dom T) Unit := do
  let node ← (do
    if node = (← right par) ∧ par = (← left grand) then do
      left_rotate root par
      pure par
    else if node = (← left par) ∧ par = (← right grand) then do
      right_rotate root par
      pure par
    else pure node : St (Dom T) Ptr)
  let par ← parent node
  set_color par .Black
  set_color grand .Red
  if node = (← left par) then right_rotate root grand else left_rotate root grand

/-- the loop of tree.rs:148-179 -/
def insertFixLoop (root : Loc) : Nat → Ptr → St (Dom T) Unit
  | 0, _ => St.boom
  | fuel + 1, node => do
    if node = (← load root) then pure ()
    else do
      let par ← parent node
      if ← is_black par then pure ()
      else do
        let unc ← uncle node
        let grand ← grand_parent node
        if ← (if unc ≠ 0 then is_red unc else pure false) then do
          set_color par .Black
          set_color unc .Black
          set_color grand .Red
          insertFixLoop root fuel grand
        else insertRotate root node par grand

/-- tree.rs:146-181 -/
def insert_fixup (root : Loc) (node : Ptr) : St (Dom T) Unit := do
  let s ← St.get
  insertFixLoop root (s.next + 1) node
  let r ← load root
  set_color r .Black

/-- tree.rs:254-275 -/
def node_fission (node : Ptr) (parent_label_count : Nat) : St (Dom T) Unit := do
  let up ← split_to_parent node parent_label_count
  set_parent up (← parent node)
  connect_child .root node node up
  set_down up node
  set_parent node up
  set_left up (← left node)
  adopt (← left node) up
  set_right up (← right node)
  adopt (← right node) up
  set_left node 0
  set_right node 0
  set_color up (← get_color node)
  set_color node .Black
  set_subtree_root up (← is_subtree_root node)
  set_subtree_root node true
  fun s => (.ok (), { s with len := s.len + 1 })

/-- where the search of `insert` (tree.rs:190-219) ends: at a node with the same name, or below `parent` in the level under `up` -/
inductive InsertPos where
  | found (p : Ptr)
  | free (parent up : Ptr) (order : Int) (rest : LabelSlice)

/-- the loop of tree.rs:190-219 -/
def insertLoop (m : Build) : Nat → (parent up current : Ptr) → (order : Int) → LabelSlice → St (Dom T) InsertPos
  | 0, _, _, _, _, _ => St.boom
  | fuel + 1, par, up, current, order, slice =>
    if current = 0 then pure (.free par up order slice)
    else do
      let n ← deref current
      let cur ← St.lift (LabelSlice.from_label_sequence n.name)
      let c ← St.lift (slice.compare m cur false)
      match c.relation with
      | .Equal => pure (.found current)
      | .None => insertLoop m fuel current up (if c.order < 0 then n.left else n.right) c.order slice
      | .SubDomain => do
        let slice ← St.lift (slice.strip_right c.common_label_count)
        insertLoop m fuel 0 current n.down order slice
      | _ => do
        node_fission current c.common_label_count
        let q ← parent current
        insertLoop m fuel par up q order slice

/-- linking the new node, tree.rs:221-251 -/
def insertAt (target : Name) (v : Option T) (par up : Ptr) (order : Int) (slice : LabelSlice) : St (Dom T) Ptr := do
  let loc : Loc := if up ≠ 0 then .down up else .root
  (fun s => (.ok (), { s with len := s.len + 1 }) : St (Dom T) Unit)
  let name ← St.lift (target.into_label_sequence slice.first_label slice.last_label)
  let node ← alloc name v
  set_parent node par
  if par = 0 then do
    store loc node
    set_color node .Black
    set_subtree_root node true
    set_parent node up
  else if order < 0 then do
    set_subtree_root node false
    set_left par node
    insert_fixup loc node
  else do
    set_subtree_root node false
    set_right par node
    insert_fixup loc node
  pure node

/-- tree.rs:184-252 -/
def insert (m : Build) (target : Name) (v : Option T) : St (Dom T) (Ptr × Option (Option T)) := do
  let slice ← St.lift (LabelSlice.from_name target)
  let s ← St.get
  match ← insertLoop m (2 * s.next + 4) 0 0 s.root (-1) slice with
  | .found p => do
    let old ← set_value p v
    pure (p, some old)
  | .free par up order slice => do
    let node ← insertAt target v par up order slice
    pure (node, none)

/-- one round of `remove_fixup` after the sibling is known to be black and to have a red child, tree.rs:455-486 -/
def removeRotate (root : Loc) (child par sibling : Ptr) : St (Dom T) Unit := do
  let isLeft := decide ((← left par) = child)
  let sl ← left sibling
  let sr ← right sibling
  let (ss1, ss2) := if isLeft then (sl, sr) else (sr, sl)
  let sibling ← (do
    if ← is_black ss2 then do
      set_color sibling .Red
      set_color ss1 .Black
      if (← left par) = child then right_rotate root sibling else left_rotate root sibling
      get_sibling par child
    else pure sibling : St (Dom T) Ptr)
  set_color sibling (← get_color par)
  set_color par .Black
  let sl ← left sibling
  let sr ← right sibling
  let ss2 := if (← left par) = child then sr else sl
  set_color ss2 .Black
  if (← left par) = child then left_rotate root par else right_rotate root par

/-- the red sibling case, tree.rs:432-442: the sibling afterwards -/
def removeRedSibling (root : Loc) (child par : Ptr) : St (Dom T) Ptr := do
  let sibling ← get_sibling par child
  if ← is_red sibling then do
    set_color par .Red
    set_color sibling .Black
    if (← left par) = child then left_rotate root par else right_rotate root par
    get_sibling par child
  else pure sibling

/-- the loop of tree.rs:427-487 -/
def removeFixLoop (root : Loc) : Nat → (child par : Ptr) → St (Dom T) Unit
  | 0, _, _ => St.boom
  | fuel + 1, child, par => do
    if child = (← load root) then pure ()
    else if !(← is_black child) then pure ()
    else if ← (if par ≠ 0 then do pure (decide ((← down par) = (← load root))) else pure false) then pure ()
    else do
      let sibling ← removeRedSibling root child par
      if ← (do if ← is_black (← left sibling) then is_black (← right sibling) else pure false : St (Dom T) Bool) then do
        set_color sibling .Red
        if ← is_black par then do
          let q ← parent par
          removeFixLoop root fuel par q
        else set_color par .Black
      else removeRotate root child par sibling

/-- tree.rs:421-488 -/
def remove_fixup (root : Loc) (child par : Ptr) : St (Dom T) Unit := do
  let s ← St.get
  removeFixLoop root (s.next + 1) child par

/-- tree.rs:368-371 -/
def rightMostLoop : Nat → Ptr → St (Dom T) Ptr
  | 0, _ => St.boom
  | fuel + 1, p => do
    let r ← right p
    if r = 0 then pure p else rightMostLoop fuel r

/-- taking one node out of its level, tree.rs:366-408 -/
def unlink (node up : Ptr) : St (Dom T) Unit := do
  (do
    let l ← left node
    if l ≠ 0 then do
      let r ← right node
      if r ≠ 0 then do
        let s ← St.get
        let right_most ← rightMostLoop (s.next + 1) l
        exchange node right_most .root
      else pure ()
    else pure () : St (Dom T) Unit)
  let r ← right node
  let child ← (if r ≠ 0 then pure r else left node : St (Dom T) Ptr)
  connect_child .root node node child
  (if child ≠ 0 then do
    set_parent child (← parent node)
    let cp ← parent child
    if ← (if cp = 0 then pure true else do pure (decide ((← down cp) = child))) then
      set_subtree_root child (← is_subtree_root node)
    else pure ()
  else pure () : St (Dom T) Unit)
  if ← is_black node then do
    if ← (if child ≠ 0 then is_red child else pure false) then set_color child .Black
    else remove_fixup (if up ≠ 0 then .down up else .root) child (← parent node)
  else pure ()

/-- the loop of tree.rs:365-417; `self.len -= 1` is checked -/
def removeLoop : Nat → Ptr → St (Dom T) Unit
  | 0, _ => St.boom
  | fuel + 1, node => do
    let up ← get_upper_node node
    unlink node up
    let s ← St.get
    let l ← St.lift (csub s.len 1)
    St.put { s with len := l }
    if up = 0 then pure ()
    else if (← get_value up).isSome then pure ()
    else if (← down up) ≠ 0 then pure ()
    else removeLoop fuel up

/-- tree.rs:358-419 -/
def remove_node (node : Ptr) : St (Dom T) (Option T) := do
  let old_value ← set_value node none
  if (← down node) ≠ 0 then pure old_value
  else do
    let s ← St.get
    removeLoop (s.next + 1) node
    pure old_value

/-- `FindResultFlag` tree.rs:9-14 -/
inductive FindFlag where
  | ExactMatch | NotFound | PartialMatch
deriving DecidableEq, Repr

/-- `FindResult` tree.rs:16-20 -/
structure FindResult where
  node : Ptr
  flag : FindFlag
deriving DecidableEq, Repr

/-- `NodeChain` node_chain.rs:5-11: the nodes pushed, root first (the part of the array of 128 below `level_count`; the array itself is in Model/Chain) -/
structure Chain where
  nodes : List Ptr
  last_compared : Ptr
  last_compared_result : NameComparisonResult
deriving DecidableEq, Repr

/-- node_chain.rs:34-46 -/
def Chain.new : Chain := ⟨[], 0, ⟨0, 0, .Equal⟩⟩

/-- node_chain.rs:72-76 -/
def Chain.push (c : Chain) (p : Ptr) : Res Chain := do
  assertR (c.nodes.length < 128)
  pure { c with nodes := c.nodes ++ [p] }

/-- node_chain.rs:78-82: the chain without its last node, and that node -/
def Chain.pop (c : Chain) : Res (Chain × Ptr) :=
  match c.nodes.getLast? with
  | none => .panic
  | some p => .ok ({ c with nodes := c.nodes.dropLast }, p)

/-- node_chain.rs:63-65; `level_count - 1` -/
def Chain.top (c : Chain) : Res Ptr := do idx c.nodes (← csub c.nodes.length 1)

/-- `*node` in a tree that is only read (tree.rs:301-341, node_chain.rs:48-60) -/
def look (s : Dom T) (p : Ptr) : Res (Node T) :=
  match s.heap p with
  | some n => .ok n
  | none => .panic

/-- the names of the nodes of the chain from the bottom level up, node_chain.rs:52-55 -/
def chainNames (s : Dom T) : List Ptr → Res (List LabelSequence)
  | [] => .ok []
  | p :: ps => do
    let n ← s.look p
    let ns ← chainNames s ps
    pure (n.name :: ns)

/-- node_chain.rs:48-60; `expect` -/
def get_absolute_name (s : Dom T) (c : Chain) (child : LabelSequence) : Res Name := do
  let names ← chainNames s c.nodes.reverse
  match child.concat_all names with
  | .ok n => pure n
  | _ => .panic

/-- the callback test of tree.rs:322-329: whether to stop, and the parameter afterwards. The closure and its state are folded
into `P`; it does not change the tree. -/
def callback {P : Type} (s : Dom T) (cb : Option (Ptr → Name → P → Bool × P)) (chain : Chain) (node : Ptr) (n : Node T) (param : P) :
    Res (Bool × P) :=
  if n.flag.is_callback_enabled then
    match cb with
    | none => .ok (false, param)
    | some f => do
      let name ← s.get_absolute_name chain n.name
      pure (f node name param)
  else .ok (false, param)

/-- the loop of tree.rs:301-341 -/
def findLoop {P : Type} (m : Build) (s : Dom T) (cb : Option (Ptr → Name → P → Bool × P)) :
    Nat → Ptr → LabelSlice → FindResult → Chain → P → Res (FindResult × Chain × P)
  | 0, _, _, _, _, _ => .panic
  | fuel + 1, node, slice, result, chain, param =>
    if node = 0 then .ok (result, chain, param)
    else do
      let n ← s.look node
      let cur ← LabelSlice.from_label_sequence n.name
      let c ← slice.compare m cur false
      let chain := { chain with last_compared := node, last_compared_result := c }
      match c.relation with
      | .Equal => do
        let chain ← chain.push node
        pure (⟨node, .ExactMatch⟩, chain, param)
      | .None => findLoop m s cb fuel (if c.order < 0 then n.left else n.right) slice result chain param
      | .SubDomain => do
        let (stop, param) ← s.callback cb chain node n param
        if stop then pure (⟨node, .PartialMatch⟩, chain, param)
        else do
          let chain ← chain.push node
          let slice ← slice.strip_right c.common_label_count
          findLoop m s cb fuel n.down slice ⟨node, .PartialMatch⟩ chain param
      | _ => pure (result, chain, param)

/-- tree.rs:291-343 -/
def find_node_ext {P : Type} (m : Build) (s : Dom T) (target : Name) (chain : Chain) (cb : Option (Ptr → Name → P → Bool × P)) (param : P) :
    Res (FindResult × Chain × P) := do
  let slice ← LabelSlice.from_name target
  findLoop m s cb (s.next + 1) s.root slice ⟨0, .NotFound⟩ chain param

/-- tree.rs:282-289 -/
def find_node (m : Build) (s : Dom T) (target : Name) (chain : Chain) : Res (FindResult × Chain) := do
  let (r, c, _) ← find_node_ext (P := Unit) m s target chain none ()
  pure (r, c)

/-- tree.rs:277-280 -/
def find (m : Build) (s : Dom T) (target : Name) : Res FindResult := do
  let (r, _) ← find_node m s target .new
  pure r

/-- tree.rs:31-38 (also `get_value_mut`, 40-47) -/
def FindResult.get_value (s : Dom T) (r : FindResult) : Res (Option T) :=
  if r.flag = .NotFound then .ok none
  else do
    let n ← s.look r.node
    pure n.value

/-- tree.rs:345-356 -/
def remove (m : Build) (name : Name) : St (Dom T) (Option T) := do
  let s ← St.get
  let r ← St.lift (s.find m name)
  if r.node ≠ 0 then remove_node r.node else pure none

/-- tree.rs:78-84 -/
def new : Dom T := ⟨fun _ => none, 1, 0, 0⟩

/-- `Box::from_raw`, dropped at once (tree.rs:496): the node is freed -/
def free (p : Ptr) : St (Dom T) Unit := fun s =>
  match s.heap p with
  | some _ => (.ok (), { s with heap := fun q => if q = p then none else s.heap q })
  | none => (.panic, s)

/-- tree.rs:490-499; recursion on pointers, so with a bound -/
def clear_recurse : Nat → Ptr → St (Dom T) Unit
  | 0, _ => St.boom
  | fuel + 1, p =>
    if p = 0 then pure ()
    else do
      clear_recurse fuel (← left p)
      clear_recurse fuel (← right p)
      clear_recurse fuel (← down p)
      free p

/-- tree.rs:501-505 -/
def clear : St (Dom T) Unit := do
  let s ← St.get
  let root := s.root
  St.put { s with root := 0 }
  clear_recurse (s.next + 1) root

/-- node.rs:288-299; recursion on pointers, so with a bound. The clone lives in the same heap. -/
def deep_clone : Nat → Ptr → St (Dom T) Ptr
  | 0, _ => St.boom
  | fuel + 1, p => do
    let n ← deref p
    let node ← alloc n.name n.value
    (if n.left ≠ 0 then do
      set_left node (← deep_clone fuel n.left)
      set_parent (← left node) node
    else pure () : St (Dom T) Unit)
    (if n.right ≠ 0 then do
      set_right node (← deep_clone fuel n.right)
      set_parent (← right node) node
    else pure () : St (Dom T) Unit)
    pure node

/-- tree.rs:68-75: the heap afterwards (with the original in it) and the clone as a tree in that heap -/
def clone : St (Dom T) (Dom T) := do
  let s ← St.get
  let p ← deep_clone (s.next + 1) s.root
  let s' ← St.get
  pure { s' with root := p, len := s.len }

/-- tree.rs:90-92 -/
def is_empty (s : Dom T) : Bool := decide (s.root = 0)

end Dom
end R53
