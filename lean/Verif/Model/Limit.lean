import Verif.Model.Tree
/-!
# The domain tree with a limit on its loops

`insert` and `remove_node` of `Model/Tree` once more, function by function, except that every loop of the code takes a number of rounds it may
make and panics when they are used up. In `Model/Tree` that number is the count of nodes ever made, so that it never plays a role; here it is
an argument `n`. The other functions are those of `Model/Tree`. Used by C92 only.
-/
namespace R53
namespace Dom
variable {T : Type}

/-- tree.rs:146-181 -/
def insert_fixupIn (n : Nat) (root : Loc) (node : Ptr) : St (Dom T) Unit := do
  insertFixLoop root n node
  let r ← load root
  set_color r .Black

/-- linking the new node, tree.rs:221-251 -/
def insertAtIn (n : Nat) (target : Name) (v : Option T) (par up : Ptr) (order : Int) (slice : LabelSlice) : St (Dom T) Ptr := do
  let loc : Loc := if up ≠ 0 then .down up else .root
  (fun s => (.ok (), { s with len := s.len + 1 }) : St (Dom T) Unit)
  let name ← St.lift (target.into_label_sequence slice.first_label slice.last_label)
  let node ← alloc name v
  set_parent node par
  if par = 0 then do
    store loc node
    set_color node .Black
    set_subtree_root node true
    set_parent node up
  else if order < 0 then do
    set_subtree_root node false
    set_left par node
    insert_fixupIn n loc node
  else do
    set_subtree_root node false
    set_right par node
    insert_fixupIn n loc node
  pure node

/-- tree.rs:184-252: `n` rounds for the search of the place, and `n` rounds for the repair -/
def insertIn (n : Nat) (m : Build) (target : Name) (v : Option T) : St (Dom T) (Ptr × Option (Option T)) := do
  let slice ← St.lift (LabelSlice.from_name target)
  let s ← St.get
  match ← insertLoop m n 0 0 s.root (-1) slice with
  | .found p => do
    let old ← set_value p v
    pure (p, some old)
  | .free par up order slice => do
    let node ← insertAtIn n target v par up order slice
    pure (node, none)

/-- node.rs:213-223 -/
def get_upper_nodeIn (n : Nat) (p : Ptr) : St (Dom T) Ptr := do
  let r ← subtreeRootLoop n p
  parent r

/-- taking one node out of its level, tree.rs:366-408: `n` rounds for the way to the right-most node, and `n` rounds for the repair -/
def unlinkIn (n : Nat) (node up : Ptr) : St (Dom T) Unit := do
  (do
    let l ← left node
    if l ≠ 0 then do
      let r ← right node
      if r ≠ 0 then do
        let right_most ← rightMostLoop n l
        exchange node right_most .root
      else pure ()
    else pure () : St (Dom T) Unit)
  let r ← right node
  let child ← (if r ≠ 0 then pure r else left node : St (Dom T) Ptr)
  connect_child .root node node child
  (if child ≠ 0 then do
    set_parent child (← parent node)
    let cp ← parent child
    if ← (if cp = 0 then pure true else do pure (decide ((← down cp) = child))) then
      set_subtree_root child (← is_subtree_root node)
    else pure ()
  else pure () : St (Dom T) Unit)
  if ← is_black node then do
    if ← (if child ≠ 0 then is_red child else pure false) then set_color child .Black
    else removeFixLoop (if up ≠ 0 then .down up else .root) n child (← parent node)
  else pure ()

/-- the loop of tree.rs:365-417: the number of nodes it may take out, and `n` rounds for each loop of a round -/
def removeLoopIn (n : Nat) : Nat → Ptr → St (Dom T) Unit
  | 0, _ => St.boom
  | levels + 1, node => do
    let up ← get_upper_nodeIn n node
    unlinkIn n node up
    let s ← St.get
    let l ← St.lift (csub s.len 1)
    St.put { s with len := l }
    if up = 0 then pure ()
    else if (← get_value up).isSome then pure ()
    else if (← down up) ≠ 0 then pure ()
    else removeLoopIn n levels up

/-- tree.rs:358-419 -/
def remove_nodeIn (levels n : Nat) (node : Ptr) : St (Dom T) (Option T) := do
  let old_value ← set_value node none
  if (← down node) ≠ 0 then pure old_value
  else do
    removeLoopIn n levels node
    pure old_value

end Dom
end R53
