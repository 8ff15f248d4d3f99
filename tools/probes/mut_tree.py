import json
M=[]
def a(old,new,d,edit,claim,nth=None):
    x=dict(file='Model/Tree.lean',old=old,new=new,edit=edit,claim=claim,probe='tree'); x['def']=d
    if nth is not None: x['nth']=nth
    M.append(x)
a("  set_right node rleft\n  adopt rleft node","  set_right node rleft","Dom.left_rotate","the moved subtree keeps its old parent","C61")
a("    set_subtree_root rgt true\n    store root rgt","    store root rgt","Dom.left_rotate","the new root of a level is not marked","C61 C68")
a("  set_left rgt node\n  set_parent node rgt\n  set_subtree_root node false","  set_left rgt node\n  set_parent node rgt","Dom.left_rotate","the old root of a level keeps its mark","C61")
a("if node = pr then set_right par lft else set_left par lft","if node = pr then set_left par lft else set_right par lft","Dom.right_rotate","the parent's wrong side is relinked","C58")
a("          set_color unc .Black\n","","Dom.insertFixLoop","the uncle is not recoloured","C61")
a("          insertFixLoop root fuel grand","          pure ()","Dom.insertFixLoop","fixing stops after one recolouring","C61")
a("  insertFixLoop root (s.next + 1) node\n  let r ← load root\n  set_color r .Black","  insertFixLoop root (s.next + 1) node","Dom.insert_fixup","the root is not painted black","C61")
a("  if node = (← left par) then right_rotate root grand else left_rotate root grand","  if node = (← left par) then left_rotate root grand else right_rotate root grand","Dom.insertRotate","the wrong rotation","C58 C68")
a("  set_color up (← get_color node)\n","","Dom.node_fission","the split node does not inherit the colour","C61")
a("  set_color node .Black\n  set_subtree_root up","  set_subtree_root up","Dom.node_fission","the lower node stays red","C61")
a("  set_subtree_root node true\n  fun s => (.ok (), { s with len := s.len + 1 })","  set_subtree_root node true","Dom.node_fission","a split is not counted","C62")
a("  set_left node 0\n  set_right node 0\n","","Dom.node_fission","the lower node keeps its old neighbours","C58")
a("insertLoop m fuel current up (if c.order < 0 then n.left else n.right) c.order slice","insertLoop m fuel current up (if c.order ≤ 0 then n.right else n.left) c.order slice","Dom.insertLoop","left and right swapped in insert only","C58")
a("        let slice ← St.lift (slice.strip_right c.common_label_count)\n        insertLoop m fuel 0 current n.down order slice","        insertLoop m fuel 0 current n.down order slice","Dom.insertLoop","labels of the upper level are not stripped","C58 C63")
a("    | .found p => do\n    let old ← set_value p v","    | .found p => do\n    let old ← get_value p","Dom.insert","dummy","C58") if False else None
a("    let old ← set_value p v\n    pure (p, some old)","    let old ← get_value p\n    pure (p, some old)","Dom.insert","an existing value is not replaced","C58")
a("    if ← is_black ss2 then do\n      set_color sibling .Red","    if !(← is_black ss2) then do\n      set_color sibling .Red","Dom.removeRotate","the test for the far nephew is inverted","C61 C68")
a("  set_color ss2 .Black\n","","Dom.removeRotate","the far nephew keeps its colour","C61")
a("        if ← is_black par then do\n          let q ← parent par\n          removeFixLoop root fuel par q\n        else set_color par .Black","        set_color par .Black","Dom.removeFixLoop","fixing does not go on at the parent","C61")
a("    set_color par .Red\n    set_color sibling .Black\n    if","    set_color sibling .Black\n    if","Dom.removeRedSibling","the parent is not painted red","C61")
a("    if ← (if child ≠ 0 then is_red child else pure false) then set_color child .Black\n    else","    if ← (if child ≠ 0 then is_red child else pure false) then pure ()\n    else","Dom.unlink","a red child is not painted black","C61")
a("      set_subtree_root child (← is_subtree_root node)\n","      pure ()\n","Dom.unlink","the new root of a level is not marked","C61 C68")
a("    else if (← down up) ≠ 0 then pure ()\n","","Dom.removeLoop","an empty node is removed although it has nodes below","C58")
a("    else if (← get_value up).isSome then pure ()\n","","Dom.removeLoop","a node with a value is removed with its last child","C58")
a("    St.put { s with len := l }\n","","Dom.removeLoop","len is not decremented","C62")
a("  if (← down node) ≠ 0 then pure old_value\n  else do","  do","Dom.remove_node","a node with nodes below is unlinked","C58")
a("  swapFlags self lower\n  connect","  connect","Dom.exchange","colours and marks are not exchanged","C61")
a("  adopt (← right lower) lower\n","","Dom.exchange","the right child keeps its old parent","C61")
a("  let l ← left lower\n  if l = lower then set_left lower self else pure ()","  pure ()","Dom.swapLeft","no special case for a direct child","C68")
a("      | .SubDomain => do\n        let (stop, param)","      | .SuperDomain => do\n        let (stop, param)","Dom.findLoop","descends into levels for a super domain","C58 C59")
a("      | _ => pure (result, chain, param)","      | _ => pure (⟨node, .PartialMatch⟩, chain, param)","Dom.findLoop","a node with a common ancestor counts as partial match","C59")
a("          findLoop m s cb fuel n.down slice ⟨node, .PartialMatch⟩ chain param","          findLoop m s cb fuel n.down slice result chain param","Dom.findLoop","a partial match is not recorded","C59")
a("          let chain ← chain.push node\n          let slice","          let slice","Dom.findLoop","nodes on the way are not pushed","C63")
a("  let names ← chainNames s c.nodes.reverse","  let names ← chainNames s c.nodes","Dom.get_absolute_name","the chain is read from the wrong end","C63")
a("def set_callback (f : NodeFlag) (b : Bool) : NodeFlag := f.set b CALLBACK_MASK","def set_callback (f : NodeFlag) (b : Bool) : NodeFlag := f.set b SUBTREE_ROOT_MASK","NodeFlag.set_callback","wrong mask","C65")
a("def disable (f : NodeFlag) (mask : UInt16) : NodeFlag := ⟨f.bits &&& ~~~mask⟩","def disable (f : NodeFlag) (mask : UInt16) : NodeFlag := ⟨f.bits ^^^ mask⟩","NodeFlag.disable","toggles instead of clearing","C65")
json.dump(M,open('/tmp/mut_tree.json','w'))
