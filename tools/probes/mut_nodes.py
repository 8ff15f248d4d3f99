import json
M=[]
def a(old,new,d,edit,nth=None):
    x=dict(file='Model/Tree.lean',old=old,new=new,edit=edit,claim='C83',probe='nodes'); x['def']=d
    if nth is not None: x['nth']=nth
    M.append(x)
a("    else removeLoop fuel up","    else pure ()","Dom.removeLoop","only the node itself goes, not the empty nodes above it")
a("    else if (← get_value up).isSome then pure ()\n","","Dom.removeLoop","a node above goes although it has a value")
a("    else if (← down up) ≠ 0 then pure ()\n","    else if (← left up) ≠ 0 then pure ()\n    else if (← down up) ≠ 0 then pure ()\n","Dom.removeLoop","a node above with a left neighbour stays")
a("  let r ← St.lift (s.find m name)\n  if r.node ≠ 0 then remove_node r.node else pure none","  let r ← St.lift (s.find m name)\n  if r.flag = .ExactMatch then remove_node r.node else pure none","Dom.remove","only exact matches are removed")
a("    pure (node, none)","    pure (node, some none)","Dom.insert","a new node is reported as there before")
a("    pure (p, some old)","    pure (p, none)","Dom.insert","a replaced value is not reported")
a("  St.put { s with root := 0 }\n  clear_recurse","  St.put { s with root := 0, len := 0 }\n  clear_recurse","Dom.clear","clear resets the length")
a("def is_empty (s : Dom T) : Bool := decide (s.root = 0)","def is_empty (s : Dom T) : Bool := decide (s.len = 0)","Dom.is_empty","is_empty looks at the length")
a("    alloc par none","    alloc par n.value","Dom.split_to_parent","the new upper node gets the value too")
a("    upd self fun n => { n with name := rest }\n","    upd self fun n => { n with name := rest, value := none }\n","Dom.split_to_parent","the split node loses its value")
a("  set_color node .Black\n  set_subtree_root up","  set_color node .Black\n  set_callback node false\n  set_subtree_root up","Dom.node_fission","the split node loses its callback flag")
a("  upd p fun n => { n with value := v }\n  pure n.value","  upd p fun n => { n with value := v, flag := n.flag.set_wildcard false }\n  pure n.value","Dom.set_value","a new value resets the wildcard flag")
a("def set_wildcard (f : NodeFlag) (b : Bool) : NodeFlag := f.set b WILDCARD_MASK","def set_wildcard (f : NodeFlag) (b : Bool) : NodeFlag := f.set b CALLBACK_MASK","NodeFlag.set_wildcard","sets the callback bit")
a("  if (← down node) ≠ 0 then pure old_value\n","  if (← down node) ≠ 0 then pure none\n","Dom.remove_node","no answer for a node with nodes below")
json.dump(M,open('/tmp/mut_nodes.json','w'))
