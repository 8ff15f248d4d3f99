import json
M=[]
def a(old,new,d,edit,claim,nth=None,file='Model/Tree.lean',probe='mem'):
    x=dict(file=file,old=old,new=new,edit=edit,claim=claim); x['def']=d
    if probe: x['probe']=probe
    if nth is not None: x['nth']=nth
    M.append(x)
a("      clear_recurse fuel (← down p)\n      free p","      free p","Dom.clear_recurse","the levels below are not freed","C93")
a("      clear_recurse fuel (← right p)\n","","Dom.clear_recurse","the right subtree is not freed","C93")
a("      clear_recurse fuel (← down p)\n      free p","      clear_recurse fuel (← down p)","Dom.clear_recurse","nothing is freed","C93")
a("  St.put { s with root := 0 }\n  clear_recurse","  clear_recurse","Dom.clear","the root pointer survives clear","C60 C68")
a("    let l ← St.lift (csub s.len 1)\n    St.put { s with len := l }\n","    let l ← St.lift (csub s.len 1)\n    St.put { s with len := l }\n    free node\n","Dom.removeLoop","a removed node is freed at once","C93 (the leak)")
a("  let old ← set_value p v\n    pure (p, some old)","  let old ← set_value p v\n    let _ ← alloc (← deref p).name v\n    pure (p, some old)","Dom.insert","a spare node is allocated when the name is there","C93")
a("  set_left node 0\n  set_right node 0\n  set_color up","  set_left node 0\n  set_color up","Dom.node_fission","the lower node keeps its right neighbour","C58 C93")
a("  if (← down node) ≠ 0 then pure old_value\n  else do\n    let s ← St.get\n    removeLoop (s.next + 1) node\n    pure old_value","  pure old_value","Dom.remove_node","the node stays when its value is taken","C83 C93")
json.dump(M,open('/tmp/mut_mem.json','w'))
