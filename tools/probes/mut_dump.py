import json
M=[]
def a(old,new,d,edit,claim,nth=None,file='Model/Dump.lean'):
    x=dict(file=file,old=old,new=new,edit=edit,claim=claim); x['def']=d
    if nth is not None: x['nth']=nth
    M.append(x)
a('if q.left = p then ascii "left>" else if q.right = p then ascii "right>"','if q.left = p then ascii "right>" else if q.right = p then ascii "left>"','Dom.dumpSide','sides swapped','C87')
a('  if parent = 0 then .ok []\n  else do','  do','Dom.dumpSide','no test for a null parent','C87')
a('(if n.value.isNone then ascii "[invisible]" else [])','(if n.value.isSome then ascii "[invisible]" else [])','Dom.dump_helper','test inverted','C87')
a('(if n.flag.is_subtree_root then ascii " [subtreeroot]" else [])','(if n.flag.get_color = .Black then ascii " [subtreeroot]" else [])','Dom.dump_helper','black nodes shown as roots','C87')
a('down ++ l ++ r)','down ++ r ++ l)','Dom.dump_helper','right before left','C87')
a('dump_helper s fuel n.left (depth + 1)','dump_helper s fuel n.left depth','Dom.dump_helper','left child not indented','C87')
a('dump_helper s fuel n.down (depth + 1)','dump_helper s fuel n.left (depth + 1)','Dom.dump_helper','left level printed as the level below','C87')
a('let l ← dump_helper s fuel n.left','let l ← dump_helper s fuel n.right','Dom.dump_helper','right printed twice','C87')
a('      let dn ← d.name.to_string','      let dn ← n.name.to_string','Dom.dump_helper','begin down names the upper node','C87')
a('decimal s.len ++ ascii " node(s)','decimal s.next ++ ascii " node(s)','Dom.dump','counts all nodes ever made','C87')
a('dump_helper (s.next + 1) s.root depth','dump_helper (s.next + 1) s.root (depth + 1)','Dom.dump','tree indented','C87')
a('List.replicate (depth * 5) 32','List.replicate (depth * 4) 32','Dom.indent','four blanks','C87')
a('  | .Black => ascii "Black"','  | .Black => ascii "Red"','Color.debug','one colour only','C87')
a('    pure (t ++ ascii "," ++ ts)','    pure (ts ++ t ++ ascii ",")','Dom.chainText','names in reverse','C87')
a('if c.last_compared = 0 then','if c.nodes.length = 0 then','Dom.Chain.to_string','nil shown for a chain without nodes','C87')
a('decimal c.nodes.length ++ ascii ", last_compared_relation "','decimal (c.nodes.length + 1) ++ ascii ", last_compared_relation "','Dom.Chain.to_string','level one too high','C87')
a('  a.name.cmp m b.name','  b.name.cmp m a.name','Dom.ptrCmp','arguments swapped','C89')
a('  if r.flag = .NotFound then pure false\n','  if r.flag ≠ .ExactMatch then pure false\n','Dom.write','only exact matches written','C88')
a('    if n.value.isNone then pure false\n    else do','    do','Dom.write','a node without a value gets one','C88')
a('{ n with value := some v }\n      pure true','{ n with value := some v, flag := n.flag.set_wildcard true }\n      pure true','Dom.write','flag set too','C88')
N='Model/Name.lean'
a("  else if c > 0x20 ∧ c < 0x7f then [c]","  else if c ≥ 0x20 ∧ c < 0x7f then [c]","LabelSlice.dispByte","blanks not escaped","C05",file=N)
a("  else if c > 0x20 ∧ c < 0x7f then [c]","  else if c > 0x20 ∧ c ≤ 0x7f then [c]","LabelSlice.dispByte","DEL not escaped","C05",file=N)
a("0x30 + ((c / 100) % 10), 0x30 + ((c / 10) % 10)","0x30 + ((c / 10) % 10), 0x30 + ((c / 100) % 10)","LabelSlice.dispByte","digits swapped","C05",file=N)
a("  if special.contains c then [92, c]\n","","LabelSlice.dispByte","dots and quotes not escaped","C05",file=N)
T='Model/Tree.lean'
a("    upd self fun n => { n with name := rest }\n","    upd self fun n => { n with name := rest, value := none }\n","Dom.split_to_parent","the split node loses its value","C86",file=T)
a("    alloc par none","    alloc par n.value","Dom.split_to_parent","the value is copied to the new upper node","C86",file=T)
json.dump(M,open('/tmp/mut_dump.json','w'))
