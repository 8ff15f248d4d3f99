import json
M=[]
def a(old,new,d,edit,claim,nth=None,file='Model/Tree.lean'):
    x=dict(file=file,old=old,new=new,edit=edit,claim=claim); x['def']=d
    if nth is not None: x['nth']=nth
    M.append(x)
a("  let s ← St.get\n  match ← insertLoop m (2 * s.next + 4) 0 0 s.root (-1) slice with","  let s ← St.get\n  (fun s => (.ok (), { s with len := s.len + 1 }) : St (Dom T) Unit)\n  match ← insertLoop m (2 * s.next + 4) 0 0 s.root (-1) slice with","Dom.insert","the size is counted up before the place is known","C98 (a panic changes the counter) C62")
a("      let c ← St.lift (slice.compare m cur false)\n      match c.relation with\n      | .Equal => pure (.found current)","      set_wildcard current n.flag.is_wildcard\n      let c ← St.lift (slice.compare m cur false)\n      match c.relation with\n      | .Equal => pure (.found current)","insertLoop","a node is written before its comparison (with what it holds)","none: harmless")
a("      let c ← St.lift (slice.compare m cur false)\n      match c.relation with\n      | .Equal => pure (.found current)","      set_callback current false\n      let c ← St.lift (slice.compare m cur false)\n      match c.relation with\n      | .Equal => pure (.found current)","insertLoop","a flag is cleared before the comparison","C98 C65")
a("insertLoop m fuel current up (if c.order < 0 then n.left else n.right) c.order slice","insertLoop m fuel current up (if c.order ≤ 0 then n.left else n.right) c.order slice","insertLoop","no difference goes left","none: the order is never 0 then")
a("  else match m with\n    | .debug => .panic","  else match m with\n    | .debug => .ok (if d < -128 then d + 256 else d - 256)","subI8","overflow is not checked","C98 (not a map)",file='Model/Name.lean')
json.dump(M,open('/tmp/mut_debug.json','w'))
