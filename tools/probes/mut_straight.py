import json
M=[]
def a(old,new,d,edit,claim,nth=None,file='Model/Render.lean'):
    x=dict(file=file,old=old,new=new,edit=edit,claim=claim); x['def']=d
    if nth is not None: x['nth']=nth
    M.append(x)
a("""  | 0, _, _, _ => pure ()
  | k + 1, i, name_pos, name_len => do
    let r ← St.get
    let label_len""","""  | 0, i, name_pos, name_len => do
    let r ← St.get
    match r.buffer.at_ name_pos, idx r.label_hashes i with
    | .ok c, .ok hash =>
      if 192 ≤ c.toNat ∧ name_pos ≤ MAX_COMPRESS_POINTER then do
        let r ← St.lift (add_offset r hash (UInt16.ofNat name_pos) (UInt8.ofNat name_len))
        St.put r
      else pure ()
    | _, _ => pure ()
  | k + 1, i, name_pos, name_len => do
    let r ← St.get
    let label_len""","Render.registerLoop","the pointer itself is registered for the rest it stands for: still decodes, but pointers to pointers","C100")
a("    if label_len = 0 then pure ()\n    else if name_pos >","    if name_pos >","Render.registerLoop","the root is registered too","C100 (pointer to the root)")
a("    else if name_pos > MAX_COMPRESS_POINTER then pure ()","    else if name_pos > MAX_COMPRESS_POINTER + 1 then pure ()","Render.registerLoop","position 16384 is registered","C24 C100 (target below 16384)")
a("registerLoop k (i + 1) (name_pos + step) name_len","registerLoop k (i + 1) (name_pos + step + 1) name_len","Render.registerLoop","the next label is registered one octet late","C24 C100")
a("(UInt16.ofNat name_pos) (UInt8.ofNat name_len))","(UInt16.ofNat (name_pos + 1)) (UInt8.ofNat name_len))","Render.registerLoop","the position behind the length octet is registered","C24 C100")
a("  if item.hash ≠ hash ∨ item.len ≠ UInt8.ofNat nb.len then (.ok false, nb)","  if item.hash ≠ hash then (.ok false, nb)","Render.compareItem","no test of the length","C72 C73 C100 (more octets looked at)")
a("  if item.hash ≠ hash ∨ item.len ≠ UInt8.ofNat nb.len then (.ok false, nb)","  if item.len ≠ UInt8.ofNat nb.len then (.ok false, nb)","Render.compareItem","no test of the hash","C72 C73 C100")
a("    if m then pure item.pos else findItems ob hash rest","    if m then pure item.pos else do\n      St.put (InBuf.new (← St.get).data)\n      findItems ob hash rest","Render.findItems","the name is rewound for every item (the intended program): each item may cost the whole name","C100 (3n+3 for all items together)")
a("    let label ← St.lift (nextLabel ob (ob.len + 1) item_pos)","    let _ ← St.lift (nextLabel ob (ob.len + 1) 0)\n    let label ← St.lift (nextLabel ob (ob.len + 1) item_pos)","Render.compareLoop","every label looks at the start of the message too","C100 (octets looked at)")
a("let nb ← ob.at_ (next_pos + 1)\n      nextLabel","let nb ← ob.at_ next_pos\n      nextLabel","Render.nextLabel","low octet of the pointer read from the place of the high one","C24 C100")
L='Model/LimitRender.lean'
a("find_offset_in (3 * d.length + 3) r d","find_offset_in (d.length + 3) r d","Render.scanLoopIn","limit of n + 3 octets","C100 (too small: pointers cost two)",file=L)
a("find_offset_in (3 * d.length + 3) r d","find_offset_in (2 * d.length) r d","Render.scanLoopIn","limit of 2 n octets","C100 (perhaps true of legal names?)",file=L)
a("  | k + 1 => (ob.at_ p, (s.1, k))","  | k + 1 => (ob.at_ p, (s.1, k - 1))","Render.look","each look counts twice","C100",file=L)
a("seenLimit","seenLimit","-","-","-") if False else None
json.dump(M,open('/tmp/mut_straight.json','w'))
print(len(M))
