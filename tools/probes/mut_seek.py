import json
M=[]
def a(old,new,d,edit,claim,nth=None,file='Model/Render.lean',probe='seek'):
    x=dict(file=file,old=old,new=new,edit=edit,claim=claim); x['def']=d
    if probe: x['probe']=probe
    if nth is not None: x['nth']=nth
    M.append(x)
a("    if m then pure item.pos else findItems ob hash rest","    if m then pure item.pos else (do let b ← St.get; St.put (InBuf.new b.data); findItems ob hash rest)","Render.findItems","the name is compared from its start with every item","C73 C44 (exact, collisions)")
a("    let m ← compareItem ob hash item\n","    let m ← (fun nb => match compareItem ob hash item nb with | (.err, b) => (.ok false, b) | x => x)\n","Render.findItems","running out of octets counts as a mismatch","C73 C44 (exact, collisions)")
a("  (findItems r.buffer hash items (InBuf.new name)).1","  (findItems r.buffer hash items.reverse (InBuf.new name)).1","Render.find_offset","the items are compared last first","C73 (exact, collisions)")
a("    if ch1 ≠ ch2 then pure none","    if ch1 ≠ ch2 then (do let b ← St.get; St.put { b with pos := b.pos - 1 }; pure none)","Render.cmpLabelBytes","the octet that differs is not consumed","C73 (exact, collisions)")
a("  if item.hash ≠ hash ∨ item.len ≠ UInt8.ofNat nb.len then","  if item.hash ≠ hash then","Render.compareItem","the lengths are not compared","C73 (exact, collisions)")
a("  if b.len + n < b.capacity then (.ok (), { b with len := b.len + n })","  if b.len + n ≤ b.capacity then (.ok (), { b with len := b.len + n })","OutBuf.skip","skip to the end of the buffer allowed","C73 room of empty data",file='Model/Buffer.lean')
a("    let name_label_len ← InBuf.read_u8\n    if name_label_len ≠ label.1 then pure false","    let b ← St.get\n    let name_label_len ← InBuf.read_u8\n    if name_label_len ≠ label.1 then (do St.put b; pure false)","Render.compareLoop","a length octet that differs is not consumed","C73 (exact, collisions)")
json.dump(M,open('/tmp/mut_seek.json','w'))
