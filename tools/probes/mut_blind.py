import json
M=[]
def a(old,new,d,edit,claim,nth=None,file='Model/Render.lean',probe=None):
    x=dict(file=file,old=old,new=new,edit=edit,claim=claim); x['def']=d
    if probe: x['probe']=probe
    if nth is not None: x['nth']=nth
    M.append(x)
a("List.replicate r.item_counts.length 0,","r.item_counts,","Render.reset","the table counts survive a reset","C29 C94")
a("⟨r.buffer.reset, r.table.map","⟨r.buffer, r.table.map","Render.reset","the octets survive a reset","C29 C94")
a("def at_ (b : OutBuf) (pos : Nat) : Res UInt8 := if pos < b.len then","def at_ (b : OutBuf) (pos : Nat) : Res UInt8 := if pos < b.capacity then","OutBuf.at_","octets behind the end can be read","C21",file='Model/Buffer.lean')
a("  Render.write_u16_at pos (UInt16.ofNat rdlen)","  pure ()","RRset.rdata_to_wire","the length is not filled in","C39 C94",file='Model/RRset.lean')
a("  Render.write_u16_at pos (UInt16.ofNat rdlen)","  Render.write_u16_at (pos + 1) (UInt16.ofNat rdlen)","RRset.rdata_to_wire","the length is filled in one octet late","C39 C94",file='Model/RRset.lean')
a("  unwrap (Render.write_u16_at 8 0)\n","","Response.truncate","NSCOUNT is left as it was","C45",file='Model/Message.lean')
a("  if count + 1 = RESERVED_ITEMS then pure r","  if count = RESERVED_ITEMS then pure r","Render.add_offset","a bucket takes 16 items","C73")
a("      St.put r\n      let step","      let step","Render.registerLoop","no name is recorded","C28 C73")
a("    if m then pure item.pos else findItems ob hash rest","    if m then pure item.pos else (St.put (InBuf.new []) >>= fun _ => findItems ob hash rest)","Render.findItems","only the first item is compared","C73")
a("  let bucket := (hash % 64).toNat\n  let items ← idx r.table bucket","  let bucket := (hash % 32).toNat\n  let items ← idx r.table bucket","Render.find_offset","names are looked up in another bucket than they are recorded in","C73")
a("    if m then pure item.pos else findItems ob hash rest","    if m then pure (item.pos + 1) else findItems ob hash rest","Render.findItems","pointers one octet late","C24")
a("  if b.len + n < b.capacity then (.ok (), { b with len := b.len + n })","  if b.len + n < b.capacity then (.ok (), ⟨overwrite b.data b.len (List.replicate n 0), b.len + n⟩)","OutBuf.skip","the octets skipped are cleared","C20",file='Model/Buffer.lean')
a("  Render.skip 2\n  rd.to_wire","  Render.skip 2\n  let r0 ← St.get\n  (if r0.buffer.data.getLast? = some 0xff then St.fail else pure ())\n  rd.to_wire","RRset.rdata_to_wire","the outcome depends on old octets of the buffer","C94",file='Model/RRset.lean')
json.dump(M,open('/tmp/mut_blind.json','w'))
