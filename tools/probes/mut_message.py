import json
M=[]
F=None
def a(old,new,d,edit,claim,**k): M.append(dict(file=F,old=old,new=new,edit=edit,claim=claim,probe='message',**{'def':d},**k))
F='Model/Render.lean'
a("(hash.toUInt64 <<< 32) ||| (pos.toUInt64 <<< 16)","(hash.toUInt64 <<< 32) ||| (pos.toUInt64 <<< 8)","OffSetItem.new","position stored 8 bits too low","C24 C72")
a("((i &&& 0xffff0000) >>> 16).toUInt16","((i &&& 0xff0000) >>> 16).toUInt16","OffSetItem.pos","positions cut to 8 bits","C24 C44")
a("if b &&& COMPRESS_POINTER_MARK8 = COMPRESS_POINTER_MARK8 then do","if b &&& 0x80 = 0x80 then do","Render.nextLabel","one bit tested for a pointer (equal on what the renderer writes)","none")
a("((b &&& ~~~ COMPRESS_POINTER_MARK8).toNat * 256 + nb.toNat)","((b &&& ~~~ COMPRESS_POINTER_MARK8).toNat + nb.toNat)","Render.nextLabel","high octet of a pointer not shifted","C24 C44")
a("if ch1 ≠ ch2 then pure none","if false then pure none","Render.cmpLabelBytes","octets of labels are not compared","C24 C44 (only on hash collisions)")
a("    if name_label_len ≠ label.1 then pure false\n","    if name_label_len > label.1 then pure false\n","Render.compareLoop","a shorter label matches a longer one","C24 (only on hash collisions)")
a("if item.hash ≠ hash ∨ item.len ≠ UInt8.ofNat nb.len then","if item.hash ≠ hash then","Render.compareItem","length of the item not compared","C24 (only on hash collisions)")
a("if item.hash ≠ hash ∨ item.len ≠ UInt8.ofNat nb.len then","if item.hash = hash ∨ item.len ≠ UInt8.ofNat nb.len then","Render.compareItem","hash test inverted","C72")
a("    if m then pure item.pos else findItems ob hash rest","    if m then pure item.pos else pure NO_OFFSET","Render.findItems","only the first item is looked at","C72")
a("  if count + 1 = RESERVED_ITEMS then pure r","  if count = RESERVED_ITEMS then pure r","Render.add_offset","all 16 places of a bucket are used","none (C28 bound)")
a("  if count + 1 = RESERVED_ITEMS then pure r","  if count > RESERVED_ITEMS then pure r","Render.add_offset","a bucket overflows","C29 C45 panic")
a("item_counts := r.item_counts.set bucket (count + 1) }","item_counts := r.item_counts }","Render.add_offset","items are never counted","C72")
a("if l1 = name.label_count % 256 then pure (lu + 1, NO_OFFSET)","if l1 = name.label_count % 256 then pure (lu, NO_OFFSET)","Render.scanLoop","one label too few","C24 C25")
a("if offset ≠ NO_OFFSET then pure (lu, offset) else","if offset ≠ NO_OFFSET then pure (lu + 1, offset) else","Render.scanLoop","the matched label is spelled too","C24 C44")
a("St.put { r with label_hashes := r.label_hashes.set lu (hashBytes d) }","St.put r","Render.scanLoop","hashes are not kept","C72")
a("else if name_pos > MAX_COMPRESS_POINTER then pure ()","else if name_pos > 0xffff then pure ()","Render.registerLoop","positions beyond 14 bits are registered","C24 C26")
a("else if name_pos > MAX_COMPRESS_POINTER then pure ()","else if name_pos ≥ MAX_COMPRESS_POINTER then pure ()","Render.registerLoop","position 0x3fff is not registered","C72")
a("(UInt16.ofNat name_pos) (UInt8.ofNat name_len))","(UInt16.ofNat (name_pos + 1)) (UInt8.ofNat name_len))","Render.registerLoop","position of the first octet after the length","C24")
a("registerLoop k (i + 1) (name_pos + step) name_len","registerLoop k (i + 1) name_pos name_len","Render.registerLoop","the position does not move on","C24")
a("registerLoop k (i + 1) (name_pos + step) name_len","registerLoop k i (name_pos + step) name_len","Render.registerLoop","the hash of the first suffix for all","C72")
a("let pos ← St.lift (idx name.offsets lu)","let pos ← St.lift (idx name.offsets (lu - 1))","Render.emitLabels","one label too few is written","C24 C44")
a("onBuffer (OutBuf.write_u16 (offset ||| COMPRESS_POINTER_MARK16))","onBuffer (OutBuf.write_u16 offset)","Render.emitPointer","pointer without its mark","C24 C44")
a("  if compress = false ∨ lu = name.label_count then onBuffer","  if compress = false then onBuffer","Render.emitLabels","an unmatched name is not written whole","C24")
a("⟨r.buffer.reset, r.table.map (fun v => List.replicate v.length 0), List.replicate r.item_counts.length 0,","⟨r.buffer.reset, r.table.map (fun v => List.replicate v.length 0), r.item_counts,","Render.reset","item counts survive reset","C27")
a("  registerLoop lu 0 name_pos name.len","  registerLoop lu 0 name_pos (name.len - 1)","Render.write_name","lengths off by one","C72")
F='Model/Header.lean'
a("def HEADERFLAG_MASK : UInt16 := 0x87b0","def HEADERFLAG_MASK : UInt16 := 0x87f0","HEADERFLAG_MASK","the zero bit is kept","C34 C75")
a("def OPCODE_MASK : UInt16 := 0x7800","def OPCODE_MASK : UInt16 := 0x3800","OPCODE_MASK","three bits of opcode","C34")
a("  let an_count ← InBuf.read_u16\n  let ns_count ← InBuf.read_u16","  let ns_count ← InBuf.read_u16\n  let an_count ← InBuf.read_u16","Header.from_wire","counts read in another order","C34")
a("  Render.write_u16 h.an_count\n  Render.write_u16 h.ns_count","  Render.write_u16 h.ns_count\n  Render.write_u16 h.an_count","Header.to_wire","counts written in another order","C34 C73")
a("{ h with flag := HeaderFlag.clear_flag h.flag f }","h","Header.set_flag","flags are never cleared","C35")
a("(h.rcode.to_u8.toUInt16 &&& RCODE_MASK)","h.rcode.to_u8.toUInt16","Header.header_flag","the rcode is not masked (equal: all rcodes are below 16?)","none or C34")
a("  pure ⟨name, typ, class_⟩","  pure ⟨name, typ, .IN⟩","Question.from_wire","class dropped","C44 C56")
a("  pure (n && decide (a.typ = b.typ) && decide (a.class_ = b.class_))","  pure (n && decide (a.typ = b.typ))","Question.eq","class not compared","C39?")
a("id := 0, flag := 0, qd_count := 0, an_count := 0, ns_count := 0, ar_count := 0 }","id := 0, flag := 0, qd_count := 0, an_count := 0, ns_count := 0 }","Header.clear","ar_count is kept","C35?")
F='Model/Buffer.lean'
a("  if b.pos < b.len then","  if b.pos ≤ b.len then","InBuf.read_u8","one past the end","C20")
a("  if b.pos + 1 < b.len then","  if b.pos + 2 < b.len then","InBuf.read_u16","the last two octets are refused","C20")
a("pure ((a.toUInt16 <<< 8) ||| c.toUInt16)","pure ((c.toUInt16 <<< 8) ||| a.toUInt16)","InBuf.read_u16","little endian","C20")
a("| .ok n => (.ok n, { b with pos := b.pos + 4 })","| .ok n => (.ok n, { b with pos := b.pos + 3 })","InBuf.read_u32","the position moves by 3","C20")
a("  if p ≤ b.len then (.ok (), { b with pos := p })","  if p < b.len then (.ok (), { b with pos := p })","InBuf.set_position","the end is refused","C20")
a("if pos < b.len then idx b.data pos else .err","if pos ≤ b.len then idx b.data pos else .err","OutBuf.at_","octets beyond the contents","C21")
a("  if b.len + n < b.capacity then (.ok ()","  if b.len + n ≤ b.capacity + 1 then (.ok ()","OutBuf.skip","skip beyond the capacity","C21 C46")
a("  if pos + 2 ≤ b.len then","  if pos ≤ b.len then","OutBuf.write_u16_at","past the end","C21")
a("(.ok (), ⟨overwrite b.data b.len d, b.len + d.length⟩)","(.ok (), ⟨overwrite b.data b.len d, b.len⟩)","OutBuf.write_bytes","length not moved","C21")
a("  if pos < b.len then (.ok (), { b with len := pos })","  if pos ≤ b.capacity then (.ok (), { b with len := pos })","OutBuf.truncate","truncation may extend","C21")
F='Model/Hex.lean'
a("65 ≤ byte ∧ byte ≤ 70","65 ≤ byte ∧ byte ≤ 71","Hex.digit","G is a digit","C23")
a("if modulus = 0 then some b else none","some b","Hex.fromLoop","half an octet at the end is dropped","C23")
a("(buf >>> 4)\n      else none","buf\n      else none","Hex.fromLoop","blank between two digits shifts","C23")
a("byte == 32 || byte == 13 || byte == 10 || byte == 9","byte == 32 || byte == 13 || byte == 10","Hex.isSpace","tab refused","C23")
json.dump(M,open('/tmp/mut_msg1.json','w'))
M=[]
F='Model/Rdata.lean'
a("  | .MX => some [(.u16, .u16), (.name, .name)]","  | .MX => some [(.name, .name), (.u16, .u16)]","schema","MX fields swapped","C36 C73")
a("  | .NSEC3PARAM => some [(.u8, .u8), (.u8, .u8), (.u16, .u16), (.byte_binary, .binary)]","  | .NSEC3PARAM => some [(.u8, .u8), (.u8, .u8), (.u16, .u16), (.binary, .binary)]","schema","salt without its length","C73")
a("  | .RP => some [(.name, .name), (.name, .name)]","  | .RP => some [(.name, .name)]","schema","RP with one name","C73 C75")
a("  | .URI => some [(.u16, .u16), (.u16, .u16), (.binary, .string)]\n","","schema","URI unknown","C75")
a("  St.lift (ensure (d % 65536 ≤ len))","  St.lift (ensure (d % 65536 < len))","Field.name_from_wire","a name may not end the data","C36 C75")
a("  pure (.name n, len - d % 65536)","  pure (.name n, len - n.raw.length)","Field.name_from_wire","length of the name instead of the octets read","C36")
a("  St.lift (ensure (4 ≤ len))\n  let bytes ← InBuf.read_bytes 4","  let bytes ← InBuf.read_bytes 4","Field.ipv4_from_wire","the length is not tested","C75")
a("  pure (.ip [a, b, c, d], len - 4)","  pure (.ip [d, c, b, a], len - 4)","Field.ipv4_from_wire","octets reversed","C36")
a("  let bytes ← InBuf.read_bytes 16","  let bytes ← InBuf.read_bytes 15","Field.ipv6_from_wire","15 octets","C43")
a("  St.lift (ensure (dl.toNat < len))","  St.lift (ensure (dl.toNat ≤ len))","Field.bytes_from_wire","the length octet is not counted","C75")
a("  pure (data, len - dl.toNat - 1)","  pure (data, len - dl.toNat)","Field.bytes_from_wire","one octet too many left","C36")
a("    let ds ← textLoop len len\n    pure (.text ds, 0)","    let ds ← textLoop len len\n    pure (.text ds.reverse, 0)","Field.from_wire","strings in reverse","C36")
a("    let d ← InBuf.read_bytes len\n    pure (.bytes d, 0)","    let d ← InBuf.read_bytes len\n    pure (.bytes d, len)","Field.from_wire","binary leaves its length","C36")
a("  Render.write_u8 (UInt8.ofNat d.length)","  Render.write_u8 (UInt8.ofNat (d.length + 1))","Field.bytes_to_wire","length octet off by one","C36 C73")
a("  | .name, .name n => Render.write_name n true","  | .name, .name n => Render.write_name n false","Field.to_wire","names in data not compressed","C73")
a("  St.lift (ensure (left = 0))\n","","RData.structFrom","octets left over are dropped (position test remains)","none?")
a("    if d ≠ len.toNat then St.fail else pure ⟨typ, vs⟩","    pure ⟨typ, vs⟩","RData.from_wire","position test dropped","none?")
a("    if d ≠ len.toNat then St.fail else pure ⟨typ, vs⟩","    if d > len.toNat then St.fail else pure ⟨typ, vs⟩","RData.from_wire","short data accepted","none?")
a("  | .rrtype, .rrtype t => Render.write_u16 t.as_u16","  | .rrtype, .rrtype t => Render.write_u8 t.as_u16.toUInt8","Field.to_wire","covered type in one octet","C36")
F='Model/RRset.lean'
a("    if typ ≠ .OPT then St.fail else pure","    if typ = .OPT then St.fail else pure","RRset.from_wire","empty OPT refused, other empty data accepted","C75")
a("    pure ⟨name, typ, class_, ttl, [rdata]⟩","    pure ⟨name, typ, .IN, ttl, [rdata]⟩","RRset.from_wire","class dropped","C37 C44")
a("  let rdlen ← St.lift (csub n 2)\n","  let rdlen := n\n","RRset.rdata_to_wire","data length counts the length field","C73 C44")
a("  Render.write_u16_at pos (UInt16.ofNat rdlen)","  pure ()","RRset.rdata_to_wire","length left zero","C73 C44")
a("    s.rr_to_wire rd\n    s.rrs_to_wire rds","    s.rr_to_wire rd","RRset.rrs_to_wire","only the first record","C73 C44")
a("    Render.write_u32 s.ttl\n    Render.write_u16 0","    Render.write_u32 0\n    Render.write_u16 0","RRset.to_wire","TTL of an empty set dropped","C55 C73")
a("  if s.typ = t.typ then Name.eq s.name t.name else .ok false","  if s.typ = t.typ then .ok true else .ok false","RRset.is_same_rrset","owner not compared","C53 C44")
a("  if s.typ = t.typ then Name.eq s.name t.name else .ok false","  Name.eq s.name t.name","RRset.is_same_rrset","type not compared","C53 C44")
a("    if s.rdatas.length ≠ t.rdatas.length then pure false\n","    if s.rdatas.length < t.rdatas.length then pure false\n","RRset.eq","more data than the other","C38")
a("    else if s.rdatas.length < 4 then RData.allIn s.rdatas t.rdatas","    else if s.rdatas.length < 2 then RData.allIn s.rdatas t.rdatas","RRset.eq","sorting from two (equal)","none")
a("      RData.eqList a b","      RData.eqList a a","RRset.eq","compares a list with itself","C38")
a("    if ← elem a bs then allIn as bs else pure false","    if ← elem a bs then pure true else pure false","RData.allIn","only the first is looked for","C38")
a("  | .CERT => 10 | .DNAME => 11","  | .CERT => 10 | .DNAME => 10","RData.variant","two variants with one number","C39")
a("    if ← eq a b then eqAll as bs else pure false\n","    if ← eq a b then pure true else pure false\n","FieldVal.eqAll","only the first field compared","C39")
a("    | .eq => cmpAll m as bs","    | .eq => pure .eq","FieldVal.cmpAll","only the first field compared","C39")
F='Model/Message.lean'
a("⟨((flags &&& VERSION_MASK) >>> VERSION_SHIFT).toUInt8, (flags >>> EXTRCODE_SHIFT).toUInt8, s.class_.to_u16,","⟨(flags >>> EXTRCODE_SHIFT).toUInt8, ((flags &&& VERSION_MASK) >>> VERSION_SHIFT).toUInt8, s.class_.to_u16,","Edns.from_rrset","version and extended rcode swapped","C55")
a("def EXTFLAG_DO : UInt32 := 0x00008000","def EXTFLAG_DO : UInt32 := 0x00010000","Edns.EXTFLAG_DO","another bit","C55")
a("def VERSION_MASK : UInt32 := 0x00ff0000","def VERSION_MASK : UInt32 := 0x007f0000","Edns.VERSION_MASK","7 bits of version","C55")
a("  Render.write_u32 e.flags\n  Render.write_u16 0","  Render.write_u32 e.flags","Edns.to_wire","no data length","C55")
a("if rrset.rr_count = 0 then count + 1 else count + rrset.rr_count","count + rrset.rr_count","Section.rr_count","sets without data not counted","C47")
a("        | rd :: _ => fromLoop n acc { last with rdatas := last.rdatas ++ [rd] }","        | rd :: _ => fromLoop n acc { last with rdatas := rd :: last.rdatas }","Section.fromLoop","data put in front","C44 C53")
a("      if rrset.typ = .OPT then St.fail\n","      if rrset.typ = .A then St.fail\n","Section.fromLoop","repeated OPT accepted","C54 C43")
a("    else fromLoop n (acc ++ [last]) rrset","    else fromLoop n acc rrset","Section.fromLoop","the set before is lost","C44 C53")
a("    if last.typ = .OPT ∧ typ ≠ .Additional then St.fail","    if last.typ = .OPT ∧ typ = .Answer then St.fail","Section.from_wire","OPT in authority accepted","C54")
a("      let rrsets ← fromLoop (rr_count.toNat - 1) [] last","      let rrsets ← fromLoop rr_count.toNat [] last","Section.from_wire","one record too many read","C44 C75")
a("  if header.qd_count ≠ 1 then St.fail\n","  if header.qd_count = 0 then St.fail\n","Response.read","several questions accepted","C75")
a("    let auth ← Section.from_wire header.ns_count .Authority","    let auth ← Section.from_wire header.an_count .Authority","Response.read","wrong count","C44 C75")
a("    | some rrset => if rrset.typ = .OPT then do","    | some rrset => if true then do","Response.get_edns","the last set is taken for OPT","C55")
a("      an_count := UInt16.ofNat (Section.rr_count m.answer)\n","","Response.recalculate_header","answer not counted","C47")
a("  unwrap (Render.write_u16_at 2 header.header_flag)\n","","Response.truncate","TC not written","C45 C73")
a("  unwrap (Render.write_u16_at 8 0)\n","","Response.truncate","ns_count kept","C45 C73")
a("    | (.err, r') => (do m.truncate pos; pure pos : St Render Nat) r'","    | (.err, r') => (do m.truncate r'.len; pure pos : St Render Nat) r'","Response.sectionsLoop","not cut after the question","C45 C73")
a("    | (.err, r') => (do m.truncate pos; pure pos : St Render Nat) r'","    | (.err, r') => (.err, r')","Response.sectionsLoop","an error instead of truncation","C45 C73")
a("sectionsLoop m r.len [m.answer, m.authority, m.additional]","sectionsLoop m r.len [m.answer, m.additional, m.authority]","Response.to_wire","sections in another order","C73 C44")
a("if ← old.is_same_rrset rrset then pure ({ old with rdatas := old.rdatas ++ rrset.rdatas } :: rest)","if ← old.is_same_rrset rrset then pure (rrset :: rest)","Builder.merge","the old data is replaced","C48")
a("      let rest ← merge rrset rest\n      pure (old :: rest)","      pure (old :: rrset :: rest)","Builder.merge","only the first set is looked at","C48")
a("    (if b then rest else s :: rest, st)","    (if b then s :: rest else rest, st)","Builder.retain","the test is inverted","C49")
a("  let (rrsets, m) := m.take_section t\n  m.setSection t (f rrsets)","  let (rrsets, m) := m.take_section t\n  m.setSection .Answer (f rrsets)","Builder.with_section","always the answer","C50")
a("def make_response (m : Response) : Response := set_flag m .QueryRespone","def make_response (m : Response) : Response := set_flag m .AuthAnswer","Builder.make_response","another flag","C50")
a("{ m with header := m.header.set_flag f false }","{ m with header := m.header.set_flag f true }","Builder.clear_flag","sets the flag","C50?")
a("    pure (.Authority, ← csub index it.answer_rrset_count)","    pure (.Authority, index)","ResponseIter.place","index not made relative","C51")
a("  ⟨0, a + c + b, a, b, c, m⟩","  ⟨0, a + b, a, b, c, m⟩","ResponseIter.new","additional left out","C51")
a("    let b ← csub it.back_index 1\n    let item ← it.get_rrset_at_index b\n    pure (some item, { it with back_index := b })","    let b ← csub it.back_index 1\n    let item ← it.get_rrset_at_index b\n    pure (some item, it)","ResponseIter.next_back","the back does not move","C51")
a("  let remain ← csub (it.answer_rrset_count + it.authority_rrset_count + it.additional_rrset_count) it.index","  let remain ← csub (it.answer_rrset_count + it.authority_rrset_count) it.index","ResponseIter.size_hint","additional left out","C52")
a("    if header.an_count ≠ 0 then St.fail\n    else if header.an_count ≠ 0 then St.fail\n    else pure ⟨header, question⟩","    pure ⟨header, question⟩","Request.read","answers accepted","C56")
a("  let header := if soa.isSome then { header with an_count := 1 } else header","  let header := header","NotifyRequest.new","SOA not counted","C57")
a("    if rrset.typ ≠ .SOA then St.fail else","    if false then St.fail else","NotifyRequest.from_wire","any record accepted","C57")
a("⟨req.header.set_flag .QueryRespone true, req.question⟩","⟨req.header, req.question⟩","NotifyResponse.new","not a response","C57")
F='Model/Codes.lean'
a("  else if value = 250 then .TSIG","  else if value = 249 then .TSIG","RRType.new","TSIG at another number","C30")
a("  | .Unknown c => c","  | .Unknown _ => 0","RRType.as_u16","unknown types lose their number","C30",nth=0)
json.dump(M,open('/tmp/mut_msg2.json','w'))
