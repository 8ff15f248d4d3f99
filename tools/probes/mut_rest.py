import json
M=[]
def a(file,old,new,d,edit,claim,nth=None):
    x=dict(file=file,old=old,new=new,edit=edit,claim=claim); x['def']=d
    if nth is not None: x['nth']=nth
    M.append(x)
MS='Model/Message.lean'; RR='Model/RRset.lean'; RD='Model/Rdata.lean'; NM='Model/Name.lean'; SV='Spec/Server.lean'
a(SV,"some (v.getD [] ++ [set])","some [set]","Server.load","a later group replaces the earlier ones of its owner","C104")
a(SV,"if r.flag = .ExactMatch then r.get_value tree else .ok none","r.get_value tree","Server.load","sets of the name above are copied down","C104")
a(SV,"  | .PartialMatch => (v.filter fun s => s.typ = .NS).map (.add .Authority)","  | .PartialMatch => (v.filter fun s => s.typ = typ).map (.add .Answer)","Server.calls","a name that is not there is answered with the data of the name above","C103 C104")
a(SV,"  | .NotFound => [.rcode .Refused]","  | .NotFound => [.rcode .NXDomain]","Server.calls","another code for names outside","C103")
a(SV,"let r ← tree.find m q.question.name","let r ← tree.find m Name.root","Server.serve","the root is looked up","C103 C104")
a(MS,"    s.to_wire\n    toLoop ss","    toLoop ss\n    s.to_wire","Section.toLoop","sets written in reverse order","C44 C73")
a(MS,"  | (.err, s') => (.panic, s')\n  | x => x","  | (.panic, s') => (.err, s')\n  | x => x","Response.unwrap","errors of truncate returned, panics swallowed","C46")
a(MS,"(m.section_ t, m.setSection t none)","(m.section_ t, m)","Response.take_section","section not taken out","C50 C82")
a(MS,"def clear_section (m : Response) (t : SectionType) : Response := m.setSection t none","def clear_section (m : Response) (t : SectionType) : Response := m.setSection t (some [])","Response.clear_section","an empty section is left","C50 C82 C79")
a(MS,"    if ← a.eq sort b then eqSets sort as bs else pure false","    if ← a.eq sort b then pure true else eqSets sort as bs","Section.eqSets","equal as soon as one set is","C79")
a(MS,"if a.length ≠ b.length then .ok false else Section.eqSets sort a b","Section.eqSets sort a b","Section.eq","lengths not compared","C79")
a(MS,"  | none, none => .ok true\n  | some a, some b","  | none, none => .ok true\n  | none, some [] => .ok true\n  | some a, some b","Section.eq","an empty section equals none","C79")
a(MS,"def opcode (m : Response) (op : Opcode) : Response := { m with header := { m.header with opcode := op } }","def opcode (m : Response) (_op : Opcode) : Response := m","Builder.opcode","opcode not set","C82 C101")
a(MS,"def rcode (m : Response) (rc : Rcode) : Response := { m with header := { m.header with rcode := rc } }","def rcode (m : Response) (rc : Rcode) : Response := { m with header := { m.header with rcode := rc, flag := 0 } }","Builder.rcode","flags lost when the code is set","C82 C101")
a(MS,"pure ({ old with rdatas := old.rdatas ++ rrset.rdatas } :: rest)","pure ({ rrset with rdatas := old.rdatas ++ rrset.rdatas } :: rest)","Builder.merge","the joined set takes TTL, class and spelling of the new one","C48")
a(MS,"  | none => .ok (m.setSection t (some [rrset]))","  | none => .ok (m.setSection .Answer (some [rrset]))","Builder.add_rrset","first set of any section goes to the answer","C48 C101")
a(MS,"(m.setSection t (some rest), st)","(m.setSection t (if rest = [] then none else some rest), st)","Builder.remove_rrset_by","a section that becomes empty disappears","C50 C82")
a(MS,"    (if b then rest else s :: rest, st)","    (if b then s :: rest else rest, st)","Builder.retain","keeps what should go","C50")
a(MS,"  ⟨0, a + c + b, a, b, c, m⟩","  ⟨0, a + c, a, b, c, m⟩","ResponseIter.new","authority not counted at the back","C51 C52")
a(MS,"    let s ← idx rrsets pos\n    pure (s, typ)","    let s ← idx rrsets 0\n    pure (s, typ)","ResponseIter.get_rrset_at_index","always the first set of the section","C51")
a(MS,"pure (some item, { it with index := it.index + 1 })","pure (some item, { it with index := it.index + 1, back_index := it.back_index - 1 })","ResponseIter.next","front moves the back too","C51")
a(MS,"pure (some item, { it with back_index := b })","pure (some item, { it with back_index := b, index := 0 })","ResponseIter.next_back","back resets the front","C51")
a(MS,"let f := f ||| ((e.version.toUInt32 <<< VERSION_SHIFT) &&& VERSION_MASK)","let f := f ||| (e.version.toUInt32 <<< EXTRCODE_SHIFT)","Edns.flags","version put where the extended code is","C55")
a(MS,"def EXTFLAG_DO : UInt32 := 0x00008000","def EXTFLAG_DO : UInt32 := 0x00000080","Edns.EXTFLAG_DO","another bit","C55 C54")
a(MS,"def rr_count (e : Edns) : Nat := e.options.getD 1","def rr_count (e : Edns) : Nat := 1","Edns.rr_count","always one","C54 C55")
a(RR,"    s.rr_to_wire rd\n    s.rrs_to_wire rds","    s.rrs_to_wire rds\n    s.rr_to_wire rd","RRset.rrs_to_wire","records in reverse","C40 C44")
a(RR,"  Render.write_u32 s.ttl\n  rdata_to_wire rd","  rdata_to_wire rd\n  Render.write_u32 s.ttl","RRset.rr_to_wire","TTL behind the data","C40 C44")
a(RR,"    Render.write_u32 s.ttl\n    Render.write_u16 0","    Render.write_u32 s.ttl","RRset.to_wire","no data length for an empty set","C40 C55")
a(RD,"    bytes_to_wire d\n    text_to_wire ds","    bytes_to_wire d","Field.text_to_wire","only the first character string","C36 C41")
a(RD,"    let (vs, len) ← allFrom cs len\n    pure (v :: vs, len)","    let (vs, _) ← allFrom cs len\n    pure (v :: vs, len)","Field.allFrom","the remaining length is that after the first field","C36 C37")
a(NM,"def concat (n suffix : Name) : Res Name := concat_all n [suffix]","def concat (n suffix : Name) : Res Name := concat_all suffix [n]","Name.concat","swapped","C14")
a(NM,"    let v' ← cadd8 v x\n    let vs' ← addAll x vs\n    pure (v' :: vs')","    let v' ← cadd8 v x\n    pure (v' :: vs)","Name.addAll","only the first offset is moved","C14")
a(NM,"    let a ← slice n.raw 0 k\n","    let a ← slice n.raw 0 n.len\n","Name.copyRaw","the root of the first name is kept in the middle","C14")
a(NM,"  let raw ← lowerOuter n.label_count 0 n.raw\n  pure ⟨raw, n.offsets⟩","  let raw ← lowerOuter (n.label_count - 1) 0 n.raw\n  pure ⟨raw, n.offsets⟩","Name.as_lowercase","stops one label early (the root: the intended effect is the same)","C16 (equivalent?)")
a(NM,"  let raw ← lowerOuter n.label_count 0 n.raw\n  pure ⟨raw, n.offsets⟩","  let raw ← lowerOuter (n.label_count - 2) 0 n.raw\n  pure ⟨raw, n.offsets⟩","Name.as_lowercase","the last label stays as it is","C16")
json.dump(M,open('/tmp/mut_rest.json','w'))
print(len(M))
for x in M:
    s=open('/verif/lean/Verif/'+x['file']).read(); c=s.count(x['old'])
    if c!=1: print(c,x['def'],x['edit'])
