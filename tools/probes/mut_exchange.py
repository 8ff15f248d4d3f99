import json
M=[]
def a(old,new,d,edit,claim,nth=None,file='Model/Message.lean'):
    x=dict(file=file,old=old,new=new,edit=edit,claim=claim); x['def']=d
    if nth is not None: x['nth']=nth
    M.append(x)
a("def id (m : Response) (v : UInt16) : Response := { m with header := { m.header with id := v } }","def id (m : Response) (_v : UInt16) : Response := m","Builder.id","the id of the request is not taken over","C101 C82")
a("def question (m : Response) (q : Question) : Response := { m with question := q }","def question (m : Response) (q : Question) : Response := { m with question := { q with typ := m.question.typ } }","Builder.question","type of the question not taken over","C101 C82")
a("def make_response (m : Response) : Response := set_flag m .QueryRespone","def make_response (m : Response) : Response := set_flag m .AuthAnswer","Builder.make_response","another flag","C101 C82")
a("def set_flag (m : Response) (f : HeaderFlag) : Response := { m with header := m.header.set_flag f true }","def set_flag (m : Response) (f : HeaderFlag) : Response := { m with header := { (Header.default m.header.id) with flag := 0 }.set_flag f true }","Builder.set_flag","setting a flag starts with a new header: codes lost","C101 C82")
a("def edns (m : Response) (e : Edns) : Res Response := add_rrset m .Additional e.to_rrset","def edns (m : Response) (e : Edns) : Res Response := add_rrset m .Answer e.to_rrset","Builder.edns","EDNS goes to the answer section: the client refuses","C101 C55")
a("def edns (m : Response) (e : Edns) : Res Response := add_rrset m .Additional e.to_rrset","def edns (m : Response) (e : Edns) : Res Response := .ok { m with additional := some [e.to_rrset] }","Builder.edns","EDNS replaces the additional section","C101")
a("def to_rrset (e : Edns) : RRset := ⟨Name.root, .OPT, RRClass.new e.udp_size, e.flags, []⟩","def to_rrset (e : Edns) : RRset := ⟨Name.root, .OPT, .Unknown e.udp_size, e.flags, []⟩","Edns.to_rrset","class not normalised: a size of 1 comes back as IN","C101 C55")
a("  ⟨header, ⟨zone, .SOA, .IN⟩, soa⟩","  ⟨header, ⟨zone, .SOA, .CH⟩, soa⟩","NotifyRequest.new","class CH","C57 C102")
a("  let header := if soa.isSome then { header with an_count := 1 } else header\n","","NotifyRequest.new","the SOA record is not counted","C57 C102")
a("  let header := if soa.isSome then { header with an_count := 1 } else header\n","  let header := { header with an_count := 1 }\n","NotifyRequest.new","always one answer","C57 C102")
a("def new (req : NotifyRequest) : NotifyResponse := ⟨req.header.set_flag .QueryRespone true, req.question⟩","def new (req : NotifyRequest) : NotifyResponse := ⟨req.header, req.question⟩","NotifyResponse.new","QR not set","C57 C102")
a("def new (req : NotifyRequest) : NotifyResponse := ⟨req.header.set_flag .QueryRespone true, req.question⟩","def new (req : NotifyRequest) : NotifyResponse := ⟨{ req.header.set_flag .QueryRespone true with an_count := 0 }, req.question⟩","NotifyResponse.new","counts corrected (the intended program): then c102_reply_violated is false","C102 negation")
json.dump(M,open('/tmp/mut_exchange.json','w'))
print(len(M))
