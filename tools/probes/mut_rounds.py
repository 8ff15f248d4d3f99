import json
M=[]
def a(old,new,d,edit,claim,nth=None,file='Model/Name.lean'):
    x=dict(file=file,old=old,new=new,edit=edit,claim=claim); x['def']=d
    if nth is not None: x['nth']=nth
    M.append(x)
a("biggest := s.newCur, current := s.newCur","biggest := s.biggest - 1, current := s.newCur","Name.fwStep","after a pointer the limit for the next one falls by one only","C95 C01")
a("else if s.newCur < s.biggest then","else if s.newCur ≤ s.biggest then","Name.fwStep","a pointer may point to where the last one went","C95 C01 (endless loop)")
a("      if s.nused ≤ MAX_WIRE_LEN then\n        .ok ({ s with data := s.data ++ [c], done","      if s.nused ≤ 2 * MAX_WIRE_LEN then\n        .ok ({ s with data := s.data ++ [c], done","Name.fwStep","the length of the name is tested against the wrong limit","C95 C02")
a("nused := s.nused + (c.toNat + 1) }\n      if","nused := s.nused + c.toNat }\n      if","Name.fwStep","length octets are not counted","C95 C02")
a("seen := true, state := .Start }","seen := false, state := .Start }","Name.fwStep","octets behind a pointer count as consumed","C02")
json.dump(M,open('/tmp/mut_rounds.json','w'))
