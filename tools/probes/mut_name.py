#!/usr/bin/env python3
"""mutants of Model/Name, Model/Show and Model/Build; usage: mut_name.py OUT.json"""
import json,sys
M=[]
def m(file,old,new,d,edit,claim,nth=None,probe='name'):
    e={'file':'Model/'+file,'old':old,'new':new,'def':d,'edit':edit,'claim':claim,'probe':probe}
    if nth is not None: e['nth']=nth
    M.append(e)
N='Name.lean'
m(N,"  let l ← csub n.label_count 1\n  pure ⟨n.raw, n.offsets, 0, l⟩","  let l ← csub n.label_count 1\n  pure ⟨n.raw, n.offsets, 0, l - 1⟩","LabelSlice.from_name","root label left out","C80")
m(N,"  let lastLen ← cadd8 b.toNat 1\n  let ofirst","  let lastLen ← cadd8 b.toNat 0\n  let ofirst","LabelSlice.len","length octet of the last label not counted","C80")
m(N,"  let f ← idx s.offsets s.first_label\n  let l ← s.len\n  slice s.data f (f + l)","  let l ← s.len\n  slice s.data 0 l","LabelSlice.bytes","starts at the whole data","C80")
m(N,"  let d ← csub s.last_label s.first_label\n  pure (d + 1)","  let d ← csub s.last_label s.first_label\n  pure d","LabelSlice.label_count","off by one","C80")
m(N,"  if la ≠ lb then pure false\n","  if la < lb then pure false\n","LabelSlice.equals","only shorter is different","C80")
m(N,"if case_sensitive then pure (da == db) else pure (eqIgnoreCase da db)","if case_sensitive then pure (eqIgnoreCase da db) else pure (da == db)","LabelSlice.equals","case sensitivity inverted","C80")
m(N,"    let c2 := if cs then c2 else lower_case c2\n","    let c2 := if cs then c2 else c2\n","LabelSlice.cmpBytes","second octet not folded","C09,C80")
m(N,"if ldiff < 0 then .SuperDomain else if ldiff > 0 then .SubDomain else .Equal","if ldiff < 0 then .SubDomain else if ldiff > 0 then .SuperDomain else .Equal","LabelSlice.cmpLoop","super and sub swapped","C11")
m(N,"(min count1.toNat count2.toNat) (pos1 + 1) (pos2 + 1)","(min count1.toNat count2.toNat) pos1 pos2","LabelSlice.cmpLoop","compares from the length octet","C09")
m(N,"else cmpLoop m cs s o ldiff l l1 l2 (nlabels + 1)","else cmpLoop m cs s o ldiff l l1 l2 nlabels","LabelSlice.cmpLoop","common labels not counted","C11")
m(N,"⟨order, nlabels % 256, if nlabels = 0 then .None else .CommonAncestor⟩","⟨order, nlabels % 256, if nlabels ≤ 1 then .None else .CommonAncestor⟩","LabelSlice.mismatch","only the root in common is no relation","C11")
m(N,"cmpLoop m case_sensitive s o ((l1 : Int) - (l2 : Int)) (min l1 l2) l1 l2 0","cmpLoop m case_sensitive s o ((l2 : Int) - (l1 : Int)) (min l1 l2) l1 l2 0","LabelSlice.compare","label difference swapped","C09,C11")
m(N,"  assertR (index < c)\n  pure { s with first_label","  assertR (index ≤ c)\n  pure { s with first_label","LabelSlice.strip_left","may strip all labels","C80")
m(N,"  assertR (index < c)\n  let l ← csub s.last_label index","  assertR (index ≤ c)\n  let l ← csub s.last_label index","LabelSlice.strip_right","may strip all labels","C80")
m(N,"pure { s with first_label := s.first_label + index }","pure { s with first_label := index }","LabelSlice.strip_left","earlier strips forgotten","C80")
m(N,"[0x22, 0x28, 0x29, 0x2E, 0x3B, 0x5C, 0x40, 0x24]","[0x22, 0x28, 0x29, 0x3B, 0x5C, 0x40, 0x24]","LabelSlice.special","dot not escaped","C05")
m(N,"else if c > 0x20 ∧ c < 0x7f then [c]","else if c ≥ 0x20 ∧ c < 0x7f then [c]","LabelSlice.dispByte","space printed as itself","C05")
m(N,"    if count = 0 then .ok (buf ++ [46])","    if count = 0 then .ok buf","LabelSlice.dispLoop","no final dot","C05,C80")
m(N,"  else if case_sensitive then a.data == b.data\n  else LabelSlice.eqIgnoreCase a.data b.data","  else if case_sensitive then a.data == b.data\n  else a.data == b.data","LabelSequence.equals","case always matters","C17")
m(N,"  ensure (start_label < max ∧ label_count0 > 0)","  ensure (start_label < max)","LabelSequence.split","zero labels allowed","C17")
m(N,"if start_label + label_count0 > max then max - start_label else label_count0\n  let last_label","if start_label + label_count0 > max then max else label_count0\n  let last_label","LabelSequence.split","count not clamped right","C17")
m(N,"    let tail ← subAll data_offset (offsets'.drop start_label)","    let tail ← subAll 0 (offsets'.drop start_label)","LabelSequence.split","offsets of the tail not shifted","C17")
m(N,"    let cur ← idx offsets 0\n    let offsets ← subAll cur offsets\n    pure (⟨data, offsets⟩,","    pure (⟨data, offsets⟩,","LabelSequence.split","offsets of the part not shifted","C17")
m(N,"(mid || a, last, len + seq.len","(mid, last, len + seq.len","LabelSequence.scan","absolute middle accepted","C17")
m(N,"(mid, last && a, len + seq.len","(mid, last, len + seq.len","LabelSequence.scan","relative last accepted","C17")
m(N,"    ensure (final_length ≤ MAX_WIRE_LEN)\n    ensure (final_count ≤ MAX_LABEL_COUNT)","    ensure (final_length < MAX_WIRE_LEN)\n    ensure (final_count ≤ MAX_LABEL_COUNT)","LabelSequence.concat_all","one octet less","C17")
m(N,"    if suffixes = [] then pure ⟨s.data, s.offsets⟩ else .err","    pure ⟨s.data, s.offsets⟩","LabelSequence.concat_all","suffixes behind an absolute sequence ignored","C17")
m(N,"  let r ← LabelSlice.compare m sa sb false\n  pure (if r.order < 0 then .lt else if r.order > 0 then .gt else .eq)","  let r ← LabelSlice.compare m sa sb true\n  pure (if r.order < 0 then .lt else if r.order > 0 then .gt else .eq)","LabelSequence.cmp","case matters","C80")
m(N,"  let (d, o) ← Name.string_parse text false","  let (d, o) ← Name.string_parse text true","LabelSequence.from_str","always absolute","C80")
m(N,"  let data_length ← cadd8 ol last_label_len\n  let (_, raw)","  let data_length ← cadd8 ol 1\n  let (_, raw)","Name.into_label_sequence","last label cut","C17")
m(N,"    let cur ← idx offsets 0\n    let offsets ← LabelSequence.subAll cur offsets\n    pure ⟨raw, offsets⟩","    pure ⟨raw, offsets⟩","Name.into_label_sequence","offsets not shifted","C17")
m(N,"  LabelSlice.compare m sa sb false\n\n","  LabelSlice.compare m sb sa false\n\n","Name.get_relation","arguments swapped","C11")
m(N,"    sumLens ns (l + a, c + b)","    sumLens ns (l + a + 1, c + b)","Name.sumLens","root octet counted each time","C14")
m(N,"    let new ← slice n.offsets 1 n.label_count\n","    let new ← slice n.offsets 0 n.label_count\n","Name.copyOffsets","root offset copied twice","C14")
m(N,"  ensure (final_count ≤ MAX_LABEL_COUNT)\n  let k","  ensure (final_count < MAX_LABEL_COUNT)\n  let k","Name.concat_all","one label less","C14")
m(N,"    copyOffsets ns (offs ++ new)","    copyOffsets ns (offs ++ new.reverse)","Name.copyOffsets","order of new offsets","C14")
m(N,"    revLoop n i (raw ++ d) (offs ++ [label_len % 256]) (label_len + dl)","    revLoop n i (raw ++ d) (offs ++ [label_len % 256]) (label_len + dl + 1)","Name.revLoop","offsets drift","C15")
m(N,"    revLoop n i1 [] [] 0","    revLoop n (i1 - 1) [] [] 0","Name.reverse","last label lost","C15")
m(N,"  if start_label + label_count = n.label_count then do","  if start_label + label_count ≥ n.label_count - 1 then do","Name.split","root taken as part","C13")
m(N,"    let offs ← LabelSequence.subAll first (offsets.take (label_count + 1))\n","    let offs ← LabelSequence.subAll first (offsets.take label_count)\n","Name.split","the root offset is not shifted","C13")
m(N,"  split n level k","  split n 0 k","Name.parent","child instead of parent","C13")
m(N,"    lowerInner k (p + 1) (raw.set p (lower_case c))","    lowerInner k (p + 1) (raw.set p (c ||| 32))","Name.lowerInner","bit set on every octet","C16")
m(N,"    let (p', raw') ← lowerInner l.toNat (p + 1) raw","    let (p', raw') ← lowerInner l.toNat p raw","Name.lowerOuter","length octets lowered too","C16")
m(N,"  assertR (label_count < n.label_count)\n  if label_count = 0 then pure n\n  else do\n    let offsets :=","  assertR (label_count ≤ n.label_count)\n  if label_count = 0 then pure n\n  else do\n    let offsets :=","Name.strip_left","may strip the root","C13")
m(N,"    let offsets ← slice n.offsets label_count n.offsets.length\n","    let offsets ← slice n.offsets 0 n.offsets.length\n","Name.into_ancestor","offsets not cut","C13")
m(N,"    pure ⟨raw.set end_pos 0, offsets⟩","    pure ⟨raw, offsets⟩","Name.strip_right","root octet not written","C13")
m(N,"    pure ⟨raw.set end_pos 0, n.offsets.take new_count⟩","    pure ⟨raw.set end_pos 0, n.offsets.take (new_count - 1)⟩","Name.into_child","root offset lost","C13")
m(N,"  if n.len < parent.len ∨ n.label_count < parent.label_count then .ok false","  if n.len ≤ parent.len ∨ n.label_count < parent.label_count then .ok false","Name.is_subdomain","a name is not its own subdomain","C12")
m(N,"    if lower_case x ≠ lower_case y then pure false\n    else do\n      let i","    if x ≠ y then pure false\n    else do\n      let i","Name.subLoop","case matters","C12")
m(N,"    if o ≠ 2 then pure false","    if o < 2 then pure false","Name.is_wildcard","longer first labels","C18")
m(N,"pure (a == 1 && b == 42)","pure (b == 42)","Name.is_wildcard","length of the first label","C18?")
m(N,"n.raw.length == 1 && n.raw[0]? == some 0","n.raw[0]? == some 1","Name.is_root","wrong octet","C18")
m(N,"    if lower_case x ≠ lower_case y then pure none","    if x ≠ y then pure none","Name.eqInner","case matters","C07")
m(N,"  if a.len ≠ b.len ∨ a.label_count ≠ b.label_count then .ok false","  if a.label_count ≠ b.label_count then .ok false","Name.eq","length not compared","C07?")
m(N,"    if x ≠ y then pure false\n    else do\n      match","    if x < y then pure false\n    else do\n      match","Name.eqLoop","label lengths","C07")
m(N,"  pure (if r.order < 0 then .lt else if r.order = 0 then .eq else .gt)","  pure (if r.order > 0 then .lt else if r.order = 0 then .eq else .gt)","Name.cmp","order reversed","C09")
m(N,"n.raw.map lower_case","n.raw","Name.hashFeed","case hashed","C08")
m(N,"n.raw.map lower_case","n.raw.map fun _ => 0","Name.hashFeed","content not hashed","C08?")
S='Show.lean'
m(S,"decimal h.id.toNat","decimal h.qd_count.toNat","Header.to_string","id not shown","C81",probe='show')
m(S,"ascii \"AUTHORITY: \" ++ decimal h.ns_count.toNat","ascii \"AUTHORITY: \" ++ decimal h.an_count.toNat","Header.to_string","wrong count","C81",probe='show')
m(S,"h.setted_flags.flatMap HeaderFlag.spaced","h.setted_flags.flatMap HeaderFlag.to_str","Header.to_string","flags glued","C81?",probe='show')
m(S,"q.class_.to_str ++ ascii \" \" ++ q.typ.to_str","q.class_.to_str ++ ascii \" \" ++ q.class_.to_str","Question.to_string","class twice","C81",probe='show')
m(S,"(if e.dnssec_aware then ascii \"flags: do; \" else [])","ascii \"flags: do; \"","Edns.to_string","DO always shown","C81",probe='show')
m(S,"if s.typ ≠ .OPT then s.to_string x else .ok []","if s.typ = .OPT then .ok [] else if s.typ = .NS then .ok [] else s.to_string x","Section.showSets","NS left out","C81",probe='show')
m(S,"    let ts ← showSets x ss\n    pure (t ++ ts)","    let ts ← showSets x ss\n    pure (ts ++ t)","Section.showSets","reverse order","C81",probe='show')
m(S,"  if count > 0 then do","  if count > 1 then do","Response.showSection","single records not shown","C81",probe='show')
m(S,"m.header.ns_count (ascii \";; AUTHORITY SECTION:\\n\") m.authority","m.header.ns_count (ascii \";; AUTHORITY SECTION:\\n\") m.answer","Response.to_string","answer shown twice","C81",probe='show')
m(S,"m.header.ar_count (ascii","m.header.ns_count (ascii","Response.to_string","wrong count for additional","C81",probe='show')
m(S,"  | some edns => ascii \";; OPT PSEUDOSECTION:\\n\" ++ edns.to_string","  | some _ => ascii \";; OPT PSEUDOSECTION:\\n\"","Response.showEdns","EDNS not shown","C81",probe='show')
m(S,"pure (ascii \"soa \" ++ t ++ ascii \"\\n\")","pure (t ++ ascii \"\\n\")","NotifyRequest.to_string","prefix left out","C81",probe='show')
m(S,"pure (r.header.to_string ++ ascii \"\\n\" ++ ascii \";; QUESTION SECTION:\\n\" ++ q ++ ascii \"\\n\\n\")","pure (r.header.to_string ++ ascii \"\\n\")","Request.to_string","question left out","C81",probe='show')
B='Build.lean'
m(B,"    let m ← add_rrset m t s\n","    let m ← add_rrset m .Answer s\n","Builder.addGroups","always the answer section","C77",probe='show')
m(B,"  let m ← addGroups x mode .Authority authorities m","  let m ← addGroups x mode .Authority additionals m","Builder.build","wrong group list","C77",probe='show')
m(B,"  let m ← addEdns udp_size m\n","","Builder.build","no EDNS","C77",probe='show')
m(B,"pure (done (make_response m))","pure (make_response m)","Builder.build","counts not updated","C77",probe='show')
m(B,"pure (done (make_response m))","pure (done m)","Builder.build","QR not set","C77",probe='show')
m(B,"⟨0, 0, UInt16.ofNat sz, false, none⟩","⟨0, 0, UInt16.ofNat sz, true, none⟩","Builder.addEdns","DO set","C77",probe='show')
m('Message.lean',"  if a.header ≠ b.header then pure false","  if a.header.id ≠ b.header.id then pure false","Response.eq","only the id of the headers","C79",probe='show')
m('Message.lean',"      if ← Section.eq sort a.authority b.authority then Section.eq sort a.additional b.additional","      if ← Section.eq sort a.authority b.authority then pure true","Response.eq","additional not compared","C79",probe='show')
m('Message.lean',"  | some a, some b => if a.length ≠ b.length then .ok false else Section.eqSets sort a b","  | some a, some b => Section.eqSets sort a b","Section.eq","number of sets not compared","C79",probe='show')
m('Message.lean',"  | none, none => .ok true\n  | some a","  | none, _ => .ok true\n  | some a","Section.eq","nothing equals anything","C79",probe='show')
json.dump(M,open(sys.argv[1],'w'))
print(len(M))
