import json
M=[]
def a(old,new,d,edit,claim,nth=None,file='Model/Chain.lean'):
    x=dict(file=file,old=old,new=new,edit=edit,claim=claim); x['def']=d
    if nth is not None: x['nth']=nth
    M.append(x)
a("pure { c with nodes := c.nodes.set c.level_count p, level_count := c.level_count + 1 }","pure { c with nodes := c.nodes.set c.level_count p }","NodeChain.push","the level count stays","C99")
a("pure { c with nodes := c.nodes.set c.level_count p, level_count := c.level_count + 1 }","pure { c with level_count := c.level_count + 1 }","NodeChain.push","the node is not stored","C99")
a("pure { c with nodes := c.nodes.set c.level_count p, level_count := c.level_count + 1 }","pure { c with nodes := c.nodes.set (c.level_count + 1) p, level_count := c.level_count + 1 }","NodeChain.push","the node is stored one place too far","C99")
a("assertR (c.level_count < 128)","assertR (c.level_count < 127)","NodeChain.push","room for 127 nodes only","C99")
a("assertR (c.level_count < 128)","assertR (c.level_count < 129)","NodeChain.push","no panic on the 129th push","C99")
a("pure ({ c with level_count := c.level_count - 1 }, p)","pure (c, p)","NodeChain.pop","the level count stays","C99")
a("let p ← idx c.nodes (c.level_count - 1)\n  pure ({","let p ← idx c.nodes 0\n  pure ({","NodeChain.pop","the oldest node comes back","C99")
a("assertR (0 < c.level_count)\n  let p ← idx c.nodes (c.level_count - 1)","let p ← idx c.nodes (c.level_count - 1)","NodeChain.pop","popping an empty chain does not panic","C99")
a("idx c.nodes (← csub c.level_count 1)","idx c.nodes c.level_count","NodeChain.top","the entry behind the top","C99")
a("def bottom (c : NodeChain) : Res Ptr := idx c.nodes 0","def bottom (c : NodeChain) : Res Ptr := idx c.nodes 1","NodeChain.bottom","the second node","C99")
a("let p ← idx c.nodes (c.level_count - i - 1)\n    let n ← s.look p\n    fillNames","let p ← idx c.nodes (c.level_count - i)\n    let n ← s.look p\n    fillNames","NodeChain.fillNames","names one level too high","C99 C87 (absolute names)")
a("let p ← idx c.nodes (c.level_count - i - 1)\n    let n ← s.look p\n    fillNames","let p ← idx c.nodes i\n    let n ← s.look p\n    fillNames","NodeChain.fillNames","names in the reverse order","C99")
a("let names ← slice names 0 c.level_count","let names ← slice names 0 (c.level_count - 1)","NodeChain.get_absolute_name","the top level is left out","C99")
a("let names ← slice names 0 c.level_count","pure ()","NodeChain.get_absolute_name","all 128 names are joined","C99")
a("| .Equal => do\n        let chain ← chain.push node\n        pure","| .Equal => do\n        pure","findLoopA","the node found is not pushed","C99")
a("let chain := { chain with last_compared := node, last_compared_result := c }","let chain := { chain with last_compared_result := c }","findLoopA","last_compared is not set","C99")
a("let chain := { chain with last_compared := node, last_compared_result := c }","let chain := { chain with last_compared := node }","findLoopA","last_compared_result is not set","C99")
a("if stop then pure (⟨node, .PartialMatch⟩, chain, param)\n        else do\n          let chain ← chain.push node","if stop then pure (⟨node, .PartialMatch⟩, chain, param)\n        else do\n          let chain ← pure chain","findLoopA","zones on the way are not pushed","C99")
a("if c.order < 0 then n.left else n.right","if c.order ≤ 0 then n.left else n.right","findLoopA","going left on 0","C99 (harmless: the order is never 0 without common labels)")
a("⟨0, List.replicate 128 0, 0, ⟨0, 0, .Equal⟩⟩","⟨0, List.replicate 127 0, 0, ⟨0, 0, .Equal⟩⟩","NodeChain.new","an array of 127","C99")
json.dump(M,open('/tmp/mut_chain.json','w'))
M=[]
S='Model/Show.lean'
a("pure (ascii \"soa \" ++ t ++ ascii \"\\n\")","pure (ascii \"soa \" ++ ascii \"\\n\")","NotifyRequest.to_string","the SOA itself is not printed","C91 (c91_notify_exact)",file=S)
a("pure (ascii \"notify for zone \" ++ n ++ ascii \"\\n\" ++ s)","pure (ascii \"notify for zone \" ++ s)","NotifyRequest.to_string","the zone is not printed","C91 (c91_notify_exact)",file=S)
a("| none => .ok []\n  pure (ascii \"notify","| none => .ok (ascii \"soa \\n\")\n  pure (ascii \"notify","NotifyRequest.to_string","a missing SOA prints as one","C91",file=S)
a("(if e.dnssec_aware then ascii \"flags: do; \" else []) ++","","Edns.to_string","the DO flag is not printed","C81 C91",file=S)
a("ascii \"udp: \" ++ decimal e.udp_size.toNat","ascii \"udp: \" ++ decimal e.version.toNat","Edns.to_string","the version as UDP size","C81 C91",file=S)
a("if count > 0 then do","if count > 1 then do","Response.showSection","sections of one record are not printed","C81 C91",file=S)
a("let t ← if s.typ ≠ .OPT then s.to_string x else .ok []","let t ← s.to_string x","Section.showSets","OPT records are printed too","C81 C91",file=S)
a("  let n ← showSection x m.header.ns_count (ascii \";; AUTHORITY SECTION:\\n\") m.authority","  let n ← showSection x m.header.an_count (ascii \";; AUTHORITY SECTION:\\n\") m.authority","Response.to_string","the authority section goes by the answer count","C81 C91",file=S)
a("pure (r.header.to_string ++ ascii \"\\n\" ++ ascii \";; QUESTION","pure (ascii \"\\n\" ++ ascii \";; QUESTION","Request.to_string","the header is not printed","C91",file=S)
a("pure (n ++ ascii \" \" ++ q.class_.to_str ++ ascii \" \" ++ q.typ.to_str)","pure (n ++ ascii \" \" ++ q.typ.to_str)","Question.to_string","the class is not printed","C81 C91",file=S)
C='Model/Codes.lean'
json.dump(M,open('/tmp/mut_show.json','w'))
