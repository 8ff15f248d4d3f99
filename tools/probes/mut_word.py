import json
M=[]
def a(old,new,d,edit,claim,nth=None,file='Model/Word.lean'):
    x=dict(file=file,old=old,new=new,edit=edit,claim=claim); x['def']=d
    if nth is not None: x['nth']=nth
    M.append(x)
a("    | .release => .ok (a + b - USIZE)","    | .release => .ok (USIZE - 1)","addW","a sum past the end of usize stays at the largest number","C96 (what a release build does)")
a("    | .debug => .panic\n    | .release => .ok (a + b - USIZE)","    | .debug => .err\n    | .release => .err","addW","an overflow is reported as an error","C96 (the violations disappear)")
a("if e < b.capacity then (.ok (), { b with len := e })","if e ≤ b.capacity then (.ok (), { b with len := e })","OutBuf.skip_w","skip may fill the buffer","C96 C20 (agrees with skip)")
a("if e < b.capacity then (.ok (), { b with len := e })","if e < b.capacity then (.ok (), { b with len := n })","OutBuf.skip_w","skip sets the length to its argument","C96")
a("    if e ≤ b.len then\n      match slice","    if e < b.len then\n      match slice","InBuf.read_bytes_w","the last octet cannot be read","C96 C21")
a("(.ok d, { b with pos := e })","(.ok d, { b with pos := n })","InBuf.read_bytes_w","the position is set to the count","C96 C21")
a("let p ← addW m pos 1","let p ← addW m pos 2","OutBuf.write_u16_at_w","the low octet goes one place too far","C96")
a("  match addW m pos 2 with\n  | .ok e =>\n    if e ≤ b.len","  match addW m pos 1 with\n  | .ok e =>\n    if e ≤ b.len","OutBuf.write_u16_at_w","the room for one octet is tested","C96")
a("  ensure (start_label < max)\n","  ensure (start_label ≤ max)\n","Name.split_w","a start behind the last label is let through","C96 C13")
a("  let label_count := if sum > max then max - start_label else label_count0\n  let sum ← addW m start_label label_count\n  if sum","  let label_count := if sum > max then max else label_count0\n  let sum ← addW m start_label label_count\n  if sum","Name.split_w","a count too large is cut to the whole name","C96 C13")
a("  ensure (start_label < max ∧ label_count0 > 0)","  ensure (start_label < max)","LabelSequence.split_w","a count of zero is let through","C96 C17")
a("  let last_label ← subW m sum 1","  let last_label ← subW m sum 0","LabelSequence.split_w","the last label is one too far","C96 C17")
a("  let k ← subW m n.label_count level","  let k ← csub n.label_count level","Name.parent_w","level beyond the root always panics","C96 (release build)")
a("    | .release => .ok 0\n  else .ok s.label_count","    | .release => .panic\n  else .ok s.label_count","LabelSequence.sliceCount","an empty run panics in every build","C80 (release build)",file='Model/Name.lean')
a("    | .release => .ok 0\n  else .ok s.label_count","    | .release => .ok 1\n  else .ok s.label_count","LabelSequence.sliceCount","an empty run counts as one label","C80 (release build)",file='Model/Name.lean')
a("    ((l1 : Int) - (l2 : Int)) (min l1 l2) l1 l2 0\n  pure (if r.order","    ((l2 : Int) - (l1 : Int)) (min l1 l2) l1 l2 0\n  pure (if r.order","LabelSequence.cmp","the shorter sequence is the larger one","C80 C89",file='Model/Name.lean')
a("    ((l1 : Int) - (l2 : Int)) (min l1 l2) l1 l2 0\n  pure (if r.order < 0 then .lt else if r.order > 0 then .gt","    ((l1 : Int) - (l2 : Int)) (min l1 l2) l1 l2 0\n  pure (if r.order < 0 then .lt else if r.order > 1 then .gt","LabelSequence.cmp","a difference of one is no difference","C80 C89",file='Model/Name.lean')
json.dump(M,open('/tmp/mut_word.json','w'))
