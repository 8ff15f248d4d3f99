import json
M=[]
def a(old,new,d,edit,claim,**k): M.append(dict(file='Model/Text.lean',old=old,new=new,edit=edit,claim=claim,probe='text',**{'def':d},**k))
a("c == 32 || c == 9 || c == 10 || c == 12 || c == 13","c == 32 || c == 9 || c == 10 || c == 13","isAsciiSpace","form feed is not a blank","C42")
a("if acc ≤ max then parseDigits max t acc else .err","if acc < max then parseDigits max t acc else .err","parseDigits","the largest number is refused","C41 C70")
a("if left < 3 then .err","if left < 2 then .err","StrBuf.escapedNum","only two octets need be left after a backslash","C71")
a("let n ← parseNum 255 d","let n ← parseNum 999 d","StrBuf.escapedNum","numbers above 255 wrap","C41")
a("if c = 92 ∧ escape = false then","if c = 92 then","StrBuf.charLoop","an escaped backslash escapes the next octet","C41")
a("else if c = 34 ∧ escape = false then ((if","else if c = 34 then ((if","StrBuf.charLoop","an escaped quote ends the string","C41")
a("if (data ++ [num]).length > 255 then (.err, pos + 3)","if (data ++ [num]).length > 256 then (.err, pos + 3)","StrBuf.charLoop","256 octets with an escape at the end","C41")
a("else if (data ++ [c]).length > 255 then","else if (data ++ [c]).length ≥ 255 then","StrBuf.charLoop","255 octets are refused","C41")
a("else charLoop raw fuel (pos + 3) false (data ++ [num])","else charLoop raw fuel (pos + 1) false (data ++ [num])","StrBuf.charLoop","only one digit of an escape is passed","C41")
a("((if data = [] then .err else .ok data), pos + 1)","((if data = [] then .err else .ok data), pos)","StrBuf.charLoop","the closing quote is not passed","C41 C70")
a("else charLoop raw fuel (pos + 1) false (data ++ [c])","else charLoop raw fuel (pos + 1) escape (data ++ [c])","StrBuf.charLoop","escape stays on","C41")
a("if b.is_eos then pure (data ++ [s]) else textLoop","if b.is_eos then pure [s] else textLoop","StrBuf.textLoop","only the last string of a text is kept","C41 C70")
a("  let p ← St.lift (skipWhile (fun c => !isAsciiSpace c) b.raw (b.raw.length - b.pos) b.pos)\n  St.put { b with pos := p }\n  if p = b.pos then pure none","  let p ← St.lift (skipWhile (fun c => !isAsciiSpace c) b.raw (b.raw.length - b.pos) b.pos)\n  St.put { b with pos := p }\n  if p = b.raw.length then pure none","StrBuf.read_str","the last word is lost","C42")
a("    St.put { b with pos := b.raw.length }\n    pure (some s)","    pure (some s)","StrBuf.read_left","read_left does not pass the text","C42")
a("let s ← St.lift (slice b.raw b.pos b.raw.length)","let s ← St.lift (slice b.raw (b.pos + 1) b.raw.length)","StrBuf.read_left","one octet of the rest is lost","C42 C70")
a("if ch < 0x20 ∨ ch ≥ 0x7f then [92","if ch < 0x20 ∨ ch > 0x7f then [92","Field.char_to_str","DEL is printed as is","C41")
a("else if ch = 34 ∨ ch = 59 ∨ ch = 92 then","else if ch = 34 ∨ ch = 59 then","Field.char_to_str","backslash is not escaped","C41")
a("0x30 + ((ch / 10) % 10), 0x30 + ch % 10]","0x30 + ((ch / 10) % 10), 0x30 + ch % 8]","Field.char_to_str","last digit octal","C41")
a("  | .timestamp, .u32 v => .ok (Cal.format v)","  | .timestamp, .u32 v => .ok (decimal v.toNat)","Field.to_str","time stamps in seconds","C70")
a("def isLeap (y : Int) : Bool := y % 4 == 0 && (y % 100 != 0 || y % 400 == 0)","def isLeap (y : Int) : Bool := y % 4 == 0 && (y % 100 != 0)","Cal.isLeap","no leap year every 400 years","C70")
a("two (md.2 + 1) ++","two md.2 ++","Cal.format","days from 0","C70")
a("two (t / 60 % 60)","two (t / 60)","Cal.format","minutes not modulo 60","C70")
a("  let s ← strSlice ts 8 10","  let s ← strSlice ts 10 12","Field.timestampParse","hour read at the minutes","C70")
a("  ensure (ts.length = 14)","  ensure (ts.length ≤ 14)","Field.timestampParse","short time stamps are cut out of range","C71")
a("  | .u16 => do pure (.u16 (UInt16.ofNat (← StrBuf.read (parseNum 65535))))","  | .u16 => do pure (.u16 (UInt16.ofNat (← StrBuf.read (parseNum 255))))","Field.from_str","u16 fields read as u8","C70")
a("      pure (t ++ [32] ++ r)","      pure (t ++ r)","Field.allToStr","no space between fields","C70")
a("    if cs = [] then pure t\n","","Field.allToStr","fields after the last","C70")
a("  let b ← StrBuf.new m (trim s)","  let b ← StrBuf.new m s","RRset.from_str","the text is not trimmed","C70")
a("    let t ← St.lift (RRType.from_str w)\n    pure (.IN, t)","    let t ← St.lift (RRType.from_str w)\n    pure (.CH, t)","RRset.classType","another default class","C70")
a("  pure ⟨name, ct.2, ct.1, UInt32.ofNat ttl, [rd]⟩","  pure ⟨name, ct.2, .IN, UInt32.ofNat ttl, [rd]⟩","RRset.parse","the class is dropped","C70")
a("{ r with rdatas := r.rdatas ++ [rd] }","{ r with rdatas := rd :: r.rdatas }","RRset.strsFold","records are put in front","C70")
a("  else strsFold x m last (ss.drop 1)","  else strsFold x m last ss","RRset.from_strs","the first record is taken twice","C70")
a("++ [9] ++ s.class_.to_str ++ [9] ++ s.typ.to_str)","++ [9] ++ s.typ.to_str ++ [9] ++ s.class_.to_str)","RRset.header","class and type swapped","C70")
a("  pure (h ++ [9] ++ t ++ [10])","  pure (h ++ t ++ [10])","RRset.line","no tab before the data","C70")
a("      let ls ← s.linesOf x rds\n    pure (l ++ ls)".replace("      let ls","    let ls"),"    let ls ← s.linesOf x rds\n    pure (ls ++ l)","RRset.linesOf","lines in reverse order","C70")
a("    let s ← St.lift (from_utf8_unwrap s)\n    pure (some s)","    let s ← St.lift (from_utf8_unwrap (s.drop 1))\n    pure (some s)","StrBuf.read_str","the word is cut by one octet","C42 C71")
json.dump(M,open('/tmp/mut_text.json','w'))
