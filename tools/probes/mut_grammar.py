import json
M=[]
T='Model/Text.lean'; S='Model/Std.lean'; N='Model/Name.lean'; C='Model/Codes.lean'; R='Model/Rdata.lean'
def m(f,old,new,d,edit,claim='C84',**k): M.append(dict(file=f,old=old,new=new,edit=edit,claim=claim,probe='grammar',**{'def':d},**k))
m(T,"if c = 43 ∧ t ≠ [] then parseDigits max t 0","if c = 43 then parseDigits max t 0","parseNum","a plus sign alone is zero")
m(T,"if c = 43 ∧ t ≠ [] then parseDigits max t 0 else parseDigits max (c :: t) 0","parseDigits max (c :: t) 0","parseNum","no plus sign")
m(T,"      pure (-(n : Int))","      pure (n : Int)","parseInt","the minus of a year is dropped")
m(T,"d ≤ daysInMonth y mo ∧ h ≤ 23","d ≤ daysInMonth y mo ∧ h ≤ 24","Cal.timestamp","24 o'clock accepted")
m(T,"mi ≤ 59 ∧ s ≤ 59 then","mi ≤ 59 ∧ s ≤ 60 then","Cal.timestamp","leap seconds accepted")
m(T,"mo ≤ 12 ∧ 1 ≤ d ∧","mo ≤ 12 ∧","Cal.timestamp","day 0 accepted")
m(T,"else if m = 4 ∨ m = 6 ∨ m = 9 ∨ m = 11 then 30","else if m = 4 ∨ m = 6 ∨ m = 11 then 30","Cal.daysInMonth","31 days in September")
m(T,"def daysInMonth (y : Int) (m : Nat) : Nat :=\n  if m = 2 then (if isLeap y then 29 else 28)","def daysInMonth (y : Int) (m : Nat) : Nat :=\n  if m = 2 then (if y % 4 == 0 then 29 else 28)","Cal.daysInMonth","Julian leap years")
m(T,"pure (UInt32.ofNat (t % 4294967296).toNat)","pure (UInt32.ofNat t.toNat)","Field.timestampParse","times before 1970 become 0")
m(T,"  let s ← strSlice ts 4 6\n  let mo ← parseNum 255 s\n  let s ← strSlice ts 6 8\n  let d ← parseNum 255 s","  let s ← strSlice ts 4 6\n  let d ← parseNum 255 s\n  let s ← strSlice ts 6 8\n  let mo ← parseNum 255 s","Field.timestampParse","day and month swapped")
m(T,"  match RRClass.from_str w with\n  | .ok c => do\n    let w ← nextWord\n    let t ← St.lift (RRType.from_str w)\n    pure (c, t)\n  | _ => do\n    let t ← St.lift (RRType.from_str w)\n    pure (.IN, t)","  match RRType.from_str w with\n  | .ok t => pure (.IN, t)\n  | _ => do\n    let c ← St.lift (RRClass.from_str w)\n    let w ← nextWord\n    let t ← St.lift (RRType.from_str w)\n    pure (c, t)","RRset.classType","the type is tried before the class")
m(T,"  | _ => do\n    let t ← St.lift (RRType.from_str w)\n    pure (.IN, t)","  | _ => do\n    let w ← nextWord\n    let t ← St.lift (RRType.from_str w)\n    pure (.IN, t)","RRset.classType","an unknown word in the place of the class is skipped")
m(T,"  let ttl ← St.lift (parseNum 4294967295 w)","  let ttl ← St.lift (parseNum 2147483647 w)","RRset.parse","TTL limited to 31 bits (RFC 2181)")
m(T,"  | 0xC2 :: 0xA0 :: _ => 2\n","","spaceAheadU","no-break space not trimmed")
m(T,"  | 0x80 :: 0x80 :: 0xE3 :: _ => 3\n","","spaceBehindU","ideographic space not trimmed at the end")
m(T,"    if spaceAhead s ≠ 0 then stripSpaces fuel (s.drop (spaceAhead s))\n    else match s with","    match s with","Field.stripSpaces","white space in base64 refused")
m(T,"  | .u8 => do pure (.u8 (UInt8.ofNat (← StrBuf.read (parseNum 255))))","  | .u8 => do pure (.u8 (UInt8.ofNat (← StrBuf.read (parseNum 65535))))","Field.from_str","u8 fields wrap")
m(T,"  | .ipv6 => do pure (.ip (← StrBuf.read fun s => Res.ofOption (x.parseV6 s)))","  | .ipv6 => do pure (.ip (← StrBuf.read fun s => Res.ofOption ((x.parseV6 s).orElse fun _ => x.parseV4 s)))","Field.from_str","AAAA takes IPv4 addresses")
m(T,"  | some s => do pure (.bytes (← St.lift (Res.ofOption (x.decode64 (stripSpaces s.length s)))))\n  | none => St.fail","  | some s => do pure (.bytes (← St.lift (Res.ofOption (x.decode64 (stripSpaces s.length s)))))\n  | none => pure (.bytes [])","Field.base64_from_str","missing base64 is empty")
m(S,"else if !zeros && s.head? == some 48 && decide (count > 1) then none\n","","StdText.readNumber","leading zeros in IPv4 (Rust before 1.57)")
m(S,"let v4 := if left = 0 then none else readSep 58 i (readV4 4 0) s","let v4 := readSep 58 i (readV4 4 0) s","StdText.readGroups","a dotted quad in the last place alone")
m(S,"    let r := readGroups (8 - (head.length + 1)) 0 t","    let r := readGroups (8 - head.length) 0 t","StdText.readTail",":: for no group")
m(S,"  else if r.2.1 then none\n","","StdText.readV6",":: behind a dotted quad")
m(S,"then some [UInt8.ofNat (4 * x + y / 16)] else none","then some [UInt8.ofNat (4 * x + y / 16)] else none","StdText.decodeLast","(no change)") if False else None
m(S,"if (p = [] ∨ p = [61] ∨ p = [61, 61]) ∧ y % 16 = 0 then","if (p = [] ∨ p = [61] ∨ p = [61, 61]) then","StdText.decodeLast","trailing bits not checked")
m(S,"if (p = [] ∨ p = [61]) ∧ z % 4 = 0 then","if (p = [] ∨ p = [61] ∨ p = [61, 61]) ∧ z % 4 = 0 then","StdText.decodeLast","too much padding")
m(S,"  if s.length > 15 then none\n  else match readV4 4 0 s with\n    | some (vs, []) =>","  if s.length > 15 then none\n  else match readV4 4 0 s with\n    | some (vs, _) =>","StdText.parseV4","text behind the address ignored")
m(N,"    ftOrdinary c last { s with data := s.data ++ [c], state := .Ordinary }\n  else ftEscdecimal","    pure { s with data := s.data ++ [c], state := .Ordinary }\n  else ftEscdecimal","Name.ftEscape","an escaped character is taken once (the repair)","C84 C06")
m(N,"pure { s with data := s.data ++ [c], state := .Ordinary }\n  else pure s","pure { s with data := s.data ++ [UInt8.ofNat s.value], state := .Ordinary }\n  else pure s","Name.ftEscdecimal","the octet of the number is pushed (the repair)","C84 C06")
m(N,"    ensure (s.value ≤ 255)\n","","Name.ftEscdecimal","numbers above 255 accepted","C84 C06")
m(N,"  if s.digits = 3 then do","  if s.digits = 2 then do","Name.ftEscdecimal","two digits","C84 C06")
m(N,"  if c = 92 then ftInitialescape c last { s with state := .Initialescape }\n","  if c = 92 then pure { s with state := .Escape }\n","Name.ftStart","a backslash at the front of a label is an escape (the repair)","C84 C06")
m(N,"  else if c = 64 ∧ last = true then","  else if c = 64 then","Name.ftInit","@ in front of more text is the root","C84 C06")
m(N,"    ensure (s.state = .Ordinary)\n","","Name.ftFinish","a text may end inside an escape","C84 C06")
m(C,"  | 0xC5 :: 0xBF :: _ => some (2, [83])\n","","upperWide","long s is no S","C84 C31")
m(R,"  | .DS => some [(.u16, .u16), (.u8, .u8), (.u8, .u8), (.binary, .binary)]","  | .DS => some [(.u16, .u16), (.u8, .u8), (.u8, .u8), (.binary, .base64)]","schema","DS digests in base64")
m(R,"(.u32, .u32), (.u32, .timestamp), (.u32, .timestamp),","(.u32, .u32), (.u32, .u32), (.u32, .u32),","schema","RRSIG times as numbers")
m(R,"  | .CAA => some [(.u8, .u8), (.byte_binary, .string), (.binary, .string)]","  | .CAA => some [(.u8, .u8), (.byte_binary, .string), (.binary, .binary)]","schema","CAA value in hexadecimal")
json.dump(M,open('/tmp/mutg.json','w'))
for e in M:
    s=open('/verif/lean/Verif/'+e['file']).read()
    if s.count(e['old'])!=1: print('!!',s.count(e['old']),e['edit'])
print(len(M))
