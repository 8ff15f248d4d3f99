import Verif.Model.Render
/-!
# Model of `rr_type.rs`, `rr_class.rs`, `opcode.rs`, `rcode.rs`, `header_flag.rs`
-/
namespace R53

/-- the octets of an ASCII literal (the literals of rr_type.rs, rr_class.rs, rcode.rs, opcode.rs) -/
def ascii (s : String) : List UInt8 := s.toList.map fun c => UInt8.ofNat c.toNat

/-- the capital of an ASCII letter (rr_type.rs:155, rr_class.rs:64, rcode.rs:84) -/
def upperByte (c : UInt8) : UInt8 := if 97 ≤ c.toNat ∧ c.toNat ≤ 122 then c - 32 else c

/-- the characters outside ASCII with an upper case in ASCII (`ß ı ſ ﬀ ﬁ ﬂ ﬃ ﬄ ﬅ ﬆ`), at the front of a text: their size in
octets and their upper case (rr_type.rs:155, rr_class.rs:64, rcode.rs:84) -/
def upperWide : List UInt8 → Option (Nat × List UInt8)
  | 0xC3 :: 0x9F :: _ => some (2, [83, 83])
  | 0xC4 :: 0xB1 :: _ => some (2, [73])
  | 0xC5 :: 0xBF :: _ => some (2, [83])
  | 0xEF :: 0xAC :: 0x80 :: _ => some (3, [70, 70])
  | 0xEF :: 0xAC :: 0x81 :: _ => some (3, [70, 73])
  | 0xEF :: 0xAC :: 0x82 :: _ => some (3, [70, 76])
  | 0xEF :: 0xAC :: 0x83 :: _ => some (3, [70, 70, 73])
  | 0xEF :: 0xAC :: 0x84 :: _ => some (3, [70, 70, 76])
  | 0xEF :: 0xAC :: 0x85 :: _ => some (3, [83, 84])
  | 0xEF :: 0xAC :: 0x86 :: _ => some (3, [83, 84])
  | _ => none

/-- `fuel` = the length is enough (rr_type.rs:155, rr_class.rs:64, rcode.rs:84) -/
def upperGo : Nat → List UInt8 → List UInt8
  | 0, s => s
  | _ + 1, [] => []
  | fuel + 1, c :: t =>
    if c.toNat < 0x80 then upperByte c :: upperGo fuel t
    else match upperWide (c :: t) with
      | some (n, u) => u ++ upperGo fuel ((c :: t).drop n)
      | none => c :: upperGo fuel t

/-- `str::to_uppercase` on the UTF-8 octets. Simplification: a character whose upper case is not all ASCII is left alone (its
upper case is not all ASCII either, and the result is only compared with ASCII words). (rr_type.rs:155, rr_class.rs:64, rcode.rs:84) -/
def toUppercase (s : List UInt8) : List UInt8 := upperGo s.length s

/-- `RRType` rr_type.rs:8-38 -/
inductive RRType where
  | A
  | NS
  | CNAME
  | SOA
  | PTR
  | MX
  | TXT
  | RP
  | AAAA
  | SRV
  | NAPTR
  | CERT
  | DNAME
  | OPT
  | DS
  | RRSIG
  | NSEC
  | DNSKEY
  | NSEC3
  | NSEC3PARAM
  | TSIG
  | IXFR
  | AXFR
  | ANY
  | URI
  | CAA
  | Unknown (code : UInt16)
deriving DecidableEq, Repr

namespace RRType

/-- rr_type.rs:41-71 -/
def new (value : UInt16) : RRType :=
  if value = 1 then .A
  else if value = 2 then .NS
  else if value = 5 then .CNAME
  else if value = 6 then .SOA
  else if value = 12 then .PTR
  else if value = 15 then .MX
  else if value = 16 then .TXT
  else if value = 17 then .RP
  else if value = 28 then .AAAA
  else if value = 33 then .SRV
  else if value = 35 then .NAPTR
  else if value = 37 then .CERT
  else if value = 39 then .DNAME
  else if value = 41 then .OPT
  else if value = 43 then .DS
  else if value = 46 then .RRSIG
  else if value = 47 then .NSEC
  else if value = 48 then .DNSKEY
  else if value = 50 then .NSEC3
  else if value = 51 then .NSEC3PARAM
  else if value = 250 then .TSIG
  else if value = 251 then .IXFR
  else if value = 252 then .AXFR
  else if value = 255 then .ANY
  else if value = 256 then .URI
  else if value = 257 then .CAA
  else .Unknown value

/-- rr_type.rs:73-103 -/
def as_u16 : RRType → UInt16
  | .A => 1
  | .NS => 2
  | .CNAME => 5
  | .SOA => 6
  | .PTR => 12
  | .MX => 15
  | .TXT => 16
  | .RP => 17
  | .AAAA => 28
  | .SRV => 33
  | .NAPTR => 35
  | .CERT => 37
  | .DNAME => 39
  | .OPT => 41
  | .DS => 43
  | .RRSIG => 46
  | .NSEC => 47
  | .DNSKEY => 48
  | .NSEC3 => 50
  | .NSEC3PARAM => 51
  | .TSIG => 250
  | .IXFR => 251
  | .AXFR => 252
  | .ANY => 255
  | .URI => 256
  | .CAA => 257
  | .Unknown c => c

/-- rr_type.rs:105-135 (`CERT` prints as "URI") -/
def to_str : RRType → List UInt8
  | .A => ascii "A"
  | .NS => ascii "NS"
  | .CNAME => ascii "CNAME"
  | .SOA => ascii "SOA"
  | .PTR => ascii "PTR"
  | .MX => ascii "MX"
  | .TXT => ascii "TXT"
  | .RP => ascii "RP"
  | .AAAA => ascii "AAAA"
  | .SRV => ascii "SRV"
  | .NAPTR => ascii "NAPTR"
  | .CERT => ascii "URI"
  | .DNAME => ascii "DNAME"
  | .OPT => ascii "OPT"
  | .DS => ascii "DS"
  | .RRSIG => ascii "RRSIG"
  | .NSEC => ascii "NSEC"
  | .DNSKEY => ascii "DNSKEY"
  | .NSEC3 => ascii "NSEC3"
  | .NSEC3PARAM => ascii "NSEC3PARAM"
  | .TSIG => ascii "TSIG"
  | .IXFR => ascii "IXFR"
  | .AXFR => ascii "AXFR"
  | .ANY => ascii "ANY"
  | .URI => ascii "URI"
  | .CAA => ascii "CAA"
  | .Unknown _ => ascii "Unknown"

/-- rr_type.rs:154-184 -/
def from_str (s : List UInt8) : Res RRType :=
  let u := toUppercase s
  if u = ascii "A" then .ok .A
  else if u = ascii "NS" then .ok .NS
  else if u = ascii "CNAME" then .ok .CNAME
  else if u = ascii "SOA" then .ok .SOA
  else if u = ascii "PTR" then .ok .PTR
  else if u = ascii "MX" then .ok .MX
  else if u = ascii "TXT" then .ok .TXT
  else if u = ascii "RP" then .ok .RP
  else if u = ascii "AAAA" then .ok .AAAA
  else if u = ascii "SRV" then .ok .SRV
  else if u = ascii "NAPTR" then .ok .NAPTR
  else if u = ascii "CERT" then .ok .CERT
  else if u = ascii "DNAME" then .ok .DNAME
  else if u = ascii "OPT" then .ok .OPT
  else if u = ascii "DS" then .ok .DS
  else if u = ascii "RRSIG" then .ok .RRSIG
  else if u = ascii "NSEC" then .ok .NSEC
  else if u = ascii "DNSKEY" then .ok .DNSKEY
  else if u = ascii "NSEC3" then .ok .NSEC3
  else if u = ascii "NSEC3PARAM" then .ok .NSEC3PARAM
  else if u = ascii "TSIG" then .ok .TSIG
  else if u = ascii "IXFR" then .ok .IXFR
  else if u = ascii "AXFR" then .ok .AXFR
  else if u = ascii "ANY" then .ok .ANY
  else if u = ascii "URI" then .ok .URI
  else if u = ascii "CAA" then .ok .CAA
  else .err

/-- rr_type.rs:137-139 -/
def from_wire : St InBuf RRType := do
  let v ← InBuf.read_u16
  pure (new v)

/-- rr_type.rs:141-143 -/
def to_wire (t : RRType) : St Render Unit := Render.write_u16 t.as_u16

/-- rr_type.rs:188-198 -/
def cmp (a b : RRType) : Ordering := compare a.as_u16.toNat b.as_u16.toNat

end RRType

/-- `RRClass` rr_class.rs:7-16 -/
inductive RRClass where
  | IN
  | CH
  | HS
  | NONE
  | ANY
  | Unknown (code : UInt16)
deriving DecidableEq, Repr

namespace RRClass

/-- rr_class.rs:19-28 -/
def new (value : UInt16) : RRClass :=
  if value = 1 then .IN
  else if value = 3 then .CH
  else if value = 4 then .HS
  else if value = 254 then .NONE
  else if value = 255 then .ANY
  else .Unknown value

/-- rr_class.rs:30-39 -/
def to_u16 : RRClass → UInt16
  | .IN => 1
  | .CH => 3
  | .HS => 4
  | .NONE => 254
  | .ANY => 255
  | .Unknown c => c

/-- rr_class.rs:41-50 -/
def to_str : RRClass → List UInt8
  | .IN => ascii "IN"
  | .CH => ascii "CH"
  | .HS => ascii "HS"
  | .NONE => ascii "NONE"
  | .ANY => ascii "ANY"
  | .Unknown _ => ascii "Unknown"

/-- rr_class.rs:63-72 -/
def from_str (s : List UInt8) : Res RRClass :=
  let u := toUppercase s
  if u = ascii "IN" then .ok .IN
  else if u = ascii "CH" then .ok .CH
  else if u = ascii "HS" then .ok .HS
  else if u = ascii "NONE" then .ok .NONE
  else if u = ascii "ANY" then .ok .ANY
  else .err

/-- rr_class.rs:52-54 -/
def from_wire : St InBuf RRClass := do
  let v ← InBuf.read_u16
  pure (new v)

/-- rr_class.rs:56-58 -/
def to_wire (t : RRClass) : St Render Unit := Render.write_u16 t.to_u16

end RRClass

/-- `Opcode` opcode.rs:3-11 -/
inductive Opcode where
  | Query
  | IQuery
  | Status
  | Notify
  | Update
  | Reserved
deriving DecidableEq, Repr

namespace Opcode

/-- opcode.rs:14-23 -/
def new (value : UInt8) : Opcode :=
  if value = 0 then .Query
  else if value = 1 then .IQuery
  else if value = 2 then .Status
  else if value = 4 then .Notify
  else if value = 5 then .Update
  else .Reserved

/-- opcode.rs:25-34 -/
def to_u8 : Opcode → UInt8
  | .Query => 0
  | .IQuery => 1
  | .Status => 2
  | .Notify => 4
  | .Update => 5
  | .Reserved => 6

/-- opcode.rs:36-45 -/
def to_str : Opcode → List UInt8
  | .Query => ascii "QUERY"
  | .IQuery => ascii "IQUERY"
  | .Status => ascii "STATUS"
  | .Notify => ascii "NOTIFY"
  | .Update => ascii "UPDATE"
  | .Reserved => ascii "RESERVED"

end Opcode

/-- `Rcode` rcode.rs:6-20 -/
inductive Rcode where
  | NoError
  | FormErr
  | ServFail
  | NXDomain
  | NotImp
  | Refused
  | YXDomain
  | YXRRset
  | NXRRset
  | NotAuth
  | NotZone
  | Reserved
deriving DecidableEq, Repr

namespace Rcode

/-- rcode.rs:23-38 -/
def new (value : UInt8) : Rcode :=
  if value = 0 then .NoError
  else if value = 1 then .FormErr
  else if value = 2 then .ServFail
  else if value = 3 then .NXDomain
  else if value = 4 then .NotImp
  else if value = 5 then .Refused
  else if value = 6 then .YXDomain
  else if value = 7 then .YXRRset
  else if value = 8 then .NXRRset
  else if value = 9 then .NotAuth
  else if value = 10 then .NotZone
  else .Reserved

/-- rcode.rs:40-55 -/
def to_u8 : Rcode → UInt8
  | .NoError => 0
  | .FormErr => 1
  | .ServFail => 2
  | .NXDomain => 3
  | .NotImp => 4
  | .Refused => 5
  | .YXDomain => 6
  | .YXRRset => 7
  | .NXRRset => 8
  | .NotAuth => 9
  | .NotZone => 10
  | .Reserved => 11

/-- rcode.rs:57-72 -/
def to_str : Rcode → List UInt8
  | .NoError => ascii "NOERROR"
  | .FormErr => ascii "FORMERR"
  | .ServFail => ascii "SERVFAIL"
  | .NXDomain => ascii "NXDOMAIN"
  | .NotImp => ascii "NOTIMP"
  | .Refused => ascii "REFUSED"
  | .YXDomain => ascii "YXDOMAIN"
  | .YXRRset => ascii "YXRRSET"
  | .NXRRset => ascii "NXRRSET"
  | .NotAuth => ascii "NOTAUTH"
  | .NotZone => ascii "NOTZONE"
  | .Reserved => ascii "RESERVED"

/-- rcode.rs:83-99 -/
def from_str (s : List UInt8) : Res Rcode :=
  let u := toUppercase s
  if u = ascii "NOERROR" then .ok .NoError
  else if u = ascii "FORMERR" then .ok .FormErr
  else if u = ascii "SERVFAIL" then .ok .ServFail
  else if u = ascii "NXDOMAIN" then .ok .NXDomain
  else if u = ascii "NOTIMP" then .ok .NotImp
  else if u = ascii "REFUSED" then .ok .Refused
  else if u = ascii "YXDOMAIN" then .ok .YXDomain
  else if u = ascii "YXRRSET" then .ok .YXRRset
  else if u = ascii "NXRRSET" then .ok .NXRRset
  else if u = ascii "NOTAUTH" then .ok .NotAuth
  else if u = ascii "NOTZONE" then .ok .NotZone
  else if u = ascii "RESERVED" then .ok .Reserved
  else .err

end Rcode

/-- `HeaderFlag` header_flag.rs:3-12 -/
inductive HeaderFlag where
  | QueryRespone
  | AuthAnswer
  | Truncation
  | RecursionDesired
  | RecursionAvailable
  | AuthenticData
  | CheckDisable
deriving DecidableEq, Repr

namespace HeaderFlag

/-- header_flag.rs:15-25 -/
def flag_mask : HeaderFlag → UInt16
  | .QueryRespone => 0x8000
  | .AuthAnswer => 0x0400
  | .Truncation => 0x0200
  | .RecursionDesired => 0x0100
  | .RecursionAvailable => 0x0080
  | .AuthenticData => 0x0020
  | .CheckDisable => 0x0010

/-- header_flag.rs:27-37 -/
def to_str : HeaderFlag → List UInt8
  | .QueryRespone => ascii "qr"
  | .AuthAnswer => ascii "aa"
  | .Truncation => ascii "tc"
  | .RecursionDesired => ascii "rd"
  | .RecursionAvailable => ascii "ra"
  | .AuthenticData => ascii "ad"
  | .CheckDisable => ascii "cd"

/-- header_flag.rs:46-48 -/
def set_flag (flags : UInt16) (f : HeaderFlag) : UInt16 := flags ||| f.flag_mask
/-- header_flag.rs:50-52 -/
def clear_flag (flags : UInt16) (f : HeaderFlag) : UInt16 := flags &&& ~~~ f.flag_mask
/-- header_flag.rs:54-56 -/
def is_flag_set (flags : UInt16) (f : HeaderFlag) : Bool := (flags &&& f.flag_mask) != 0
/-- header_flag.rs:58-70 -/
def setted_flags (flags : UInt16) : List HeaderFlag :=
  [.QueryRespone, .AuthAnswer, .Truncation, .RecursionDesired, .RecursionAvailable, .AuthenticData, .CheckDisable].filter
    (is_flag_set flags)

end HeaderFlag
end R53
