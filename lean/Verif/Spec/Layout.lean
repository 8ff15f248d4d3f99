import Verif.Model.Rdata
/-!
# The layout of record data, from the documents

One table for writing and for reading: which fields the data of each type has, in which order and how wide. Written from the
RFCs, without looking at the attributes in rdatas.rs. What a field "is" (octets to write, or a statement about a place in a
message) is left to `Writing`.
-/
namespace R53

/-- the kinds of fields -/
structure Writing (W : Type) where
  /-- an address of so many octets -/
  addr : Nat → List UInt8 → W
  num8 : UInt8 → W
  /-- big-endian -/
  num16 : UInt16 → W
  num32 : UInt32 → W
  /-- the number of a type -/
  typ : RRType → W
  /-- a string behind an octet with its length -/
  str : List UInt8 → W
  /-- all octets up to the end -/
  rest : List UInt8 → W
  /-- a name that may be compressed -/
  name : Name → W
  /-- a name in a type that came after RFC 1035 -/
  newName : Name → W

/-- the fields of the data of a type; `none` if the values are not those of the type, or the type is not supported -/
def layout {W : Type} (w : Writing W) : RRType → List FieldVal → Option (List W)
  -- RFC 1035 3.4.1: the address
  | .A, [.ip o] => some [w.addr 4 o]
  -- RFC 3596 2.2
  | .AAAA, [.ip o] => some [w.addr 16 o]
  -- RFC 1035 3.3.11, 3.3.1, 3.3.12: one name
  | .NS, [.name n] => some [w.name n]
  | .CNAME, [.name n] => some [w.name n]
  | .PTR, [.name n] => some [w.name n]
  -- RFC 1035 3.3.13: MNAME RNAME SERIAL REFRESH RETRY EXPIRE MINIMUM
  | .SOA, [.name m, .name r, .u32 serial, .u32 refresh, .u32 retry, .u32 expire, .u32 minimum] =>
    some [w.name m, w.name r, w.num32 serial, w.num32 refresh, w.num32 retry, w.num32 expire, w.num32 minimum]
  -- RFC 1035 3.3.9: PREFERENCE EXCHANGE
  | .MX, [.u16 pref, .name n] => some [w.num16 pref, w.name n]
  -- RFC 1035 3.3.14: character-strings
  | .TXT, [.text ss] => some (ss.map w.str)
  -- RFC 1183 2.2: mbox-dname txt-dname
  | .RP, [.name m, .name t] => some [w.newName m, w.newName t]
  -- RFC 2782: Priority Weight Port Target
  | .SRV, [.u16 prio, .u16 weight, .u16 port, .name n] => some [w.num16 prio, w.num16 weight, w.num16 port, w.newName n]
  -- RFC 3403 4.1: ORDER PREFERENCE FLAGS SERVICES REGEXP REPLACEMENT
  | .NAPTR, [.u16 order, .u16 pref, .bytes flags, .bytes services, .bytes regexp, .name n] =>
    some [w.num16 order, w.num16 pref, w.str flags, w.str services, w.str regexp, w.newName n]
  -- RFC 6672 2.1: the target
  | .DNAME, [.name n] => some [w.newName n]
  -- RFC 6891 6.1.2: options, which the library leaves as they are
  | .OPT, [.bytes o] => some [w.rest o]
  -- RFC 4398 2: type, key tag, algorithm, certificate
  | .CERT, [.u16 t, .u16 tag, .u8 alg, .bytes cert] => some [w.num16 t, w.num16 tag, w.num8 alg, w.rest cert]
  -- RFC 4034 5.1: key tag, algorithm, digest type, digest
  | .DS, [.u16 tag, .u8 alg, .u8 dt, .bytes digest] => some [w.num16 tag, w.num8 alg, w.num8 dt, w.rest digest]
  -- RFC 4034 3.1: type covered, algorithm, labels, original TTL, expiration, inception, key tag, signer's name, signature
  | .RRSIG, [.rrtype t, .u8 alg, .u8 labels, .u32 ttl, .u32 expire, .u32 incept, .u16 tag, .name signer, .bytes sig] =>
    some [w.typ t, w.num8 alg, w.num8 labels, w.num32 ttl, w.num32 expire, w.num32 incept, w.num16 tag, w.newName signer, w.rest sig]
  -- RFC 4034 4.1: next domain name, type bit maps
  | .NSEC, [.name n, .bytes maps] => some [w.newName n, w.rest maps]
  -- RFC 4034 2.1: flags, protocol, algorithm, public key
  | .DNSKEY, [.u16 flags, .u8 proto, .u8 alg, .bytes key] => some [w.num16 flags, w.num8 proto, w.num8 alg, w.rest key]
  -- RFC 5155 3.2: hash algorithm, flags, iterations, salt length, salt, hash length, next hashed owner name, type bit maps
  | .NSEC3, [.u8 alg, .u8 flags, .u16 iter, .bytes salt, .bytes hash, .bytes maps] =>
    some [w.num8 alg, w.num8 flags, w.num16 iter, w.str salt, w.str hash, w.rest maps]
  -- RFC 5155 4.2: hash algorithm, flags, iterations, salt length, salt
  | .NSEC3PARAM, [.u8 alg, .u8 flags, .u16 iter, .bytes salt] => some [w.num8 alg, w.num8 flags, w.num16 iter, w.str salt]
  -- RFC 8659 4.1: flags, tag length, tag, value
  | .CAA, [.u8 flags, .bytes tag, .bytes value] => some [w.num8 flags, w.str tag, w.rest value]
  -- RFC 7553 4.5: priority, weight, target
  | .URI, [.u16 prio, .u16 weight, .bytes target] => some [w.num16 prio, w.num16 weight, w.rest target]
  | _, _ => none

end R53
