/-!
# Specification: assigned numbers (IANA DNS parameters) and the header flag word (RFC 1035 §4.1.1, RFC 2535 §6.1)
-/
namespace R53

/-- assigned RR type numbers and mnemonics, as far as the library knows them -/
def ianaTypes : List (Nat × String) :=
  [(1, "A"), (2, "NS"), (5, "CNAME"), (6, "SOA"), (12, "PTR"), (15, "MX"), (16, "TXT"), (17, "RP"), (28, "AAAA"), (33, "SRV"),
   (35, "NAPTR"), (37, "CERT"), (39, "DNAME"), (41, "OPT"), (43, "DS"), (46, "RRSIG"), (47, "NSEC"), (48, "DNSKEY"), (50, "NSEC3"),
   (51, "NSEC3PARAM"), (250, "TSIG"), (251, "IXFR"), (252, "AXFR"), (255, "ANY"), (256, "URI"), (257, "CAA")]

def ianaClasses : List (Nat × String) := [(1, "IN"), (3, "CH"), (4, "HS"), (254, "NONE"), (255, "ANY")]

def ianaOpcodes : List (Nat × String) := [(0, "QUERY"), (1, "IQUERY"), (2, "STATUS"), (4, "NOTIFY"), (5, "UPDATE")]

def ianaRcodes : List (Nat × String) :=
  [(0, "NOERROR"), (1, "FORMERR"), (2, "SERVFAIL"), (3, "NXDOMAIN"), (4, "NOTIMP"), (5, "REFUSED"), (6, "YXDOMAIN"), (7, "YXRRSET"),
   (8, "NXRRSET"), (9, "NOTAUTH"), (10, "NOTZONE")]

/-- the second word of a header: QR | opcode (4) | AA | TC | RD | RA | Z | AD | CD | rcode (4).
What re-encoding may do to it: unassigned opcodes become 6, unassigned rcodes 11, Z becomes 0; all else is kept. -/
def normFlags (w : Nat) : Nat :=
  let o := w / 2048 % 16
  let c := w % 16
  w / 32768 * 32768 + (if o ∈ [0, 1, 2, 4, 5] then o else 6) * 2048 + w / 256 % 8 * 256 + w / 128 % 2 * 128 + w / 16 % 4 * 16 +
    (if c ≤ 10 then c else 11)

end R53
