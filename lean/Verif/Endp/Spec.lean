import Verif.Endp.Model
/-!
# What endpoints should do

Stated with plain numbers and byte lists, without the storage of the model.
-/
namespace Cobalt.Endp

/-- Arguments the constructors accept: numbers in range, 16 bytes of IPv6 address, a path
that fits. -/
def Src.Ok : Src → Prop
  | .v4 a p | .v4text a p | .ipv4 a p => a < 2 ^ 32 ∧ p < 2 ^ 16
  | .v6 a p | .ipv6 a p => a.length = 16 ∧ p < 2 ^ 16
  | .unix path => path.length < 108

/-- The address family an endpoint has. -/
def Src.actual : Src → Nat
  | .v4 .. | .v4text .. | .ipv4 .. => 2
  | .v6 .. | .ipv6 .. => 10
  | .unix .. => 1

/-- A path without the character NUL. Addresses of the other families are always plain. -/
def Src.Plain : Src → Prop
  | .unix path => 0 ∉ path
  | _ => True

instance : DecidablePred Src.Ok
  | .v4 .. | .v4text .. | .ipv4 .. => inferInstanceAs (Decidable (_ ∧ _))
  | .v6 .. | .ipv6 .. => inferInstanceAs (Decidable (_ ∧ _))
  | .unix _ => inferInstanceAs (Decidable (_ < _))

instance : DecidablePred Src.Plain
  | .unix path => inferInstanceAs (Decidable (¬ 0 ∈ path))
  | .v4 .. | .v4text .. | .ipv4 .. | .v6 .. | .ipv6 .. => inferInstanceAs (Decidable True)

/-- The four bytes of a number, most significant first, as they travel in a packet. -/
def network (n : Nat) : List Byte := [byte (n / 16777216), byte (n / 65536), byte (n / 256), byte n]

/-- The endpoint reads back what it was made from. `ip_address_v4::addr` gives the number as
it was stored: the one given, or for textual addresses the one whose bytes in memory are the
address in network order. `ip_address::addr` gives the bytes in memory. -/
def ReadsBack (big : Bool) (ep : Endpoint) : Src → Prop
  | .v4 a p => ep.addr4 big = some a ∧ ep.port big = some p
  | .v4text a p | .ipv4 a p =>
    ep.addrIp big = some (List.replicate 12 0 ++ network a) ∧ ep.port big = some p
  | .v6 a p | .ipv6 a p =>
    ep.addr6 = some a ∧ ep.addrIp big = some a ∧ ep.port big = some p
  | .unix path => ep.path = some path

/-- The port of an internet address. -/
def Src.port : Src → Option Nat
  | .v4 _ p | .v4text _ p | .ipv4 _ p | .v6 _ p | .ipv6 _ p => some p
  | .unix _ => none

/-- What asking an endpoint of family `f` for family `want` should give. -/
def expectView (f want : Nat) : View :=
  if want = 0 then (if f = 2 ∨ f = 10 then .ip else .nothing)
  else if want ≠ f then .nothing
  else if f = 1 then .unix else if f = 2 then .v4 else if f = 10 then .v6 else .nothing

/-- Number of bytes of the stored address: up to the end of `sin_zero`, of
`sin6_scope_id`, or the NUL after the path. -/
def Src.need : Src → Nat
  | .v4 .. | .v4text .. | .ipv4 .. => 16
  | .v6 .. | .ipv6 .. => 28
  | .unix path => 2 + path.length + 1

/-- What the names of the protocols say: family, socket type, protocol number. Names without
`_v4` or `_v6` leave the family open, `ip` the type and protocol, `local_` ones have no
protocol number. The numbers are from the Linux headers and the IANA registry. -/
def Const.means : Const → Nat × Nat × Nat
  | .ip => (0, 0, 0) | .ip_v4 => (2, 0, 0) | .ip_v6 => (10, 0, 0)
  | .tcp => (0, 1, 6) | .tcp_v4 => (2, 1, 6) | .tcp_v6 => (10, 1, 6)
  | .udp => (0, 2, 17) | .udp_v4 => (2, 2, 17) | .udp_v6 => (10, 2, 17)
  | .icmp => (0, 2, 1)
  | .local_stream => (1, 1, 0) | .local_datagram => (1, 2, 0)
  | .local_seqpacket => (1, 5, 0) | .local_protocol => (1, 0, 0)
  | .sctp => (0, 5, 132) | .sctp_v4 => (2, 5, 132) | .sctp_v6 => (10, 5, 132)

end Cobalt.Endp
