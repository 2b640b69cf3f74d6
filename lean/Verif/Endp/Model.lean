/-!
# Model of `io::endpoint`

Sources: `include/boost/cobalt/io/endpoint.hpp`, `src/io/endpoint.cpp`.

The storage is a map from offsets to bytes; a byte that was never written is `none`, and
using its value is undefined behaviour. The layout and the numbers are those of Linux
(`sockaddr_in`, `sockaddr_in6`, `sockaddr_un`); the byte order is a parameter (`big`).

Simplifications: parsing and printing of textual addresses (asio, `inet_ntop`) is left
out: the constructors from text are given the number or the bytes that asio gives.
Flow information and scope of IPv6 addresses are zero, as in the code.
-/
namespace Cobalt.Endp

abbrev Byte := Fin 256

/-- Storage contents. -/
abbrev Mem := Nat → Option Byte

/-- Write bytes at an offset. -/
def Mem.put (m : Mem) (off : Nat) (bs : List Byte) : Mem :=
  fun i => if off ≤ i ∧ i < off + bs.length then bs[i - off]? else m i

/-- Read bytes from an offset; `none` if one of them is indeterminate. -/
def Mem.get (m : Mem) (off : Nat) : Nat → Option (List Byte)
  | 0 => some []
  | n + 1 => match m off, Mem.get m (off + 1) n with
    | some b, some bs => some (b :: bs)
    | _, _ => none

def byte (n : Nat) : Byte := ⟨n % 256, Nat.mod_lt _ (by decide)⟩

/-- A 16 bit number in the byte order of the host. -/
def store16 (big : Bool) (n : Nat) : List Byte :=
  if big then [byte (n / 256), byte n] else [byte n, byte (n / 256)]

def load16 (big : Bool) : List Byte → Nat
  | [a, b] => if big then a.val * 256 + b.val else b.val * 256 + a.val
  | _ => 0

/-- A 32 bit number in the byte order of the host. -/
def store32 (big : Bool) (n : Nat) : List Byte :=
  let l := [byte (n / 16777216), byte (n / 65536), byte (n / 256), byte n]
  if big then l else l.reverse

def load32 (big : Bool) (l : List Byte) : Nat :=
  (if big then l else l.reverse).foldl (fun a b => a * 256 + b.val) 0

/-- `boost::endian::native_to_big` and `big_to_native` of 16 bit numbers. -/
def swap16 (big : Bool) (n : Nat) : Nat := if big then n else n % 256 * 256 + n / 256

/-- `host_to_network_long` and `network_to_host_long`. -/
def swap32 (big : Bool) (n : Nat) : Nat := load32 true (store32 big n)

/-- Address families of Linux. -/
def afUnspec : Nat := 0
def afUnix : Nat := 1
def afInet : Nat := 2
def afInet6 : Nat := 10

/-- `protocol_type` and `static_protocol` (endpoint.hpp:51-107). -/
structure Proto where
  family : Nat
  type : Nat
  protocol : Nat
deriving DecidableEq, Repr

/-- `endpoint` (endpoint.hpp:213-221): the union, `size_`, `type_`, `protocol_`. -/
structure Endpoint where
  mem : Mem
  size : Nat
  type : Nat
  protocol : Nat

/-- `sizeof(storage_)` -/
def capacity : Nat := 128

/-- The storage after `base_{}` (endpoint.hpp:175, 189): `sockaddr` has 16 bytes. -/
def blank : Mem := Mem.put (fun _ => none) 0 (List.replicate 16 0)

/-- `new (base) sockaddr_in{...}` (endpoint.cpp:69-72, 87-90, 196-199): 16 bytes. The port
has been converted with `native_to_big`, the address is given as `s_addr`. -/
def sockaddrIn (big : Bool) (port saddr : Nat) : List Byte :=
  store16 big afInet ++ store16 big (swap16 big port) ++ store32 big saddr ++ List.replicate 8 0

/-- `new (base) sockaddr_in6{...}` (endpoint.cpp:118-121, 137-140, 206-209): 28 bytes. -/
def sockaddrIn6 (big : Bool) (port : Nat) (addr : List Byte) : List Byte :=
  store16 big afInet6 ++ store16 big (swap16 big port) ++ List.replicate 4 0 ++ addr ++ List.replicate 4 0

/-- `new (base) sockaddr_un{...}` with the path (endpoint.cpp:37-43): 110 bytes. -/
def sockaddrUn (big : Bool) (path : List Byte) : List Byte :=
  store16 big afUnix ++ path ++ List.replicate (108 - path.length) 0

/-- What an endpoint can be made from. -/
inductive Src where
  /-- `ip_v4` and so on: number and port (endpoint.cpp:64-75) -/
  | v4 (addr port : Nat)
  /-- the same from text, the number as asio gives it (endpoint.cpp:77-93) -/
  | v4text (host port : Nat)
  /-- `ip_v6` and so on (endpoint.cpp:113-143); from text likewise -/
  | v6 (addr : List Byte) (port : Nat)
  /-- `ip` and so on: text that is an IPv4 address (endpoint.cpp:188-203) -/
  | ipv4 (host port : Nat)
  /-- text that is an IPv6 address (endpoint.cpp:204-213) -/
  | ipv6 (addr : List Byte) (port : Nat)
  /-- `local_stream` and so on (endpoint.cpp:33-45) -/
  | unix (path : List Byte)
deriving DecidableEq, Repr

/-- The family of the protocol an endpoint is made with. -/
def Src.family : Src → Nat
  | .v4 .. | .v4text .. => afInet
  | .v6 .. => afInet6
  | .ipv4 .. | .ipv6 .. => afUnspec
  | .unix .. => afUnix

/-- The bytes and the size returned by `tag_invoke(make_endpoint_tag)`; `none` is
`std::length_error`. The size of a local endpoint is `sizeof` of an expression of type
`std::size_t` (endpoint.cpp:44); the one of an IPv6 address given as text to `ip` is
`sizeof(sockaddr_in4_type)` (endpoint.cpp:212). -/
def Src.make (big : Bool) : Src → Option (List Byte × Nat)
  | .v4 addr port => some (sockaddrIn big port addr, 16)
  | .v4text host port => some (sockaddrIn big port (swap32 big host), 16)
  | .v6 addr port => some (sockaddrIn6 big port addr, 28)
  | .ipv4 host port => some (sockaddrIn big port (swap32 big host), 16)
  | .ipv6 addr port => some (sockaddrIn6 big port addr, 16)
  | .unix path => if path.length ≥ 108 then none else some (sockaddrUn big path, 8)

/-- The constructor from a protocol and arguments (endpoint.hpp:165-179). -/
def Endpoint.make (big : Bool) (type protocol : Nat) (src : Src) : Option Endpoint :=
  (src.make big).map fun (bs, size) => ⟨blank.put 0 bs, size, type, protocol⟩

/-- `protocol()` (endpoint.hpp:155-158). -/
def Endpoint.family (big : Bool) (ep : Endpoint) : Option Nat :=
  (ep.mem.get 0 2).map (load16 big)

/-- What `get_if` gives: nothing, or a view of the storage. Reading indeterminate bytes is
undefined behaviour. -/
inductive View where
  | nothing
  | v4
  | v6
  | ip
  | unix
  | ub
deriving DecidableEq, Repr

/-- `get_if` (endpoint.hpp:201-211) and `tag_invoke(get_endpoint_tag)` (endpoint.cpp:47-54,
95-102, 145-152, 216-223). -/
def Endpoint.getIf (big : Bool) (ep : Endpoint) (p : Proto) : View :=
  match ep.family big with
  | none => .ub
  | some f =>
    if p.type ≠ 0 ∧ ep.type ≠ 0 ∧ ep.type ≠ p.type then .nothing
    else if p.protocol ≠ 0 ∧ ep.protocol ≠ 0 ∧ ep.protocol ≠ p.protocol then .nothing
    else if p.family = afUnix then (if f = afUnix then .unix else .nothing)
    else if p.family = afInet then (if f = afInet then .v4 else .nothing)
    else if p.family = afInet6 then (if f = afInet6 then .v6 else .nothing)
    else if p.family = afUnspec then (if f = afInet ∨ f = afInet6 then .ip else .nothing)
    else .nothing

/-- `port()` of the views (endpoint.hpp:280, 310, 350); the offset is 2 in both cases. -/
def Endpoint.port (big : Bool) (ep : Endpoint) : Option Nat :=
  (ep.mem.get 2 2).map fun l => swap16 big (load16 big l)

/-- `ip_address_v4::addr` (endpoint.hpp:281). -/
def Endpoint.addr4 (big : Bool) (ep : Endpoint) : Option Nat := (ep.mem.get 4 4).map (load32 big)

/-- `ip_address_v6::addr` (endpoint.hpp:311-317). -/
def Endpoint.addr6 (ep : Endpoint) : Option (List Byte) := ep.mem.get 8 16

/-- `ip_address::addr` (endpoint.cpp:155-171). -/
def Endpoint.addrIp (big : Bool) (ep : Endpoint) : Option (List Byte) :=
  match ep.family big with
  | none => none
  | some f =>
    if f = afInet then (ep.mem.get 4 4).map fun l => List.replicate 12 0 ++ l
    else ep.mem.get 8 16

/-- A C string of at most `n` characters. -/
def Mem.cstr (m : Mem) (off : Nat) : Nat → Option (List Byte)
  | 0 => none
  | n + 1 => match m off with
    | none => none
    | some b => if b = 0 then some [] else (Mem.cstr m (off + 1) n).map (b :: ·)

/-- `local_endpoint::path` (endpoint.hpp:260): `sun_path` has 108 characters. -/
def Endpoint.path (ep : Endpoint) : Option (List Byte) := ep.mem.cstr 2 108

/-- The copy constructor (endpoint.hpp:161-163), used for `const` endpoints. -/
def Endpoint.copyConst (ep : Endpoint) : Endpoint := ep

/-- The constructor template from another endpoint type (endpoint.hpp:181-195). Overload
resolution prefers it to the copy constructor when the argument is an `endpoint` that is
not `const`, and for `std::move` of one. `none` is a failed assertion. -/
def Endpoint.copyOther (ep : Endpoint) : Option Endpoint :=
  if ep.size < capacity then
    some ⟨fun i => if i < ep.size then ep.mem i else blank i, ep.size, ep.type, ep.protocol⟩
  else none

/-- The predefined protocols (endpoint.hpp:110-129). -/
inductive Const where
  | ip | ip_v4 | ip_v6
  | tcp | tcp_v4 | tcp_v6
  | udp | udp_v4 | udp_v6
  | icmp
  | local_stream | local_datagram | local_seqpacket | local_protocol
  | sctp | sctp_v4 | sctp_v6
deriving DecidableEq, Repr

/-- Socket types and protocol numbers of Linux. -/
def sockStream : Nat := 1
def sockDgram : Nat := 2
def sockSeqpacket : Nat := 5
def ipprotoIp : Nat := 0
def ipprotoIcmp : Nat := 1
def ipprotoTcp : Nat := 6
def ipprotoUdp : Nat := 17
def ipprotoSctp : Nat := 132

/-- Their values (endpoint.hpp:110-129). -/
def Const.proto : Const → Proto
  | .ip => ⟨afUnspec, 0, ipprotoIp⟩
  | .ip_v4 => ⟨afInet, 0, ipprotoIp⟩
  | .ip_v6 => ⟨afInet6, 0, ipprotoIp⟩
  | .tcp => ⟨afUnspec, sockStream, ipprotoTcp⟩
  | .tcp_v4 => ⟨afInet, sockStream, ipprotoTcp⟩
  | .tcp_v6 => ⟨afInet6, sockStream, ipprotoTcp⟩
  | .udp => ⟨afUnspec, sockDgram, ipprotoUdp⟩
  | .udp_v4 => ⟨afInet, sockDgram, ipprotoUdp⟩
  | .udp_v6 => ⟨afInet6, sockDgram, ipprotoIcmp⟩
  | .icmp => ⟨afUnspec, sockDgram, ipprotoIcmp⟩
  | .local_stream => ⟨afUnix, sockStream, 0⟩
  | .local_datagram => ⟨afUnix, sockDgram, 0⟩
  | .local_seqpacket => ⟨afUnix, sockSeqpacket, 0⟩
  | .local_protocol => ⟨afUnix, 0, 0⟩
  | .sctp => ⟨afUnspec, sockSeqpacket, ipprotoSctp⟩
  | .sctp_v4 => ⟨afInet, sockSeqpacket, ipprotoSctp⟩
  | .sctp_v6 => ⟨afInet6, sockSeqpacket, ipprotoSctp⟩

end Cobalt.Endp
