import Verif.Endp.Model
/-!
# Model of connecting sockets to incomplete endpoints

Sources: `adopt_endpoint_` in `src/io/stream_socket.cpp`, `src/io/datagram_socket.cpp`,
`src/io/seq_packet_socket.cpp` and `src/io/ssl.cpp`; `connect_op` and `ranged_connect_op` in
`src/io/socket.cpp`.

Simplification: only the protocol of an endpoint matters here.
-/
namespace Cobalt.Endp

/-- The classes of sockets. -/
inductive SockKind where
  | stream
  | ssl
  | datagram
  /-- `sctp`: whether the platform defines `IPPROTO_SCTP` -/
  | seqPacket (sctp : Bool)
deriving DecidableEq, Repr

/-- The two assignments of the `switch`: the protocol set for internet endpoints, if any, and
the type. -/
def fillType (t : Nat) (p : Proto) : Proto := if p.type = 0 then { p with type := t } else p

def fillProto (n : Nat) (p : Proto) : Proto :=
  if p.protocol = ipprotoIp then { p with protocol := n } else p

/-- `adopt_endpoint_` (stream_socket.cpp:34-48, ssl.cpp:38-52, datagram_socket.cpp:32-47,
seq_packet_socket.cpp:33-50). The cases fall through. -/
def SockKind.adopt (k : SockKind) (p : Proto) : Proto :=
  match k with
  | .stream | .ssl =>
    if p.family = afInet ∨ p.family = afInet6 then fillType sockStream (fillProto ipprotoTcp p)
    else if p.family = afUnix then fillType sockStream p else p
  | .datagram =>
    if p.family = afInet ∨ p.family = afInet6 then fillType sockDgram (fillProto ipprotoUdp p)
    else if p.family = afUnix then fillType sockDgram p else p
  | .seqPacket sctp =>
    if sctp ∧ (p.family = afInet ∨ p.family = afInet6) then
      fillType sockSeqpacket (fillProto ipprotoSctp p)
    else if p.family = afUnix then fillType sockSeqpacket p else p

/-- The endpoints tried by `connect(endpoint_sequence)` (socket.cpp:211-217). -/
def SockKind.adoptAll (k : SockKind) (ps : List Proto) : List Proto := ps.map k.adopt

end Cobalt.Endp
