/-!
# Model of `io::ssl::stream`

Sources: `include/boost/cobalt/io/ssl.hpp`, `src/io/ssl.cpp`.

Simplifications: what OpenSSL and the peer do is left to the environment, which decides how a
handshake or a shutdown handed to `asio::ssl::stream` ends. A transfer is represented by its
bytes and by the layer it is handed to; partial transfers and errors of it are not modelled.
The two forms of `handshake` differ by a buffer for OpenSSL only and are one operation here.
-/
namespace Cobalt.Ssl

/-- The layer an operation is handed to. -/
inductive Layer where
  /-- `stream_socket_`, the `asio::ssl::stream`: bytes are encrypted -/
  | tls
  /-- `stream_socket_.next_layer()`, the socket: bytes go as they are -/
  | socket
deriving DecidableEq, Repr

/-- The operations holding a copy of `upgraded_`. -/
inductive Kind where
  | handshake
  | shutdown
deriving DecidableEq, Repr

/-- How an awaited operation ends. -/
inductive Ended where
  /-- `already_started`, without asking OpenSSL -/
  | alreadyStarted
  /-- `no_protocol_option`, without asking OpenSSL -/
  | noProtocolOption
  /-- as OpenSSL says -/
  | done (ok : Bool)
deriving DecidableEq, Repr

/-- What the owner of a stream can do with it. -/
inductive Ev where
  /-- `handshake(type)`, `handshake(type, buffer)` or `shutdown()`: makes the operation. -/
  | make (k : Kind)
  /-- `co_await` of the `i`-th operation made; `ok` is how OpenSSL would end it. -/
  | await (i : Nat) (ok : Bool)
  /-- `co_await s.write_some(buffer)` -/
  | write (bytes : List Nat)
  /-- `co_await s.read_some(buffer)` with a buffer of `n` bytes -/
  | read (n : Nat)
  /-- `s.secure()` -/
  | secure
deriving DecidableEq, Repr

/-- What can be seen of it. -/
inductive Obs where
  | made
  /-- there is no such operation -/
  | nothing
  | ended (k : Kind) (e : Ended)
  /-- a transfer was handed to the layer -/
  | transfer (l : Layer)
  | answer (b : Bool)
deriving DecidableEq, Repr

/-- `handshake_op_`, `handshake_buffer_op_`, `shutdown_op_` (ssl.hpp:82-122): `upgraded` is the
member copied by the constructor. -/
structure Op where
  kind : Kind
  upgraded : Bool
deriving DecidableEq, Repr

/-- The stream (ssl.hpp:44-139). -/
structure St where
  /-- `upgraded_` (ssl.hpp:138) -/
  upgraded : Bool := false
  /-- the operations made -/
  ops : List Op := []
deriving DecidableEq, Repr

/-- `handshake_op_::ready` (ssl.cpp:81-88), `handshake_buffer_op_::ready` (ssl.cpp:95-102),
`shutdown_op_::ready` (ssl.cpp:109-116): the error they give at once. -/
def Op.ready (o : Op) : Option Ended :=
  match o.kind with
  | .handshake => if o.upgraded then some .alreadyStarted else none
  | .shutdown => if !o.upgraded then some .noProtocolOption else none

/-- `co_await op`: `ready`, then `initiate` (ssl.cpp:90-93, 104-107, 118-121), which hands it to
`asio::ssl::stream`. None of them has the stream, only its socket: `upgraded_` stays. -/
def Op.run (o : Op) (ok : Bool) : Ended :=
  match o.ready with
  | some e => e
  | none => .done ok

/-- `initiate_read_some_`, `initiate_write_some_` (ssl.cpp:55-79) -/
def St.layer (s : St) : Layer :=
  if s.upgraded then .tls else .socket

/-- One call. -/
def St.step (s : St) : Ev → St × Obs
  -- ssl.hpp:124-129
  | .make k => ({ s with ops := s.ops ++ [⟨k, s.upgraded⟩] }, .made)
  | .await i ok =>
    match s.ops[i]? with
    | none => (s, .nothing)
    | some o => (s, .ended o.kind (o.run ok))
  | .write _ => (s, .transfer s.layer)
  | .read _ => (s, .transfer s.layer)
  -- ssl.hpp:62
  | .secure => (s, .answer s.upgraded)

/-- A history: every call with what came of it. -/
def St.trace (s : St) : List Ev → List (Ev × Obs)
  | [] => []
  | e :: es => (e, (s.step e).2) :: (s.step e).1.trace es

end Cobalt.Ssl
