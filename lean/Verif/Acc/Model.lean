/-!
# Model of acceptors

Sources: `src/io/acceptor.cpp`, `include/boost/cobalt/io/acceptor.hpp`.

Simplifications: the system is asked for each step and may refuse it (`ok`). asio's acceptor is
modelled after its documentation: `open`, `bind` and `listen` of a closed one fail with
`bad_descriptor`, `bind` of a bound one with `invalid_argument`, and the constructor from
an endpoint opens, binds and listens, or throws. A connection that is accepted is one of the
protocol of the acceptor. `listen` of a socket that is not bound binds it, as on Linux.
-/
namespace Cobalt.Acc

/-- Socket types, of protocols and of the classes of sockets. -/
inductive Ty where
  | stream
  | seqPacket
deriving DecidableEq, Repr

/-- An acceptor of asio. -/
inductive Sock where
  | closed
  | opened (ty : Ty) (bound listening : Bool)
deriving DecidableEq, Repr

inductive Err where
  | badDescriptor
  | invalidArgument
  /-- what the system says -/
  | refused
deriving DecidableEq, Repr

/-- `basic_socket_acceptor::open` -/
def Sock.open_ (s : Sock) (ty : Ty) (ok : Bool) : Sock × Option Err :=
  match s with
  | .opened .. => (s, some .invalidArgument)
  | .closed => if ok then (.opened ty false false, none) else (s, some .refused)

/-- `basic_socket_acceptor::bind` -/
def Sock.bind (s : Sock) (ok : Bool) : Sock × Option Err :=
  match s with
  | .closed => (s, some .badDescriptor)
  | .opened _ true _ => (s, some .invalidArgument)
  | .opened ty false l => if ok then (.opened ty true l, none) else (s, some .refused)

/-- `basic_socket_acceptor::listen` -/
def Sock.listen (s : Sock) (ok : Bool) : Sock × Option Err :=
  match s with
  | .closed => (s, some .badDescriptor)
  | .opened ty _ _ => if ok then (.opened ty true true, none) else (s, some .refused)

/-- `basic_socket_acceptor(executor, endpoint)`; `none` if it throws -/
def Sock.ofEndpoint (ty : Ty) (ok : Bool) : Option Sock :=
  let r := Sock.closed.open_ ty ok
  let r' := r.1.bind ok
  let r'' := r'.1.listen ok
  if r.2.isNone && r'.2.isNone && r''.2.isNone then some r''.1 else none

/-- What is done with a `cobalt::io::acceptor`. -/
inductive Ev where
  | bind (ok : Bool)
  | listen (ok : Bool)
  /-- `accept(proto)` with a static protocol of this type, and a connection or not -/
  | accept (ty : Ty) (ok : Bool)
deriving DecidableEq, Repr

inductive Out where
  | ok
  | error (e : Err)
  /-- a socket object of a class, with a descriptor of a type -/
  | sock (cls desc : Ty)
deriving DecidableEq, Repr

def Out.ofErr : Option Err → Out
  | none => .ok
  | some e => .error e

/-- acceptor.cpp:17-28, 36-54 -/
def step (s : Sock) : Ev → Sock × Out
  | .bind ok => ((s.bind ok).1, .ofErr (s.bind ok).2)
  | .listen ok => ((s.listen ok).1, .ofErr (s.listen ok).2)
  -- the overload is chosen by the type of the protocol, whose value is not used
  -- (acceptor.hpp:88-99)
  | .accept ty ok =>
    match s with
    | .closed => (s, .error .badDescriptor)
    | .opened _ _ false => (s, .error .invalidArgument)
    | .opened d _ true => (s, if ok then .sock ty d else .error .refused)

/-- The constructors (acceptor.cpp:14-15). -/
inductive Ctor where
  | default
  | endpoint (ty : Ty) (ok : Bool)
deriving DecidableEq, Repr

def Ctor.make : Ctor → Option Sock
  | .default => some .closed
  | .endpoint ty ok => Sock.ofEndpoint ty ok

def run (s : Sock) : List Ev → Sock × List Out
  | [] => (s, [])
  | e :: es =>
    let r := step s e
    let r' := run r.1 es
    (r'.1, r.2 :: r'.2)

end Cobalt.Acc
