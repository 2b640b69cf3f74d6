/-!
# Model of moving sockets and files

Sources: `include/boost/cobalt/io/{socket,stream_socket,datagram_socket,seq_packet_socket,file,
stream_file,random_access_file,pipe,ssl}.hpp` and the `.cpp` files of the same names.

The classes `socket` and (with native files) `file` hold a reference to the asio object that is
a member of the class derived from them. Everything they declare themselves (`close`,
`is_open`, `size`, `cancel`, `connect`, options, …) uses the reference; what the derived class
declares (reads and writes, `seek`) uses the member.

Simplifications: an asio object is the descriptor it holds, if any. Memory is not reused: the
object made `i`-th is number `i`.
-/
namespace Cobalt.Obj

/-- The classes. -/
inductive Kind where
  /-- `stream_socket`, `datagram_socket`, `seq_packet_socket`: their move constructors bind the
  reference anew (stream_socket.cpp:23-26, datagram_socket.cpp:23-26,
  seq_packet_socket.cpp:23-26). -/
  | socket
  /-- Pipes, and files without native files: there is no reference, the base has the member
  (pipe.hpp:31-64, file.hpp:125-129). The model takes the reference to be to itself. -/
  | plain
  /-- `stream_file` and `random_access_file` with native files: the move constructor is
  defaulted (stream_file.cpp:40, random_access_file.cpp:39) and copies the reference of `file`
  (file.hpp:121-124). -/
  | file
  /-- `ssl::stream`: has no constructors, assignments or destructor that would suppress the
  implicit move constructor (ssl.hpp:44-139); `socket` declares none either. -/
  | ssl
deriving DecidableEq, Repr

/-- Whether a move constructor binds the reference to the new object. -/
def Kind.rebinds : Kind → Bool
  | .socket => true
  | .plain => true
  | .file => false
  | .ssl => false

/-- An object. -/
structure Obj where
  alive : Bool := true
  kind : Kind
  /-- the descriptor in the member -/
  desc : Option Nat
  /-- the object whose member the base refers to -/
  ref : Nat
deriving DecidableEq, Repr

/-- All objects ever made. -/
structure St where
  objs : List Obj := []
deriving DecidableEq, Repr

/-- What a use of an object touches. -/
inductive Out where
  /-- the member of an object that is gone -/
  | ub
  /-- an asio object with this descriptor, if it has one -/
  | on (d : Option Nat)
  /-- not a use -/
  | none_
deriving DecidableEq, Repr

inductive Ev where
  /-- a new object with this descriptor or none -/
  | make (k : Kind) (d : Option Nat)
  /-- a new object constructed from `std::move` of object `i` -/
  | move (i : Nat)
  | destroy (i : Nat)
  /-- a read, write or seek: through the member -/
  | transfer (i : Nat)
  /-- a query such as `is_open`, `size` or `local_endpoint`: through the reference -/
  | query (i : Nat)
  /-- `close()` -/
  | close (i : Nat)
  /-- `open(…)` or `assign(…)`, giving descriptor `d` -/
  | open_ (i : Nat) (d : Nat)
deriving DecidableEq, Repr

/-- Replace the descriptor held by object `i`. -/
def St.setDesc (s : St) (i : Nat) (d : Option Nat) : St :=
  { s with objs := s.objs.modify i (fun o => { o with desc := d }) }

/-- The asio object reached through the reference of `o`. -/
def St.target (s : St) (o : Obj) : Option Obj :=
  (s.objs[o.ref]?).filter (·.alive)

/-- One event. The owner uses live objects only: events on others do nothing. -/
def St.step (s : St) : Ev → St × Out
  | .make k d => ({ s with objs := s.objs ++ [⟨true, k, d, s.objs.length⟩] }, .none_)
  | .move i =>
    match s.objs[i]? with
    | some o =>
      if o.alive then
        ({ objs := (s.setDesc i none).objs ++
            [⟨true, o.kind, o.desc, if o.kind.rebinds then s.objs.length else o.ref⟩] }, .none_)
      else (s, .none_)
    | none => (s, .none_)
  | .destroy i =>
    ({ s with objs := s.objs.modify i (fun o => { o with alive := false, desc := none }) }, .none_)
  | .transfer i =>
    match s.objs[i]? with
    | some o => if o.alive then (s, .on o.desc) else (s, .none_)
    | none => (s, .none_)
  | .query i =>
    match s.objs[i]? with
    | some o =>
      if o.alive then
        match s.target o with
        | some t => (s, .on t.desc)
        | none => (s, .ub)
      else (s, .none_)
    | none => (s, .none_)
  | .close i =>
    match s.objs[i]? with
    | some o =>
      if o.alive then
        match s.target o with
        | some t => (s.setDesc o.ref none, .on t.desc)
        | none => (s, .ub)
      else (s, .none_)
    | none => (s, .none_)
  | .open_ i d =>
    match s.objs[i]? with
    | some o =>
      if o.alive then
        match s.target o with
        | some t => (s.setDesc o.ref (some d), .on t.desc)
        | none => (s, .ub)
      else (s, .none_)
    | none => (s, .none_)

def St.run (s : St) : List Ev → List (Ev × Out)
  | [] => []
  | e :: es => (e, (s.step e).2) :: (s.step e).1.run es

end Cobalt.Obj
