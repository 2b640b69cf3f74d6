import Verif.Io.TransferModel
/-!
# Model of the sessions of the echo server

```
cobalt::promise<void> echo(cobalt::io::stream_socket socket)
{
  try
  {
    char data[4096];
    while (socket.is_open())
    {
      std::size_t n = co_await socket.read_some(boost::asio::buffer(data));
      co_await cobalt::io::write(socket, boost::asio::buffer(data, n));
    }
  }
  catch (std::exception& e) { std::printf("echo: exception: %s\n", e.what()); }
}
```

example/echo_server.cpp:21-38. `io::write` is the composed operation of src/io/write.cpp:14-31, whose loop is the subject
of C41; here it has one buffer. A session is cancelled by the `wait_group` (example/echo_server.cpp:56-68,
include/boost/cobalt/detail/wait_group.hpp) when the server stops.

Simplified: the socket is a stream in either direction. The kernel decides when a partial transfer is over and how much
it moved; the completion is then scheduled, and the executor runs it later. The socket stays open as long as the session
(echo_server.cpp:26). A byte is a number.
-/
namespace Cobalt.Echo

/-- Why a session is over. -/
inductive Why where
  | eof | failed | aborted
deriving DecidableEq, Repr

/-- Where a session is. -/
inductive Phase where
  /-- Suspended in `read_some` (echo_server.cpp:28). -/
  | reading
  /-- … which is over: its completion is scheduled. -/
  | read (bs : List Nat)
  | readErr (w : Why)
  /-- Suspended in `io::write`, with a `write_some` of what is left (echo_server.cpp:29, write.cpp:19). -/
  | writing (rest : List Nat)
  /-- … which is over, and left this: its completion is scheduled. -/
  | wrote (rest : List Nat)
  | writeErr
  /-- The coroutine has returned. -/
  | over (w : Why)
deriving DecidableEq, Repr

/-- A session and its client. -/
structure St where
  /-- All that the client has sent. -/
  sent : List Nat := []
  /-- What of it has not been read. -/
  inp : List Nat := []
  /-- The client has said that it sends nothing more. -/
  eof : Bool := false
  ph : Phase := .reading
  /-- What has been sent back. -/
  out : List Nat := []
  /-- The session was cancelled. -/
  cancelled : Bool := false
deriving DecidableEq, Repr

inductive Ev where
  /-- The client sends. -/
  | send (bs : List Nat)
  /-- The client sends nothing more. -/
  | close
  /-- The kernel completes the read with (at most) `n + 1` bytes, or with the end of the stream. -/
  | recv (n : Nat)
  /-- The kernel completes the write of (at most) `n + 1` bytes. -/
  | accept (n : Nat)
  /-- The kernel completes the transfer with an error. -/
  | fail
  /-- The executor runs the completion. -/
  | run
  /-- The session is cancelled. -/
  | cancel
deriving DecidableEq, Repr

/-- A read completes: with bytes if there are any, at most `cap` (echo_server.cpp:25). -/
def St.take (s : St) (cap n : Nat) : St :=
  match s.inp with
  | [] => if s.eof then { s with ph := .readErr .eof } else s
  | b :: bs => { s with ph := .read ((b :: bs).take (min (n + 1) cap)), inp := (b :: bs).drop (min (n + 1) cap) }

/-- `co_await` in the promise: throws if the coroutine was cancelled (concepts.hpp:40-58). -/
def St.await (s : St) (p : Phase) : St := { s with ph := if s.cancelled then .over .aborted else p }

/-- A completion runs. -/
def St.go (s : St) : St :=
  match s.ph with
  -- echo_server.cpp:28-29; write.cpp:17
  | .read bs => s.await (.writing bs)
  | .readErr w => { s with ph := .over w }
  -- write.cpp:17-30: the loop goes on, or the operation is over and the session reads again (echo_server.cpp:26-28)
  | .wrote [] => s.await .reading
  | .wrote (b :: bs) => { s with ph := .writing (b :: bs) }
  | .writeErr => { s with ph := .over .failed }
  | _ => s

/-- The cancellation signal of the session is emitted: it reaches the operation that the session awaits
(this_coro.hpp:96-150). The write of the composed operation is connected to the state of the composition
(composition.hpp:130-134), which is not connected to the session. -/
def St.hear (s : St) : St :=
  match s.ph with
  | .reading => { s with cancelled := true, ph := .readErr .aborted }
  | .writing _ =>
    if ((Io.compositionPromise (some 0)).emit 0).cancelled then { s with cancelled := true, ph := .writeErr }
    else { s with cancelled := true }
  | _ => { s with cancelled := true }

def St.step (cap : Nat) (s : St) : Ev → St
  | .send bs => if s.eof then s else { s with sent := s.sent ++ bs, inp := s.inp ++ bs }
  | .close => { s with eof := true }
  | .recv n => match s.ph with
    | .reading => s.take cap n
    | _ => s
  | .accept n => match s.ph with
    | .writing rest => { s with ph := .wrote (rest.drop (n + 1)), out := s.out ++ rest.take (n + 1) }
    | _ => s
  | .fail => match s.ph with
    | .reading => { s with ph := .readErr .failed }
    | .writing _ => { s with ph := .writeErr }
    | _ => s
  | .run => s.go
  | .cancel => s.hear

def St.steps (cap : Nat) (s : St) (es : List Ev) : St := es.foldl (St.step cap) s

/-- A session after the events `es`, with a buffer of `cap` bytes. -/
def exec (cap : Nat) (es : List Ev) : St := ({} : St).steps cap es

/-! ## The server -/

/-- The sessions of the server, and what happens to them: to one of them, or all are cancelled
(`wait_group::await_exit`, detail/wait_group.hpp). -/
inductive SEv where
  | one (i : Nat) (e : Ev)
  | stop
deriving DecidableEq, Repr

def stepAll (cap : Nat) (ss : List St) : SEv → List St
  | .one i e => ss.modify i (fun s => s.step cap e)
  | .stop => ss.map fun s => s.step cap .cancel

/-- `n` sessions after the events `es`. -/
def serve (cap n : Nat) (es : List SEv) : List St := es.foldl (stepAll cap) (List.replicate n {})

end Cobalt.Echo
