/-!
# Model of the functions of the io library that return a `system::result`

Sources: `src/io/socket.cpp:20-188`, `src/io/acceptor.cpp:17-28`, `src/io/serial_port.cpp:13-122`,
`src/io/signal_set.cpp:21-47`, `src/io/file.cpp:22-189`, `src/io/stream_file.cpp:43-48, 105-111`,
`src/io/pipe.cpp:26-57, 83-114, 128-138`, `src/io/ssl.cpp:124-137`, `io/ssl.hpp:64-71`.

Such a function makes one or more calls to Asio or the system. A call is made with an `error_code`,
without one (then it throws), or it is a system call that sets `errno`. The body of a function is the
list of its calls and what it returns; what the calls do is a parameter.

Simplifications: what is done to clean up after a failed call is left out (C67 has the descriptors),
values are numbers; a pair or an endpoint is one too. The constructors of the options of serial ports
throw `std::out_of_range` for values they do not know (Asio, `impl/serial_port_base.ipp`): 5 to 8 are
sizes of characters, 0 to 2 are the kinds of flow control and of parity.
-/
namespace Cobalt.Rep

inductive Opt where
  | debug | doNotRoute | enableConnectionAborted | keepAlive | receiveBufferSize | sendBufferSize
  | receiveLowWatermark | sendLowWatermark | reuseAddress | noDelay | linger
deriving DecidableEq, Repr

inductive SOpt where
  | baudRate | characterSize | flowControl | parity
deriving DecidableEq, Repr

/-- What Asio or the system is asked to do. -/
inductive Prim where
  | open | close | cancel | shutdown | localEndpoint | remoteEndpoint | assign | release
  | bytesReadable | socketpair | bind | listen | sendBreak | sigAdd | sigRemove | sigClear
  | size | resize | syncAll | syncData | seek | connectPipe | verifyDepth | verifyMode
  | verifyCallback
  | setOption (o : Opt) | getOption (o : Opt)
  | setSerial (o : SOpt) | getSerial (o : SOpt)
deriving DecidableEq, Repr

/-- How a failure of a call comes back. -/
inductive Style where
  /-- in an `error_code` which is returned -/
  | ec
  /-- as an exception: the call has no `error_code` -/
  | throws
  /-- as -1 and in `errno` which is returned -/
  | errno
  /-- not at all -/
  | ignored
deriving DecidableEq, Repr

inductive Ret where
  | void
  /-- the value of the last call -/
  | last
  /-- a result that is value-initialized -/
  | zero
deriving DecidableEq, Repr

structure Body where
  /-- values of the argument the constructor of the option takes -/
  accepts : Nat → Bool := fun _ => true
  calls : List (Prim × Style)
  ret : Ret

/-- The functions. Files are those with native files or those without (`BOOST_ASIO_HAS_FILE`). -/
inductive Fn where
  | sockOpen | sockClose | sockCancel | sockShutdown | sockLocal | sockRemote | sockAssign
  | sockRelease | sockReadable | sockSet (o : Opt) | sockGet (o : Opt) | connectPair
  | accBind | accListen
  | serClose | serCancel | serBreak | serAssign | serOpen | serSet (o : SOpt) | serGet (o : SOpt)
  | sigCancel | sigClear | sigAdd | sigRemove
  | fileAssign | fileCancel | fileOpen | fileRelease | fileSize | fileResize | fileSyncAll
  | fileSyncData | fileClose | fileSeek
  | pipeAssign | pipeCancel | pipeRelease | pipeClose | pipeMake
  | sslDepth | sslMode | sslCallback
deriving DecidableEq, Repr

/-- The body of nearly all functions: one call with an `error_code`. -/
def one (p : Prim) (r : Ret := .void) : Body := { calls := [(p, .ec)], ret := r }

/-- The constructors of the options of serial ports. -/
def serialAccepts : SOpt → Nat → Bool
  | .baudRate, _ => true
  | .characterSize, n => decide (5 ≤ n) && decide (n ≤ 8)
  | .flowControl, n => decide (n ≤ 2)
  | .parity, n => decide (n ≤ 2)

/-- The bodies; `native`: there are native files. -/
def body (native : Bool) : Fn → Body
  -- socket.cpp:20-92
  | .sockOpen => one .open
  | .sockClose => one .close
  | .sockCancel => one .cancel
  | .sockShutdown => one .shutdown
  | .sockLocal => one .localEndpoint .last
  | .sockRemote => one .remoteEndpoint .last
  | .sockAssign => one .assign
  | .sockRelease => one .release .last
  | .sockReadable => one .bytesReadable .last
  -- socket.cpp:94-155
  | .sockSet o => one (.setOption o)
  | .sockGet o => one (.getOption o) .last
  -- socket.cpp:158-188
  | .connectPair => { calls := [(.socketpair, .ec), (.assign, .ec), (.assign, .ec)], ret := .void }
  -- acceptor.cpp:17-28
  | .accBind => one .bind
  | .accListen => one .listen
  -- serial_port.cpp:13-122
  | .serClose => one .close
  | .serCancel => one .cancel
  | .serBreak => one .sendBreak
  | .serAssign => one .assign
  | .serOpen => one .open
  | .serSet o => { accepts := serialAccepts o, calls := [(.setSerial o, .ec)], ret := .void }
  | .serGet o => one (.getSerial o) .last
  -- signal_set.cpp:21-47
  | .sigCancel => one .cancel
  | .sigClear => one .sigClear
  | .sigAdd => one .sigAdd
  | .sigRemove => one .sigRemove
  -- file.cpp:22-27, 102-107
  | .fileAssign => one .assign
  -- file.cpp:28-33, 108-111: without native files nothing is called
  | .fileCancel => if native then one .cancel else { calls := [], ret := .void }
  -- file.cpp:40-52, 127-140
  | .fileOpen =>
    if native then one .open else { calls := [(.open, .errno), (.assign, .ec)], ret := .void }
  -- file.cpp:54-59, 142-147: `release()` without an error code gives -1
  | .fileRelease =>
    if native then one .release .last else { calls := [(.release, .ignored)], ret := .last }
  -- file.cpp:61-66, 149-156
  | .fileSize => if native then one .size .last else { calls := [(.size, .errno)], ret := .last }
  | .fileResize => if native then one .resize else { calls := [(.resize, .errno)], ret := .void }
  | .fileSyncAll => if native then one .syncAll else { calls := [(.syncAll, .errno)], ret := .void }
  | .fileSyncData => if native then one .syncData else { calls := [(.syncData, .errno)], ret := .void }
  | .fileClose => one .close
  -- stream_file.cpp:43-48: no error code is passed; 105-111: `return {}`
  | .fileSeek =>
    if native then { calls := [(.seek, .throws)], ret := .last }
    else { calls := [(.seek, .errno)], ret := .zero }
  -- pipe.cpp:26-57, 83-114
  | .pipeAssign => one .assign
  | .pipeCancel => one .cancel
  | .pipeRelease => one .release .last
  | .pipeClose => one .close
  -- pipe.cpp:128-138: no error code is passed
  | .pipeMake => { calls := [(.connectPipe, .throws)], ret := .last }
  -- ssl.cpp:124-137, ssl.hpp:64-71
  | .sslDepth => one .verifyDepth
  | .sslMode => one .verifyMode
  | .sslCallback => one .verifyCallback

/-- What a call does: a value or an error. -/
inductive PR where
  | ok (v : Int)
  | fail (e : Nat)
deriving DecidableEq, Repr

/-- What a function does. -/
inductive Res where
  | void
  | value (v : Int)
  | error (e : Nat)
  | threw
deriving DecidableEq, Repr

structure Out where
  /-- the calls it made -/
  calls : List Prim
  res : Res
deriving DecidableEq, Repr

/-- The calls one after the other; `k` is the number of the next one, `v` the last value. -/
def runCalls (ret : Ret) (u : Nat → PR) : List (Prim × Style) → Nat → Int → List Prim → Out
  | [], _, v, done =>
    ⟨done, match ret with
      | .void => .void
      | .last => .value v
      | .zero => .value 0⟩
  | (p, st) :: cs, k, _, done =>
    match u k with
    | .ok v => runCalls ret u cs (k + 1) v (done ++ [p])
    | .fail e =>
      match st with
      | .ec => ⟨done ++ [p], .error e⟩
      | .errno => ⟨done ++ [p], .error e⟩
      | .throws => ⟨done ++ [p], .threw⟩
      | .ignored => runCalls ret u cs (k + 1) (-1) (done ++ [p])

/-- The function is called with the argument `a`. -/
def call (native : Bool) (f : Fn) (a : Nat) (u : Nat → PR) : Out :=
  let b := body native f
  if b.accepts a then runCalls b.ret u b.calls 0 0 [] else ⟨[], .threw⟩

end Cobalt.Rep
