# Formal model of boost.cobalt: design

## Trusted base

* Lean 4.33.0's kernel. No axioms are added. Each property theorem may depend
  only on `propext`, `Classical.choice`, `Quot.sound` (checked with
  `#print axioms`; see the section "Axioms" at the end).
* The reading of the C++ source. The code is never built or run here. Every
  definition of the model cites file and lines in /repo.
* Assumed behaviour of things outside the repository:
  * C++ coroutines: `co_await` calls `await_ready`, then, if false,
    `await_suspend`, and `await_resume` is the first thing run when the
    coroutine is resumed. Symmetric transfer resumes the returned handle.
  * `asio::post`/`defer` run each function object exactly once, later, on the
    single thread of the executor. Models that need more (FIFO) say so; most
    theorems allow the executor to pick any posted item.
  * `boost::circular_buffer::push_back` on a full buffer overwrites the oldest
    element (and does nothing for capacity 0).
  * `boost::intrusive` auto-unlink hooks: `unlink` of an unlinked hook is a no-op.
  * `asio::cancellation_signal::emit` calls the installed handler, if any.
  * malloc-like upstream resources return fresh blocks.
  * asio's signal sets count signals that come while nobody waits, give a signal to
    every wait in the queue, and look at the registrations by number (used where
    signal sets are modelled).
  * asio's resolver has one thread, which takes requests in order and looks at
    the cancellation token when it begins one; requests cannot be cancelled
    one by one (used where the resolver is modelled).
  * A read or write of a file or stream that succeeds moves at least one byte
    of a non-empty buffer; a read of a file that moves none is the end of file.
  * The buffer classes of asio are a pointer and a size, so the union in
    `io/buffer.hpp` has the layout C126 takes for granted.
  * Destroying a frame that holds the last reference to the coroutine which
    owns the memory of that frame is taken as defined (C131).
* Undefined behaviour and failed assertions are a distinct outcome in every
  model (`Option`/`ub` flag); never assumed away.

## What is modelled, property by property

| property | model | shape of proof |
|---|---|---|
| C01-C10 channel<T> | state machine: buffer, the two wait queues, posted resumptions, per-operation records (direct value, cancelled, closed, linked, awaiting, slot installed), one step per API event (create, await, run a posted resumption, cancel, interrupt, destroy, close) | invariants by induction over event lists; negative witnesses by evaluation |
| C11-C12 channel<void> | same with counter instead of buffer | same |
| C13-C21 fork, gather, join, race | state machine over children: not started / started / done, use count, recorded outcomes, who was interrupted/cancelled; completion events arrive in any order, also re-entrantly while being started or interrupted | invariant by induction over events, refinement to "list of outcomes" |
| C22-C23 wait_group | list of promise states on top of the race/gather results | invariants, algebraic laws |
| C24 with | the coroutine `with_impl` as a function of the outcomes of its awaits, producing the trace of effects | decision logic |
| C25-C28 promise | receiver/promise cells with the back reference as an address, so that a dangling reference is visible | invariant by induction over histories |
| C29 task | same, lazy | invariant, witness |
| C30-C32, C60 generator | receiver with two result slots, pushed value, body as a script of yields/awaits/return/throw | refinement: delivered ++ pending = yielded prefix |
| C33-C34 op/handler | `completed_immediately` automaton with initiation scripts as trees | induction over scripts |
| C35-C36 sbo_resource | byte offsets, `avail`, `fragmented`; BitVec 64 for C36 | invariant by induction |
| C37 monotonic_resource | offsets within chunks | invariant; witness for misalignment and header overlap |
| C38 frame allocation | layout arithmetic | algebraic law |
| C39-C42 io buffers, read/write, files | buffers as lists of bytes; iterator offset as 64 bit; step outcomes as an oracle list | algebraic law, induction |
| C43-C45, C61 endpoint | byte lists for the sockaddr union, both byte orders | round trip, decision table |
| C46-C47, C62 thread | two-thread interleaving of lock-protected steps | invariant over interleavings |
| C48-C50 spawn, run, main | small state machines | invariant, decision logic |
| C51 result | decision logic on argument tuples | algebraic law |
| C52 argument search | list search | algebraic law |
| C53 cancellation state | filter/reset automaton | refinement to "cancellation since reset" |
| C54 async_for | loop over the channel model | witness, partial |
| C55 unique_handle | ownership multiset | invariant |
| C56 cancelling composed read/write | which signal the coroutine's cancellation state listens to | witness for all histories, partial |
| C57 channel<void>, many users | as C11 | witnesses, partial; if operations take turns (`VChan/TurnSpec`) at most one is woken at a time, and there is a token or a place for it |
| C58 frames of children | trace of accesses through coroutine handles while starting | equivalence: clean just if ... |
| C59 combinator used after resuming | `ub` of the model of C13 | invariant, witnesses |
| C63 ssl stream | flag and copies of it in operations; which layer a transfer goes to | monitor over histories, equivalence: right just if ... |
| C64 sleep | 64 bit arithmetic with overflow as undefined behaviour | equivalence: right just if ... |
| C65 timers | clock, expiry, pending waits, log | invariant by induction |
| C66 moved io objects | objects with descriptors and the reference an accessor goes through | simulation by a specification in which every object owns its descriptor |
| C67 descriptors | open descriptors, objects, failures of the system and the reactor | invariant: open = held + leaked; equivalence |
| C68 connecting to endpoints | protocol triples, the code of `adopt_endpoint_` per class | case analysis |
| C69 stackful coroutines | fiber with frame, awaiters by what they do | equivalence with a machine for standard coroutines: same traces just if ... |
| C70 errors | enumeration, codes, category | case analysis; exact |
| C71 compositions | frame in the buffer of the awaitable in the awaiting frame; trace of uses of memory | all reachable states enumerated by an inductive predicate |
| C72 cancellation through awaits | coroutines with slots and filters, awaits as references to frames; emission follows the slots | invariant over every history; chains as inductive predicates over what coroutines wait for |
| C73 spawning onto another thread | accesses of two threads to a memory resource, with the synchronization of posting | happens-before as an inductive relation; exact condition |
| C74 acceptors | the calls on an acceptor over a descriptor that is open, bound or listening | invariant over every sequence of calls, witnesses |
| C75 ends of coroutines | one coroutine of each kind, with owner and awaiter | invariant over every history, exact condition |
| C76 destroying channels | the loop of the destructor, started in any reachable state of the model of C01 | exact condition by induction over the queue |
| C77 forms of awaiting combinators | what `await_resume` of join and race returns for each form, with the exception being handled as parameter | exact condition by cases |
| C78 children of combinators destroyed | counter, signals, `working` and results of a combinator whose children complete or are destroyed | invariant by induction over histories; the state of a child is read off the history |
| C79 results of io functions | the calls each function makes, how failures come back, what is returned | exact condition, function by function, for every outcome of the calls |
| C80 uses of `with` | overload selection, and what the body of the overload needs, for kinds of parameters and arguments | exact condition by cases |
| C81 life of `with` | its frame, its awaiter, and the operation it waits for | exact outcomes for each way it can go, over histories |
| C82 cancelling a thread | the shared state, its owners, and the queue of the context that is part of it | order, and freed iff every posted handler was run, over histories |
| C83 moving a generator | many generator objects, frames and awaitables pointing to each other, each object the model of one generator | simulation: every object equals the run of the single-generator model on its history without the moves |
| C84 loop over a generator | the loop as a state machine around the model of a generator | invariant on top of that of the generator; exact: which histories are wrong |
| C85 loop over a promise | the loop as a state machine around the model of promises | invariant on top of that of promises; lemma that events apart leave a promise still |
| C86 including headers | the headers as a graph with guards; reading a file as a recursive function with a limit of depth | invariant of files being read, for any acyclic graph; applied to the graph of the library |
| C87 whole transfers | classes by what their member functions return, requirements, bodies | case analysis |
| C88 nested combinators | trees whose nodes are the model of C13 with their history; how an upper and a lower node call each other | link invariant between a node and the ones it awaits; induction over the tree |
| C89 races of races | the same trees; transactions that did not throw | from the winner of each race; a run that takes two values |
| C90 race of channel operations | a race over any number of channels in states of the model of C01; every branch is a read or a write | invariant that relates the winner to the state of each operation; runs that take two values |
| C91 order of service | the models of C01 and C11 | order of the queue and of arrival kept by every step |
| C92 racing generators in a loop | product of the race model and n generator models, round after round | every hand-over to a race but the first is the answer to an interruption; stream equality by induction |
| C93 racing promises twice | the same product with promise models | negation by a witness; at most one value per promise, kept until given |
| C94 `with` over a `wait_group` | the model of `wait_group` in the phases of `with`, and the coroutines that run | who leaves the group has ended or was added late; then by induction over events |
| C95 chains of channels | coroutines that read one channel and write the next, on the model of channels | an invariant for each channel about the operations of its two coroutines; what was delivered is an initial part of what was written |
| C96 the order of a race | the shuffle of the table, and the model of `race` with the resulting order | the shuffle is undone place by place; awaitables leave the list of those to be tried from the front |
| C97 no lost wake-up | the channel model of C05 | as long as a read is linked, every buffered value has a woken read that will take it; as long as a write is linked, every free place has a woken write that will fill it; exact: what the posted operations are going to do decides in advance who is left asleep |
| C98 no lost wake-up on `channel<void>` | the model of C57 | as C97, with the counter in place of the buffer; every step changes the counter by at most one; exact: what the posted operations are going to do decides in advance who is left asleep, and running one of them leaves that unchanged |
| C99 semaphore | the model of C57 with coroutines that use it (`Lock`) | the counter is the number of coroutines inside; counter plus woken writes stay within the limit; the invariant of C98 for the second half |
| C100 read with a timeout in a loop | the model of C13 for the race, the operations of asio with the queue of handlers (`Tmo`) | the states of the race between two events; what has arrived is what was given, held, waits or was dropped |
| C101 generator raced against a channel in a loop | the models of C13 (race), C30 (generator) and C05 (channel) put together (`Disp`) | the states of the race between two events; what was read is what was given and what was stolen |
| C102 worker pool around a channel | the coroutines that use the channel of C05 (`Pool`): who runs, who is suspended on what | no undefined behaviour and no `Lost` value; the numbers of workers and producers are counted from the events |
| C103 awaitable spsc queue | the two threads of example/spsc.cpp, one turn per access to something shared (`Lfq`) | what was read and what is in the queue is what was written, in order (`Fine`); not both stand still (`Dead`); the moments that decide are read off the schedule (`Stale`, `Missed`) |
| C104 awaitable signal | coroutines, the awaitable at its place in the frame, slots that hold the address of it, a stack of emissions (`Sig`) | the slot that is connected and the one whose handler runs point to a live awaitable (`Inv`); who waited when an emission began is still on its list or was resumed (`Lg`) |
| C105 early completion | sources, operations with a `result`, forms of awaiting (`Early`) | closed forms of what a row of `ready` calls deals out (`deal`); who has returned is before who waits (`Ord`) |
| C106 limited server | the two loops on top of the model of `wait_group` (`Limit`) | the members are the sessions that run and the ones whose end was not noticed; what has left the group has ended (`K`) |
| C107 bridge to Python | the object of Python, its coroutine, futures, the queue of the loop and a task of Python (`Py`) | where the handle is (`Ph`) and who waits for which future (`Fu`) are invariants against a history made of the events alone |
| C108 layout of stackful coroutines | addresses that wrap around; the steps of `make_context`, each of which may fail (`Ctx/Layout`) | arithmetic; cases |
| C109 chains of generators | a product of the models of generators and loops (`Gen/Chain*`) | invariant of each loop (C84) and of each body between two; a measure that each step raises |
| C110 networks of coroutines | any programs over the model of channels, one reader and one writer each (`Net/*`) | invariant per channel that ties the log of the channel to the histories of its two coroutines; first difference of two histories; a measure for the end |
| C111 networks without cycles | the model of C110 (`Net/Tree*`) | why a coroutine waits at rest (C110); following who waits for whom never turns back and so leaves the forest |
| C112 fork and join with promises | coroutines with trees of promises over the model of promise (`Fork/*`) | invariant: phase of every promise, what its holder has seen of it; sequential semantics as an inductive relation; termination by the sizes of the sequential histories |
| C113 trees of coroutines, cancelled or abandoned | coroutines with trees of promises over the model of promise, cancellation state and forwarding (`Tree/*`) | invariant: stage of every promise, closure of cancellation under waiting, cause of every cancellation; lexicographic measure (waiting coroutines, steps to do) for the end |
| C114 what is written to a channel | the variables write operations point to, over any number of channels of the channel model (`Own/*`) | the values taken are determined by the channel states; invariant: what is pending has its own variable, with its value still in it |
| C115 depth of the stack | activations on the stack of the thread, with usual and stackful coroutines (`Stk/*`) | invariant: the activations that are not left are those of the busy coroutines, each once; counting of hand-overs; closed formulas for a lazy generator and a row of tasks |
| C116 hub of sessions | hub and sessions of `example/ticker.cpp` over the channels of the networks of C110 (`Hub/*`) | simulation by networks whose coroutines do what has been done; invariant on what the hub has written; measure of what is left to do |
| C117 calls by threads | coroutines, workers and unbuffered channels of `example/thread.cpp`, `join` as far as it cancels (`Rpc/*`) | invariant on who has whose request; measure; a schedule that leads to the failure is constructed by induction over the measure |
| C118 operations awaited again | the operation as an object with buffer and offset, single transfers as an oracle list (`Io/Reuse*`) | induction over the transfers on top of C39 and C41 |
| C119 the example of the channel | producer and consumer of `example/channel.cpp` on the channel model, executor in order (`Loop/*`) | the states at the start of each round, induction over the rounds |
| C120 cancellation sources taken by coroutines | signals, the handlers in them and the pointers of the coroutines to these (`Src/*`) | invariant that relates the pointers to a history; exact condition for the use of freed handlers |
| C121 coroutines on strands run by several threads | threads, strands and the steps of `await_suspend`, interleaved (`Strand/*`) | invariant over all interleavings, schedule for the race, exact length of every complete run |
| C122 name resolution | operations, texts, resolvers and the thread that serves the queries (`Resv/*`) | invariant that relates the state to the history; uniqueness of the history of an answer; exact length of the rest of a run |
| C123 nested `with`s and cancellation | programs of operations and `with`s, run on a list of what happens to the operations (`Nest/*`) | induction over programs; grammar of balanced traces; construction of the inputs that lose an argument |
| C124 a pool of objects in a channel | coroutines over the channel model, objects carried by writes (`Objs/*`) | explicit transition system, ghost list of who has what as a permutation of the objects, count of woken reads |
| C125 whole reads and writes of files | the loops of read.cpp/write.cpp over the file model, memory as part of the state, splits by the environment (`File/Whole*`) | closed form of each loop by induction over the transfers, composition of `patch` and `store` |
| C126 buffer sequences as values | objects with the union `registered_`/`head_` and the span `tail_`, arrays that are destroyed or changed, builds with and without io_uring (`BufVal/*`) | simulation by lists of byte addresses |
| C127 several semaphores | a product of the semaphores of C99 with the programs of the coroutines (`Dead/*`) | what each coroutine holds, the chain of those that wait for each other goes up, a measure of commands and posted resumptions |
| C128 no starvation | the semaphores of C99 (`Lock/Turn*`) | a measure of twice the place in line, those woken and those too many, which no event makes larger and a place given back makes smaller |
| C129 echo server | a session, its client and the kernel, on the cancellation state of compositions (C56); the server as a list of sessions (`Echo/*`) | invariant that what was sent back, held and not yet read is what was sent; a measure for progress |
| C130 semaphore with a timeout | the semaphores of C99 with interrupted writes (`Lock/Retry*`) | the invariant of C99, what giving up does in line and after the wake-up; those inside and woken do not change by what is scheduled |
| C131 shared wait_group | promises with one awaiter, waits that gather, race and clear (`Shared/*`) | an invariant that accounts for every wait (waiting, ended or destroyed); every event keeps all well or is one of three that go wrong, and what has gone wrong stays so |
| C132 signal sets | registrations with counts, queue of waits, races that drop waits (`SigSet/*`) | balance of signals that came against those told and kept, changed by exactly the events of `Trouble`; for the order, what came is what was told, then what is on its way, then what is kept |
| C133 channels and meetings | the model of C110; readers and writers that meet, without channels (`Net/Meet*`), a barrier (`Net/Bar*`) | both never do different things (as C110); at rest the first that has got less far than in the meetings could go on; with limit 0 whatever ends in a step can be got by at most two meetings more |
| C134 channels and buffers | the model of C110; plain buffers without queues, resumptions or an executor (`Net/Pass*`) | as C133 with room for values; for the other direction the coroutines are stopped where the buffers got them, so that the network comes to rest there (`Net/Trunc`) |
| C135 the two channels side by side | the models of C01 and C11 (`Same/*`) | `empty` takes the values out of a channel; it commutes with every step that leaves the channel open and defined |
| C136 networks of channel<void> | the model of C110 with the channel of C11 (`VNet/*`) | such a network is one of `channel<T>` without the values (C135 for every channel, C110_safe gives what C135 needs), so C110 and C133 carry over |
| C137 channel<void> as a counter | the model of C136; counters without queues and executor (`VNet/CountSpec`) | buffers of values that carry nothing are counters, in both directions; then C134 through C136 |

Not modelled: actual I/O, OpenSSL, signal delivery by the OS, memory
exhaustion, exceptions thrown by user copy/move constructors, compile-time
overload resolution (except where it selects run-time behaviour and is named).

## Disagreements between code and properties

Each is a theorem about the model (the violation, with a concrete schedule), next
to a `_partial` theorem with what does hold.

* **C01, C02, C08** A write operation made before `close` and awaited after it
  (`auto w = c.write(1); c.close(); co_await w;`) reports success. `closed` is set
  when the operation is made (channel.hpp:118), `await_ready` is true on a closed
  channel, so `await_resume` pushes into the buffer: with limit 0 the value is
  dropped, with a full buffer the oldest value is overwritten, an assertion
  (impl/channel.hpp:298) fails. (`C01_late_write_asserts`,
  `C02_late_write_loses_value`, `C08_late_write_succeeds`). Nothing else does:
  the value of a successful write is handed to a read, no assertion fails and order is
  kept exactly if there is no such write (`C01_exact`, `C01_assert_exact`, `C02_exact`)
* **C05** With several producers or consumers a value whose write succeeded can be
  overwritten: a writer posted because there was room finds the room taken when it
  runs (`C05_value_lost`); in the same way a reader posted because there was a
  value finds none and dereferences an empty optional
  (`C05_woken_reader_finds_nothing`). Neither happens while the channel is open if
  nobody begins an operation while another was woken and not resumed yet
  (`C05_turns_partial`, `C05_turns_defined_partial`).
* **C09** `interrupt_await` resumes the waiting coroutine but leaves the operation
  in the queue. If the operation outlives the interruption and the other side comes
  before it is destroyed, an empty handle is resumed
  (`C09_interrupted_is_resumed`, `C11_interrupted_is_resumed`, `C02_interrupted_ub`). If
  another read waits behind the interrupted one, its wake-up is lost (`C10_violated`).
* **C12** `channel<void>` reports `broken_pipe` to every read after `close`: stored
  tokens and tokens already handed to a posted reader are lost, unlike
  `channel<T>` (`C12_stored_token_lost`, `C12_handed_token_lost`).
* **C13** `gather` and `join` of an empty range call `release()` on a fork that does not
  exist, which dereferences a null pointer (`C13_empty`). It is likely to be harmless
  with present compilers.
* **C16** `join` goes on starting awaitables after one has failed
  (`C16_start_violated`); they are cancelled after all have been started.
* **C17** `join_ranged_impl::interrupt_await` tests `cancel[0]` for every awaitable: if the
  first one was ready at once no other is interrupted (`C17_ranged_violated`; exactly: `C17_ranged_exact`). Awaitables
  without `interrupt_await` are not cancelled instead
  (`C17_uninterruptible_violated`).
* **C18** An awaitable without a value that began a transaction and then fails: its
  exception is lost and the race reports success (`C18_void_violated`), or, if other
  awaitables have values, reads a result that does not exist (`C18_mixed_violated`). In
  a ranged race of awaitables without values one that is ready and fails after there is
  a winner makes the race fail (`C18_ranged_void_violated`).
* **C19** A race goes on starting awaitables after one has won if `done()` of the
  destroyed frame says no, and does not cancel these (`C19_late_violated`); if the winner
  throws from `await_ready` or `await_suspend` no loser is cancelled
  (`C19_thrown_violated`). `C19_exact` says who is told.
* **C20** `await_resume(as_tuple_tag)` of a race reads the result although the winner
  failed (`C20_as_tuple_violated`).
* **C21** `join` and `race` set the pointer to the signal to null after using it: later
  cancellations from outside do not reach the awaitable (`C21_second_violated`,
  `C21_transaction_violated`). `C21_race_exact` says for a race who is.
* **C25** `interrupt_await` of an await that failed with `already_awaited`, which a race
  does with its own awaitables, resumes the other awaiter although there is no result
  (`C25_violated`). Moving a promise while it is awaited resumes the awaiter with
  `moved_from` (`C25_moved_violated`).
* **C27** The move assignment does not set `done` of the promise moved from: awaiting it
  never ends (`C27_assign_violated`). After completion a moved-from promise gives the
  moved-from value (`C27_value_violated`) or asserts (`C27_exception_violated`).
* **C28** For the same reason the destructor of a promise moved from by assignment
  reads the frame of its coroutine, also after that is gone (`C28_zombie_violated`,
  `C28_violated`). The move assignment reads `*reference` of the promise assigned to
  without asking `done`: `p = f();` after the previous coroutine has ended reads a
  destroyed frame (`C28_assign_violated`; `move_only` of `test/promise.cpp` does this). Moving repeatedly from a promise moved from by
  assignment redirects the coroutine (`C28_twice_violated`).
* **C29** Awaiting a task that was started and has not ended (a second await, or again
  after an interruption) resumes its body although that is suspended in another
  operation (`C29_violated`); the second await destroys the first awaiter
  (`C29_second_violated`). `interrupt_await` stores its error in the receiver: if nobody
  awaits at that time it replaces the outcome (`C29_lost_violated`), and moving the task
  then leaves a dangling pointer (`C29_moved_violated`).
* **C30** `get()` takes the result without pushing a value: the next await of an eager
  generator resumes the body, whose yield finds no pushed value (`C30_get_violated`). An
  await of a lazy generator can be interrupted while the body runs. Without pushed values
  the next await makes the body pass its next yield: an exception then overtakes the value
  (`C30_overtaken_violated`), and the value is held back though somebody awaits it
  (`C30_late_violated`). With pushed values, or after more awaits, an assertion fails
  (`C30_assert_violated`). Interrupting an await that has ended resumes another one, which
  fails with "returned void" (`C30_stale_violated`). `C30_exact` says for all histories
  when everything is given once and in order: the body ends by an exception only while no
  value is held, `get()` is not called while an exception is held, and nothing of `Undef`
  happens, which lists all that is undefined.
* **C31** The value pushed with an interrupted await of an eager generator is lost
  (`C31_violated`); for a lazy one the pairing shifts by one (`C31_shifted_violated`).
* **C32** `get()` rethrows an exception without taking it, so the generator stays true
  (`C32_violated`). `co_await initial` while the generator is awaited fails that await as
  if the generator was exhausted (`C32_initial_violated`). Apart from what breaks C30, this
  and interrupting an await that has ended are the only ways (`C32_exact`).
* **C60** A body that throws after the object is gone leaves its frame behind
  (`C60_violated`).
* **C48** If a spawned task is destroyed its completion handler is destroyed too and
  never called (`C48_violated`). Spawning a task that was awaited and interrupted resumes
  a body suspended elsewhere (`C48_started_violated`).
* **C22** `wait_one` rethrows the exception of a failed member before erasing it: the
  member stays (`C22_violated`) and is reported again by every further `wait_one`
  (`C22_failed_again`). Two overlapping `wait_one`: the second fails with
  "already awaited" and, in doing so, makes the first one end and destroy a member that
  is still running (`C22_overlap_violated`). A `wait_one` is right exactly if it ends with
  success and does not come, first of all, upon a member another one waits for and that has
  not ended (`C22_exact`).
* **C23** `reap` skips members whose result was taken, so a failed member reported by
  `wait_one` is never removed (`C23_reap_violated`). A member added while `wait` is
  pending is destroyed when the others have ended (`C23_wait_violated`). `reap` is right
  exactly if no member that has ended is one a `wait` is waiting for or one whose failure was
  reported (`C23_reap_exact`); `wait` exactly if what was added meanwhile has ended too
  (`C23_wait_exact`).
* **C24** The teardown is given a reference to the exception. If it clears the exception
  of a function with a result, `await_resume` dereferences an empty optional
  (`C24_violated`).
* **C33** An exception that leaves work run by the immediate executor makes the handler
  destroy the coroutine inside its own `await_suspend` (`C33_throw_violated`), as does
  destroying the handler during initiation (`C33_drop_violated`). If the operation
  catches that exception and reports later, the coroutine is never resumed
  (`C33_lost_violated`). `C33_exact` says for every operation which cases go right, in
  terms of one bit (`mark`): whether the indicator of immediate work is on.
* **C34** Immediate work that ran other immediate work before invoking the handler
  resumes the coroutine inside its own `await_suspend` (`C34_violated`); `C34_partial`
  says that this is exactly when it happens.
* **C58** A child that finishes while it is started destroys its own frame; `done()` is
  asked afterwards, and the frame destroyed again when `last_forked` is assigned to or
  destroyed (`C58_gather_violated`, `C58_race_violated`).
* **C59** The loops forwarding a cancellation or interruption from outside go on after
  the last child has completed inside the call and resumed the awaiter, which usually
  destroys the combinator (`C59_cancel_violated`, `C59_interrupt_violated`). `C59_exact` and `C59_only`
  say when exactly: if a call made by such a loop has not returned and the loop has a child left.
* **C36** `sbo_resource` ignores alignments above `alignof(std::max_align_t)` while
  there is room in its buffer (`C36_overaligned`); for sizes within 15 of 2^64
  rounding wraps around to 0 (`C36_rounding_wraps`). Beside C35: an empty block
  requested from a full buffer is given back to upstream
  (`C35_empty_block_misrouted`).
* **C37** `monotonic_resource` (used without PMR): blocks are misaligned when the size
  is not a multiple of the alignment (`C37_misaligned`); the bookkeeping block is put
  at `mem_size + mem_size % 8` instead of `mem_size + padding`, so it can be outside
  the memory obtained (`C37_header_out_of_bounds`) or inside memory handed out later
  (`C37_header_overwritten`); `size + padding` wraps around (`C37_size_wraps`).
* **C38** Without sized deallocation `main_promise::operator new` does not store the
  size that `operator delete` reads, and the latter passes on the address of the frame
  instead of the block (`C38_main_unsized`). `allocate_coroutine` reserves
  `sizeof(AllocatorType)` for an object of the rebound type (`C38_larger_rebind`).
* **C40** `begin()` of a buffer sequence has offset `size_t(-1)`, so under
  `operator<=>` it is greater than every other iterator of the sequence
  (`C40_order_violated`).
* **C43** A local path is read back up to its first NUL, so the name of an abstract socket
  reads back empty (`C43_violated`, `C43_path` for the exact law).
* **C44** A local endpoint has `sizeof(std::size_t)` as its size whatever its path
  (`sizeof` of the sum, endpoint.cpp:45), and an IPv6 address given to `ip` as text has the
  size of an IPv4 one (endpoint.cpp:212): `C44_violated`, `C44_violated_path`.
* **C45** `udp_v6` has the protocol number of ICMP (`C45_violated`); `get<udp>` finds
  nothing in an endpoint made with it, `get<icmp>` does (`C45_consequence`).
* **C61** `endpoint(OtherEndpoint &&)` is a better match than the copy constructor for
  endpoints that are not `const` and for rvalues. It copies `size()` bytes, so with the
  sizes above a path keeps six characters (`C61_path`, `C61_violated`), and the address of
  an IPv6 endpoint made with `ip` becomes indeterminate (`C61_ipv6`).
* **C46** `done` is set before the mutex is taken. A thread that ends by an exception before
  the awaiter has registered terminates the process, and the awaiter may see `done` and go
  on as if all went well before that (`C46_violated`, `C46_violated_success`).
* **C47** `as_tuple` of a thread that ended before the awaiter was suspended dereferences an
  empty optional (`C47_violated`). `co_await std::move(t)` after `t.join()` throws
  `std::system_error` (`C47_violated_joined`). `co_await t` followed by
  `co_await std::move(t)` destroys a joinable `std::thread` (`C47_violated_twice`).
* **C62** The handler that starts the body holds a lock on a mutex in the coroutine frame
  while it resumes the body. A body that returns without suspending destroys the frame, and
  the mutex is unlocked after that (`C62_violated`, `C62_immediate` for all schedules).
  The frame of a body that throws is leaked (`C62_violated_throws`), and coroutines it left
  in the context are given back to the pool of the thread after that is gone
  (`C62_violated_pool`). A thread object destroyed before its body started leaks the frame,
  because the posted handler owns the state that owns the context
  (`C62_violated_dropped`).
* **C42** Without native asio files `lseek(fd, SEEK_SET, offset)` has its arguments swapped:
  the lower half of the offset is taken as `whence`. Offset 1 transfers at the current
  position, 2 and 4 at the end, 3 and multiples of 2^32 at the start, all others fail
  (`C42_violated`, `C42_violated_start`, `C42_violated_fails`; `C42_exact` says for which
  offsets it works). `stream_file::seek` moves but reports 0 (`C42_seek_exact`). With native
  files an invalid `seek` throws instead of giving an error (`C42_native_seek_throws`).
* **C49** `run` restores the executor only if there was one. On a thread without executor, a
  task that sets one leaves it set (`C49_violated`).
* **C50** The handler of the signal set refers to the cancellation signal in the coroutine
  frame. `final_suspend` cancels the wait, but a handler whose signal has come is already in
  the queue: it emits on the destroyed signal (`C50_violated`; `C50_late`: always). If the
  emission itself makes `co_main` return, the wait is armed again afterwards and the loop
  does not end until the next signal, which then is emitted on the destroyed signal
  (`C50_violated_waits`).
* **C52** A `task` does not look for `executor_arg`; its allocator defaults to
  `pmr::get_default_resource()`, as documented. But `operator new` is inherited and takes the
  frame from the thread's resource, although the documentation says that the memory of a task
  is not taken from there (`C52_task_frame`, `C52_violated_task`).
* **C53** `enable_await_deferred::await_transform` does not check for cancellation, so
  awaiting a deferred operation never throws (`C53_violated_deferred`). The state keeps only
  what the filter makes of the last cancellation: one that passed is forgotten when another
  comes that does not (`C53_violated`).
* **C54** `channel_reader::operator bool` is `is_open()`: the loop ends with values
  still in the buffer (`C54_buffered_values_skipped`, `C54_close_in_body`).
* **C55** `unique_handle::resume() const &` and `operator()() const &` resume the coroutine and
  keep owning it: it is destroyed later although it may have ended, or is resumed again
  (`C55_violated`, `C55_violated_twice`). The library only resumes rvalues and released
  handles.
* **C56** `composition_promise` default constructs its cancellation base, the slot
  of the completion handler is never connected: a cancellation never reaches
  `io::read`/`io::write` (`C56_cancellation_never_arrives`). Signals of whatever kind and time change nothing about an
  operation (`C56_exact`).
* **C57** `channel<void>`: two consumers make `n_` underflow to 2^64-1, two
  producers make it exceed the limit (`C57_underflow`, `C57_limit_exceeded`), so a
  lock made of it is held twice (`C57_lock_violated`). Neither happens if nobody begins an
  operation while another was woken and not resumed yet (`C57_turns_partial`).
* **C63** `ssl::stream::upgraded_` is set nowhere. After a successful handshake bytes are
  still read and written in the clear through `next_layer()` (`C63_violated`,
  `C63_always_plain` for all histories), `secure()` stays false (`C63_secure_violated`),
  `shutdown()` always fails with `no_protocol_option` and a second handshake is started. The
  operations would moreover hold a copy of the flag taken when they were made.
* **C64** `sleep(d)` computes `now() + d` without saturation: `sleep(duration::max())` is
  undefined behaviour and returns at once on the usual hardware (`C64_violated`,
  `C64_forever_is_over`); in hours already the conversion to nanoseconds overflows
  (`C64_hours_violated`). `duration_cast` cuts off parts of a nanosecond (`C64_truncates`).
* **C66** The move constructors of `stream_file` and `random_access_file` are defaulted, and the
  one of `ssl::stream` is implicit: the reference `file_`/`socket_` of the new object is to the
  part of the old one. `close()`, `is_open()` and so on act on the object moved from
  (`C66_close_violated`, `C66_ssl_violated`), or are undefined behaviour when it is gone
  (`C66_violated`). Only with native files for the file classes. The sockets rebind it.
* **C67** `file::open` without native files opens the descriptor first and then assigns it; if
  the file is open already or the reactor refuses the assignment fails and the descriptor is lost
  (`C67_violated`). `pipe()` calls `connect_pipe` without an error code and throws
  (`C67_pipe_violated`).
* **C68** `seq_packet_socket::adopt_endpoint_` sets type and protocol of internet endpoints only
  if `IPPROTO_SCTP` is defined (`C68_violated`). A type which was given but is not that of the
  socket is not refused (`C68_mismatch`).
* **C69** `make_context`: if the awaiter of `final_suspend` does not suspend, as for `detached`,
  the fiber's function returns, its stack is freed with the promise still in it, and
  `callee = ...` writes to it (`C69_violated`). `context_frame::destroy` destroys the promise before
  the locals of the body (`C69_order_violated`). `resume_` is never null, so that `done()` is
  false at the end (`C69_done_violated`). `await_suspend` runs in the resumer, where its
  exceptions stay (`C69_throw_violated`).
* **C70** The first enumerator of `error`, `moved_from`, is 0 and `cobalt_category_t` does not
  override `failed`: the code of the exception for awaiting something moved from converts to
  false (`C70_violated`). `allocation_failed()` makes an exception with `already_awaited`
  (`C70_allocation_violated`).
* **C71** `composition_promise::final_awaitable::await_suspend` uses its member `handler` after it
  destroyed the frame it is in (`C71_violated`). Where `self_destroy` posts instead, the frame is
  destroyed after the awaitable with its memory resource is gone (`C71_deferred_violated`). If the
  executor is shut down while a composition (`read`, `write`, a ranged `connect`, `accept`) is pending,
  its frame destroys the awaiting coroutine, which the frame itself, or at least its
  resource, is in (`C71_drop_violated`, `C71_drop_large_violated`). A body that throws leaves its
  frame, and after a suspension also the awaiting coroutine (`C71_throw_violated`, `C71_throws`).
  So no composition ends without one or the other (`C71_never`).
* **C72** Promises, tasks and generators destroy their frame at the end before the awaiting
  coroutine is resumed, and the slot of the latter is only cleared when it is. The parameters in
  the frame are destroyed after the promise. If the destructor of one of them cancels the awaiting
  coroutine, the cancellation is forwarded to a signal that was destroyed. `C72_exact` shows that
  nothing else goes wrong.
* **C73** The documentation says that spawn can be used to start a task on another thread. The frame
  of the task, its receiver and the coroutine that posts the completion are allocated from the
  memory resource of the spawning thread, which is an unsynchronized pool, and freed by the other
  thread: a data race with whatever the first allocates meanwhile.
* **C74** `acceptor` has no `open`. One made without an endpoint therefore fails in every `bind`,
  `listen` and `accept`. One made with an endpoint is already bound, so `bind` fails on that, too.
  `accept` takes the class of the socket from its argument, not from the acceptor.
* **C75** `throw;` in `unhandled_exception` leaves the coroutine at its final suspension. Detached
  promises, tasks and generators, `detached`, `main`, `thread` and compositions do this, and nobody
  has the handle to destroy the frame. `post_coroutine` destroys itself in `unhandled_exception`,
  when it is not suspended, which is undefined. `C75_exact` shows that everything else ends well.
* **C76** The destructor of a channel destroys the coroutine of the first operation until the queue is
  empty. An operation that was interrupted has no coroutine and stays. One that lives in a combinator,
  as in `race(c.read(), other)`, stays until the last child is destroyed. In both cases the loop
  never ends. `close` posts the waiting readers, which look at the channel when they are resumed,
  even if it was destroyed after it was closed.
* **C77** `await_resume(as_tuple_tag)` of a variadic join with values returns `std::current_exception()`
  in place of a null pointer on success (join.hpp:244): awaited inside of a handler, a join that succeeded
  reports the exception being handled (`Comb.C77_foreign`). `as_result` of a variadic join with values has
  two different return types and does not compile, neither do the forms of a ranged join of void.
* **C78** The entries of `working` of a race point into the frames of the children; a child that is
  destroyed leaves its entry behind, and the next completion or interruption calls through it
  (race.hpp:144-148, `Lost.C78_race` says exactly when). gather and join resume the awaiter when the last
  child completes though others were destroyed, and read their results (gather.hpp:200-209,
  join.hpp:222-233). A handler left in a slot by a destroyed operation is called by the next emit.
* **C79** `stream_file::seek` passes no error code to Asio and throws; without native files it returns 0
  in place of the position (stream_file.cpp:46, 110). `pipe()` throws (pipe.cpp:133). Without native files
  `file::release` of a closed file succeeds with -1 and `file::cancel` does nothing (file.cpp:107-110,
  141-146). Setting a character size, parity or flow control that does not exist throws
  `std::out_of_range` from the constructor of the option (serial_port.cpp:54).
* **C80** All overloads of `with` require that the teardown can be called with `std::move(arg)`, so a teardown
  that takes `T &`, as in the documentation, is refused; `tag_invoke` and `with_exit_tag` of the
  documentation do not exist. The overloads for functions that are not awaited call it with the lvalue
  `arg` (with.hpp:100, 185): teardowns that take `T &&`, and `await_exit`, are chosen but do not compile. Results
  must be assignable (with.hpp:132, 176), which `with_promise_value` was written to avoid.
* **C81** `with_impl` has no destructor. A `with` that is not awaited is never destroyed (`With.Life.C81_dropped`).
  If the awaiter is destroyed while it waits, the coroutine goes on and resumes the destroyed awaiter
  (`C81_orphan`); if the operation it waits for is destroyed, the awaiter is neither resumed nor destroyed
  (`C81_lost`).
* **C82** A cancellation is posted as a handler that owns the state into the context that is
  part of that state. If the context runs no more, because the thread has ended
  (`C82_violated`, `C82_posted_violated`) or `~thread` stopped it (`C82_stopped_violated`),
  the state is never freed. `co_await t` moves the state out of `t`, so `t.cancel()` has no
  effect while the thread runs (`C82_ignored_violated`).
* **C83** The move assignment of a generator reads `*reference` without asking whether the
  coroutine is done. If it is, its frame was freed (`C83_assign_violated`); that is the case
  exactly if the coroutine that the object had last is gone (`C83_assign_exact`). A moved
  `optional` keeps having a value, so the object that was moved from gives it after the error
  (`C83_left_violated`), or at once if the coroutine has ended (`C83_noerror_violated`). A
  generator moved while it is awaited gives that await the error `moved_from`
  (`C83_awaited_violated`), or is used after its destruction (`C83_dangling_violated`).
* **C84** A generator that awaits `this_coro::initial` while it is awaited resumes the awaiting
  coroutine without a value: a loop over it is left by the error of an exhausted generator
  (`C84_violated`). That is the only way for the loop to go wrong (`C84_exact`).
* **C85** An await of a promise that was interrupted and is interrupted again resumes whoever awaits
  the promise then, here a loop, without a value (`C85_violated`). A promise that was moved from
  is true, so that a loop over it throws instead of ending (`C85_moved_violated`).
* **C86** `io/random_access_device.hpp:8` has the include guard of `io/stream.hpp`. Whichever is
  included first makes the other one be skipped, so `io.hpp` does not compile, nor does a file with
  positions together with a pipe, a stream socket, a stream file, a serial port, an acceptor or an
  ssl stream (`C86_violated`, `C86_io_violated`, `C86_pair_violated`).
* **C87** `write_at` asks that `write_some_at` returns a `write_op` (`io/write.hpp:51`), but it
  returns a `write_at_op`; no class can be given to it (`C87_violated`, `C87_never_violated`).
* **C88** the loop that forwards a cancellation goes on after the combinator has been destroyed
  (C59); in an expression like `race(gather(a, b), c)` no cancellation from outside is needed for
  that (`C88_violated`).
* **C89** an inner race does not begin a transaction of the outer one (`detail/fork.hpp:87-99`,
  `detail/race.hpp:196-203`), so `race(race(a.read(), b), c.read())` may take a value from both
  channels; one is lost (`C89_violated`, `C89_lost_violated`).
* **C90** an operation that finds the other side waiting takes its value in `await_suspend`
  (`impl/channel.hpp:119-142, 241-263`) without beginning a transaction of its own race, and the race
  goes on to start the other branches: `race(a.read(), b.read())` takes a value from both channels if
  a writer waits at both, and one is lost (`C90_lost_violated`); two writes both happen
  (`C90_written_violated`); the exception of a second transaction is thrown into an unrelated
  coroutine (`C90_threw_violated`). The loser of a race kept in a variable stays in the queue of its
  channel, whose next user resumes a null handle (`C90_named_violated`).
* **C92** `race::await_suspend` asks `done()` of a coroutine that may have destroyed itself (race.hpp:318-319).
  If memory that was freed says no, the next awaitable is asked although the race is decided.
  If that is a generator with a value, the value is taken and thrown away (race.hpp:259-270).
  `Again.C92_violated`: three generators; the first yields while the second is asked; the value of the third is lost.
  `Again.C92_exact`: a value handed over to a race is lost exactly if another one was handed over before it.
* **C93** doc/reference/race.adoc says the second `co_await race(t1, t2)` waits for the other task.
  `await_ready` of a promise is `done` (detail/promise.hpp:187), so a promise that has given its value is ready again.
  `Again.C93_violated`: the same promise wins both races, the second time with a value that was moved from.
* **C94** `gather_wrapper` awaits the promises that are in the list when it is made and clears the list after (detail/wait_group.hpp:99-112).
  A coroutine of the group that adds another one meanwhile is plausible; the promise of the other is destroyed, its coroutine is cancelled but not awaited.
  `Nurse.C94_violated`: it is running when `with` has ended. `Nurse.C94_used_violated`: it then uses the group, which was destroyed with the frame of `with`.
  `Nurse.C94_exact`: at the end of `with` everybody has ended exactly if those have who were added late.
* **C97** A value put into the buffer wakes the first waiting read, which takes the value when it is resumed. If that read is cancelled, or interrupted by its race, between the wake-up and the resumption (its slot is still connected; `cancel_impl` then only sets `cancelled`), it reports the cancellation and does not pass the wake-up on: the value stays in the buffer while the next read sleeps, until some other write comes. The same for writes and free places (`C97_violated`, `C97_race_violated`, `C97_write_violated`).
* **C98** As C97 for `channel<void>`: a woken operation that is cancelled or interrupted before it runs does not pass the wake-up on (`C98_violated`, `C98_race_violated`, `C98_write_violated`). Further, a read that overtakes a woken one makes the counter wrap around (see C57), after which a read sleeps in front of a counter of 2^64 - 1 (`C98_overtaken_violated`).
* **C99** A `channel<void>` does not work as a lock. `await_resume` of the read that frees a place posts the waiting write but leaves the place free until that write runs; any coroutine that comes along first, even the one that just left, finds `await_ready` true and takes it, and then the woken one counts up too: two coroutines are inside (`C99_violated`). And a woken coroutine that is cancelled before it runs does not wake the next one, which then waits forever with nobody inside (`C99_asleep_violated`).
* **C100** doc/design/race.adoc shows `race(timeout(), work())` as the way to cancel. An operation of asio has no `interrupt_await`, so the race cancels it and discards its outcome, also if it has read something: a `read_some` whose handler waits behind that of the timer (`C100_violated`). `io::read` does not pass the cancellation on (C56), so the timeout has no effect: the race ends when the buffer is full (`C100_deaf_waits`), and then what was read is discarded (`C100_buffer_violated`). `C100_kept`: nothing is lost if a promise runs the read and is awaited again.
* **C101** In example/ticker.cpp (doc/tutorial/ticker.adoc) `run_blockchain_info` awaits `race(rd, subc.read())`, where `subc` has the default limit 0. If a session waits in `subc.write`, the read takes its value over at once and resumes the session, but is itself only posted (impl/channel.hpp:121-141) and its race does not count it as done. If the generator has or gets a message before that, the message wins and the subscription is dropped although its `write` has succeeded (`C101_violated`, for either order of the arguments: `left_race` does not help). `C101_exact`: this, and the overwriting of C05, are the only ways to lose something. Messages are never lost (`C101_msgs`).
* **C102** With any buffer (limit ≥ 1), two workers and one producer, or one worker and two producers, are enough to go wrong, even if all are started in turn, the executor is a queue and the bodies are synchronous (`C102_fails`, `C102_simple_exact`). A write that finds a reader waiting puts its value into the buffer and posts the reader or hands over directly; the next one who comes takes what the woken one was woken for: a woken reader finds nothing and moves from an empty optional (impl/channel.hpp:181), or a woken writer finds the buffer full and overwrites a job (impl/channel.hpp:298). A pool is safe exactly with limit 0, or with one worker and one producer (`C102_exact`).
* **C103** The queue of example/spsc.cpp has two races. (1) If a value is written between the test of `await_ready` (line 45) and the store of the handle (line 61), the writer finds nobody to wake and the reader sleeps although a value is there; with the last value, or if the writer has filled the queue meanwhile, both stand still for good. (2) If the reader takes a value before the writer has come to its `exchange` (line 110) and goes to sleep, it is woken for a value it has already read: `pop` fails and an `int` without a value is returned (lines 65-73); on the other side a `push` fails and the value is dropped (line 108). `C103_sizes`: for every capacity and every number of values but 0 there is an interleaving that goes wrong; `C103_exact` says which ones do. The test has to be made again after the store, and the woken one has to look again.
* **C104** In example/signals.cpp the slot holds an `intrusive_ptr` to the awaitable in the frame of the coroutine (line 28), and boost::signals2 destroys the slot only after its handler has returned, that is after the coroutine was resumed (line 34). If the coroutine has left the expression by then, the awaitable is gone; if it has ended, as `await_signal` does (lines 80-83), its frame is freed; if it awaits the signal again at the same place, as a loop does, the pointer lets go of the new awaitable, whose count is 1, and destroys the coroutine that waits (lines 61-65). `C104_safe_exact`: right exactly if every coroutine is suspended again within the expression. Apart from that an emission made by a coroutine that another one has resumed overtakes it (`C104_first_exact`). The handler should move the pointer out of the capture and let go of it before it resumes.
* **C105** The awaitables of `gather` and `join` of a range call `await_ready` of all their operations in the constructor and put the answers into a vector that nothing reads (gather.hpp:276-286, join.hpp:354-364); each child calls it again (gather.hpp:308, join.hpp:400). An operation whose `ready` takes something takes twice, and `handler::operator()` overwrites the first (handler.hpp:193). `C105_exact`: nothing is lost exactly if no source has more in it than there are operations on it. The calls in the constructors should go.
* **C107** In example/python.cpp `yield_value` writes through `owner` (line 142), which is the object of Python; if the await was cancelled while the coroutine ran, and with it the last reference went, the object is gone (`C107_safe_exact`, `C107_safe_violated`). What the coroutine makes for an await that was cancelled is lost (`C107_exact`, `C107_lost_violated`).
  `__aiter_impl` asks `done` only before it awaits, so `async for` runs its body with the returned value as well, `None` in the example (`C107_for_exact`, `C107_for_violated`). `extract_result` calls `exception()`, which raises if the task was cancelled; the callback is freed with the handle of the coroutine in it, so the coroutine is destroyed and who awaits it waits forever (`C107_task_violated`, `C107_hung_violated`).
  `initiate` sets the executor of the thread only if it has none, so a second loop uses the one of the first, which is held by a pointer that does not own it (`C107_loop_exact`). `coroutine completed` (line 170) is never thrown (`C107_stop_never`). `done` is true as well while the coroutine runs for somebody, so a second `async for` ends at once without an error (`C107_done_exact`, `C107_done_violated`).
* **C108** `make_context` subtracts the size of the frame from the size of the block without looking whether it fits (context.hpp:291-298): with a small block the frame lies outside and the size of the stack wraps around (`C108_layout_exact`, `C108_small_violated`). And nothing frees the stack if the promise, the return object, the arguments or the fiber throw (`C108_failure_exact`, `C108_leak_violated`).
* **C113** (`include/boost/cobalt/detail/promise.hpp`, `unhandled_exception`): a coroutine that is abandoned, so cancelled, and then ends with an exception (which is what it does if it does not catch the one `await_transform` or the operation throws) finds no receiver and rethrows: the exception leaves the executor's run and the frame is never freed. `C113_violated`, witness: the first coroutine starts another and returns; the other waits for an operation, is cancelled and throws. `C113_exact`: this happens only to coroutines that throw when their promise has been destroyed.
* **C114** (`include/boost/cobalt/channel.hpp:159-183`): `write(T & value)` stores the address as a `T *`, as `write(T && value)` does, and the value is moved out of it when it is handed over. So `co_await c.write(x)` empties the lvalue `x`, and `co_await a.write(x); co_await b.write(x);` sends a moved-from value to `b`; `write(std::as_const(x))` copies. `C114_violated`, witness: two channels with a reader each. `C114_exact`: a variable loses its value exactly when a write of it by one of these two overloads is taken; a write that fails leaves it (`C114_failed`).
* **C115** (`include/boost/cobalt/experimental/context.hpp:43-87`): a stackful coroutine hands over by `await_suspend(h).resume()` within `context_frame::resume`, which does not return before. So a stackful coroutine that takes n values from a lazy generator, or awaits n tasks, none of which waits, piles up n activations on the stack of the thread. `C115_violated`: with two coroutines a stack of any depth; `C115_loop` and `C115_tasks` give the depth. Usual coroutines: at most one activation each (`C115_partial`).
* **C116** (`example/ticker.cpp:132-137`): the hub locks the weak pointer to the channel of a session and waits in `ptr->write(ms)`; the local `ptr` keeps the channel alive when the session leaves (lines 260-264), so nobody reads, closes or destroys it and the hub waits for ever, with all other sessions. `C116_violated` (channels with limit 1 as in the example, two sessions, two updates), `C116_stuck` (nothing ever ends this); without such a leave all are served (`C116_partial`), and this is the only way (`C116_exact`, `C116_why`). Read only, not modelled: line 142 uses the iterators of `r` after `erase_if` may have erased what they point to, and an expired range is not empty until then.
* **C117** (`example/thread.cpp:52,58,62`): the request has a pointer to `res`, a local variable of `work`. When the call of one `work` throws (which lines 43-51 provide for), `join` cancels the others; these end and destroy `res` while a worker may still compute for them, and then `respond_to->async_send` uses the destroyed channel. `C117_violated`; `C117_exact`: with two workers or more a run like this exists for every program in which one coroutine fails and another one has a call to make.
* **C118** (`src/io/write.cpp:20-24`, `doc/reference/io/ops.adoc:108-117`): a composed operation works on its member `step`, so one that has succeeded is used up: awaited again it reports success and no bytes (`C118_spent`). The bytes of a transfer that fails are counted but not dropped, so awaiting again moves them twice (`C118_resume_exact`). The loop of the documentation is right for streams (`C118_loop`), but for the `_at` forms, where the offset has to be advanced as well, only if the first transfer moves everything (`C118_loop_exact`).
* **C119** (`example/channel.cpp:30-31`): the loop `while (c.is_open()) co_await c.read()` is right for the channel of the example, which has no buffer (`C119_example`). With a limit `cap > 0` the consumer gets none of `n <= cap` values and `cap * ((n - 1) / cap) + 1` of more (`C119_exact`), although every write succeeds.
* **C120** (`include/boost/cobalt/this_coro.hpp:147-152`, `doc/reference/detached.adoc:39-57`): the cancellation state of a coroutine is a pointer to a handler inside its source. A second coroutine that takes the same source destroys the handler of the first, and the destructor of the signal destroys it as well; the next await of a coroutine, or its `cancelled`, then reads freed memory (`C120_exact`), and its pending operation cannot be cancelled any more (`C120_lost_violated`). In the example of the documentation the signal is a variable of `co_main`, which returns right after it has emitted: the task may not await anything once its operation was cancelled (`C120_doc`).
* **C121** (`include/boost/cobalt/op.hpp:73-77`, `test/strand.cpp:55`): after `initiate` has handed the completion handler over, `await_suspend` still reads and writes `completed_immediately` in the frame of the coroutine. If the coroutine was called by a thread outside of its strand, as in `test/strand.cpp`, or its executor is no strand, another thread may run the handler in between, a data race on the frame, which may be gone already; with coroutines spawned onto strands, as in `example/thread_pool.cpp`, this cannot happen (`C121_exact`).
* **C122** (`include/boost/cobalt/io/resolver.hpp:42-44,71-72`, `src/io/resolver.cpp:36-48`): `resolve` and `lookup` keep `string_view`s and read them only when the operation is awaited, so an operation that is stored may read a text, or use a resolver, that is gone, or look up another name (`C122_ub`, `C122_exact`). `async_resolve` does not support cancellation of single operations: cancelling the coroutine that awaits has no effect (`C122_deaf`), and a `lookup`, whose resolver nobody can reach, cannot be cancelled at all, so that a `race` with a timeout waits for `getaddrinfo`.
* **C123** (`include/boost/cobalt/concepts.hpp:46-57`, `include/boost/cobalt/detail/with.hpp:20-31,75`, `doc/reference/with.adoc:40`): `co_await with(co_await connect(), …)` in a coroutine that was cancelled while `connect` completed: the coroutine of `with` is made and the connection moved into it, then `await_transform` throws; `with_impl` has no destructor, so the connection is neither torn down nor destroyed. `C123_exact` says which programs can lose an argument: those in which a `with` comes after an operation of the same coroutine. The teardown uses the cancellation slot of the coroutine that awaits, so that a cancellation cuts it short (`C123_cut_violated`).
* **C124** (`impl/channel.hpp:181`): with one object in a `channel<T>` of limit 1, a coroutine waits for it, is woken when it is brought back, and before it is resumed the one that brought it takes it again; the woken read then finds the buffer empty and dereferences the optional `direct`, which holds nothing (`C124_violated`). Exactly when more reads have been woken than objects are there the behaviour can become undefined by running what is scheduled (`C124_late`). A woken read that is cancelled leaves the object in the channel while others wait (`C124_asleep_violated`).
* **C125** (`random_access_file.cpp:84`): without native files `io::read_at(file, 0, buffer)` of four bytes of `10 11 12 13 14` gives `10 11 12 10` and no error if the device moves three bytes first: the offset 3 is taken as `SEEK_DATA` (`C125_violated`). Right for every split exactly if at most two bytes are wanted or there (`C125_exact`).
* **C126** (`io/buffer.hpp:62-63, 256`): a sequence of two or more buffers refers to the array it was made of, so an operation that is kept, `auto op = s.read_some(std::array{a, b}); co_await op;`, reads an array that is gone (`C126_gone_violated`), although asio asks a buffer sequence to be copyable as a value. (`io/buffer.hpp:27-33, 43, 81, 228, 247-251`): with `BOOST_ASIO_HAS_IO_URING` the members `registered_` and `head_` are a union; every copy of a sequence made of a plain buffer reads `registered_` while `head_` is active, and `+=` on a registered one reads `head_` (`C126_union_violated`). By the layout both work with gcc (`C126_partial`); by the standard only registered buffers that are never advanced remain (`C126_registered_partial`).
* **C129** (`example/echo_server.cpp:28-29`, `include/boost/cobalt/composition.hpp:130-134`): a session of the echo server that is in `io::write` does not hear that it is cancelled, since the composition does not pass the cancellation on (C56). A client that takes nothing keeps its session, and with it the `with` around the `wait_group` and the whole server, for ever (`C129_violated`, `C129_server_stops`).
* **C130** (`src/channel.cpp:106-110`): the read that frees a place wakes one writer. If the timer of that writer expires before it runs, `await_resume` returns `operation_aborted` without waking the next one, which waits although a place is free (`C130_violated`), until somebody else leaves or it gives up itself and tries again (`C130_heals`).
* **C131** (`include/boost/cobalt/detail/wait_group.hpp:47-54,99-106`, `include/boost/cobalt/detail/promise.hpp:204-208`): a promise has one awaiter. A `wait` takes the error of a member somebody else waits for as the end of this member, and clears the group when it ends. So with one coroutine in `wait_one` (or `wait`), another one that awaits `wait` goes on at once although nothing has ended; this destroys the promises and the first coroutine (`C131_violated`). A `wait_one` that comes to such a member fails and resumes the other wait; if it had begun to wait for another member before, it uses what is destroyed (`C131_undefined`).
* **C132** (`include/boost/cobalt/io/signal_set.hpp:33-42`, `include/boost/cobalt/detail/race.hpp:135-150`): `race(signals.wait(), timer.wait())` loses a signal whose handler has not run when the timer wins; the next wait does not get it (`C132_violated`). Several coroutines that wait for one set are all told of the signal, but only one is if the signal came first (`C132_twice_violated`). Signals that come while nobody waits are told by number, not in the order they came (`C132_order_violated`). In `co_main` the example of `doc/reference/io/signal_set.adoc` is told of `SIGINT` and is cancelled by the set of `co_main` as well (`C132_main`); it also compares the set, not the number, with `SIGINT`.
* **C135** The two implementations differ after close: `channel<T>` still hands out what was written before, `channel<void>` answers `broken_pipe` (impl/channel.hpp:169, src/channel.cpp:53). With several readers or writers a late one makes `channel<T>` undefined or fail an assertion, while `channel<void>` counts below zero or beyond the limit and reports success. Proved: `C135_violated_close`, `C135_violated_two_readers`, `C135_violated_late_write`; everywhere else they agree (`C135_lockstep_partial`, `C135_close`). If no write is begun or resumed late, the results after close are the same exactly when no value was in the buffer or on its way to a read at the close (`C135_after_close`, `C135_exact`); with a limit of at least 1 late writes must be excluded as well (`C135_exact_late`).

## Conformance with the tests of the repository

`Verif/Conf` runs programs of `/repo/test` on the models and compares what the model gives with
what the test expects of the code. These are tests of the models, not proofs, and no claim rests
on them.

* `Chan`, `VChan`: the sequences of `test/channel.cpp` with an executor that is a queue.
* `Gen`: `generator_int`, `generator_push` and `eager_2` of `test/generator.cpp`.
* `Comb`: the results of `test/{race,left_race,gather,join}.cpp`, for a race with every order in
  which its children may be started.
* `Rest`: promises, tasks, `wait_group` and `with`.

All agree. One program of the tests, `move_only` of `test/promise.cpp`, reaches undefined
behaviour in the model: it reads a destroyed frame in the code as well (C28).

## Mutation testing

`seeded/LOG.jsonl` has one line per attempt. Edits are made in a copy outside this
directory. A failing helper lemma stops the property theorems that import it from
being checked; these are listed separately from the ones that failed themselves.
Where an edit survived, the entry says whether it is equivalent, has no observable
consequence in the model, or which theorem was tightened because of it.

## Axioms

`#print axioms` for every theorem named in MANIFEST.json gives a subset of
`propext`, `Classical.choice`, `Quot.sound` (also checked by `vcheck`).
