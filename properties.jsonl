{"id": "C01", "title": "Rendezvous channel delivers in order, exactly once", "statement": "On channel<T> with limit 0, for any number of readers and writers, every successful read returns the value of exactly one write, no two reads return the same write, a write reports success only if its value was handed to exactly one read that does not fail, earlier-awaited reads receive the values of earlier-awaited writes, and no operation ever dereferences an empty value, resumes a null coroutine or trips an assertion.", "quantifier": "every finite schedule of creating, awaiting, resuming (in any order the executor picks), cancelling and destroying read/write operations and closing the channel, with no bound on the number of operations", "why_tests_cant": "The number of reader/writer/cancel/close interleavings is unbounded; a test runs one executor order.", "anchors": ["include/boost/cobalt/impl/channel.hpp: channel<T>::read_op::await_suspend, write_op::await_suspend, read_op::await_resume, write_op::await_resume, close, cancel_impl", "include/boost/cobalt/channel.hpp: channel<T>"]}
{"id": "C02", "title": "Buffered channel is a FIFO for one producer and one consumer", "statement": "On channel<T> with any limit, if at most one read and at most one write are outstanding at a time, then the sequence of values returned by successful reads, followed by the values still buffered or handed over, is exactly the sequence of values accepted by the channel, in the order they were written; every successful write is accepted exactly once and no assertion, overwrite of an unread value or empty dereference occurs.", "quantifier": "every limit, every finite schedule of one producer and one consumer, including cancellation of either at any point and close at any point", "why_tests_cant": "Order has to hold for every interleaving of suspension, wake-up and cancellation and for every limit.", "anchors": ["include/boost/cobalt/impl/channel.hpp: channel<T>::read_op, write_op, close"]}
{"id": "C03", "title": "A channel never buffers more than its limit", "statement": "At every point the number of values a channel<T> holds for future reads is at most its limit, and a write suspends whenever the limit is reached and the channel is open.", "quantifier": "every limit, every schedule, any number of producers and consumers, whether or not operations are cancelled or the channel closed", "why_tests_cant": "Bound must hold in every reachable state, not at sampled points.", "anchors": ["include/boost/cobalt/channel.hpp: channel<T>::write_op::await_ready", "include/boost/cobalt/impl/channel.hpp: write_op::await_resume, read_op::await_resume"]}
{"id": "C04", "title": "A channel invents and duplicates nothing", "statement": "Every value returned by a successful read of channel<T> is the value of a write that was awaited on this channel, and each such write supplies at most one successful read, for any number of producers and consumers.", "quantifier": "every limit and every schedule up to the first undefined behaviour, any number of producers and consumers", "why_tests_cant": "Duplicates depend on rare wake-up/hand-over races that tests do not schedule.", "anchors": ["include/boost/cobalt/impl/channel.hpp: channel<T>::read_op::await_resume, write_op::await_resume"]}
{"id": "C05", "title": "A channel loses no accepted value with several producers or consumers", "statement": "On channel<T>, a value whose write reported success stays available until a read returns it: it is never overwritten, and a woken reader always finds a value.", "quantifier": "every limit, every schedule, any number of producers and consumers on one executor", "why_tests_cant": "Needs a third coroutine to slip in between a wake-up and the woken coroutine running.", "anchors": ["include/boost/cobalt/impl/channel.hpp: read_op::await_resume line 181, write_op::await_resume lines 296-308"]}
{"id": "C06", "title": "Failed channel operations have no effect", "statement": "A read of channel<T> that completes with an error consumed no value, and a write that completes with an error never has its value returned by any read.", "quantifier": "every limit and every schedule, any number of producers and consumers, cancellation or close at any point", "why_tests_cant": "'Cancelled without losing data' has to hold for a cancellation landing at any instant, including after a wake-up was posted.", "anchors": ["include/boost/cobalt/impl/channel.hpp: cancel_impl, await_resume, close", "doc/reference/channel.adoc"]}
{"id": "C07", "title": "Closing a channel ends every wait", "statement": "After close() on channel<T>, no operation is left suspended in the channel, none awaited later ever suspends, every queued write completes with broken_pipe, a queued read completes with broken_pipe (or operation_aborted if a value is still buffered), and later reads first return the buffered values and then broken_pipe.", "quantifier": "every limit, every reachable state in which close is called, and every continuation", "why_tests_cant": "Has to hold for every combination of queued, woken and handed-over operations at the instant of close.", "anchors": ["include/boost/cobalt/impl/channel.hpp: channel<T>::close, read_op::await_resume, write_op::await_resume"]}
{"id": "C08", "title": "A write awaited on a closed channel fails", "statement": "On channel<T>, a write that is awaited after close() reports broken_pipe and does not change the buffer.", "quantifier": "every state and every write operation, whenever it was created", "why_tests_cant": "The defect window is between creating the operation and awaiting it.", "anchors": ["include/boost/cobalt/channel.hpp: write_op::closed (line 118)", "include/boost/cobalt/impl/channel.hpp: write_op::await_resume"]}
{"id": "C09", "title": "An interrupted channel operation is out of the queue", "statement": "After interrupt_await on a suspended channel operation, a later operation on the channel never pairs with the interrupted one: no value is handed to it and no null coroutine is resumed.", "quantifier": "every reachable state, every interrupted operation, and every later operation while the interrupted operation object is still alive", "why_tests_cant": "Requires a race that keeps waiting for a slow sibling while another coroutine uses the channel.", "anchors": ["include/boost/cobalt/channel.hpp: read_op::interrupt_await, write_op::interrupt_await", "include/boost/cobalt/detail/race.hpp: cancel_all"]}
{"id": "C10", "title": "No lost wake-up in a channel", "statement": "With one producer and one consumer, whenever nothing is scheduled to run, a suspended read implies the channel has no buffered value and no suspended write, and a suspended write implies the buffer is full and no suspended read.", "quantifier": "every limit and every schedule of one producer and one consumer, including cancellation and close", "why_tests_cant": "Deadlock freedom is a claim about all reachable quiescent states.", "anchors": ["include/boost/cobalt/impl/channel.hpp: read_op::await_resume lines 189-199, write_op::await_resume lines 310-321"]}
{"id": "C11", "title": "channel<void> conserves tokens for one producer and one consumer", "statement": "On channel<void> while open, with at most one outstanding read and one outstanding write, the number of successful reads plus stored tokens plus tokens handed to a read that has not resumed yet equals the number of tokens written, the stored count never exceeds the limit and never underflows.", "quantifier": "every limit and every schedule of one producer and one consumer with cancellation at any point before close", "why_tests_cant": "Counter underflow appears only in particular interleavings.", "anchors": ["src/channel.cpp: channel<void>::read_op::await_resume, write_op::await_resume", "include/boost/cobalt/impl/channel.hpp: channel<void>::read_op::await_suspend, write_op::await_suspend"]}
{"id": "C12", "title": "channel<void> delivers buffered tokens after close like channel<T>", "statement": "Tokens written to a channel<void> before close can still be read after close, and a read to which a token was handed succeeds, as for channel<T>.", "quantifier": "every state in which close is called with tokens stored or handed over", "why_tests_cant": "Depends on close landing between hand-over and resumption.", "anchors": ["src/channel.cpp: channel<void>::read_op::await_resume line 53"]}
{"id": "C13", "title": "Combinators resume their awaiter exactly once, when the last child is done", "statement": "Awaiting gather, join or race resumes the awaiting coroutine exactly once; a suspended awaiter is resumed at the instant the last started child finishes and never while a child is outstanding; if all children finish while being started the awaiter does not suspend.", "quantifier": "every number of children and every order and time in which children complete (during start, during another child's cancellation, or later)", "why_tests_cant": "Completion orders grow factorially and re-entrant completion during start-up is rarely exercised.", "anchors": ["include/boost/cobalt/detail/fork.hpp: fork::final_awaitable, set_use_count, shared_state", "include/boost/cobalt/detail/gather.hpp", "include/boost/cobalt/detail/join.hpp", "include/boost/cobalt/detail/race.hpp"]}
{"id": "C14", "title": "gather reports every outcome at its own position", "statement": "gather completes with one result per awaitable in argument order, holding exactly the value or the exception that awaitable completed with; an awaitable that fails does not cause any other to be cancelled or interrupted.", "quantifier": "every number of awaitables, every assignment of outcomes, every completion order, for the variadic and the ranged form", "why_tests_cant": "All outcome/ordering combinations cannot be enumerated.", "anchors": ["include/boost/cobalt/detail/gather.hpp: gather_variadic_impl, gather_ranged_impl"]}
{"id": "C15", "title": "join returns all values in order or the first exception", "statement": "join completes with all values in argument order if no awaitable fails; otherwise it throws the exception of the awaitable that failed first in time, after every started awaitable has completed.", "quantifier": "every number of awaitables, every assignment of outcomes, every completion order", "why_tests_cant": "First-in-time versus first-in-position only differ in certain orders.", "anchors": ["include/boost/cobalt/detail/join.hpp: join_variadic_impl, join_ranged_impl"]}
{"id": "C16", "title": "join cancels the outstanding awaitables on the first failure", "statement": "When one awaitable of a join fails, every awaitable still outstanding is interrupted or, if it cannot be interrupted, sent one cancellation, and no awaitable is started afterwards.", "quantifier": "every number of awaitables, every failure position and time", "why_tests_cant": "Depends on which are started, finished or outstanding at failure.", "anchors": ["include/boost/cobalt/detail/join.hpp: cancel_all"]}
{"id": "C17", "title": "join forwards an interruption to every awaitable", "statement": "interrupt_await on a join (range or variadic) reaches every outstanding awaitable: each is interrupted, or cancelled if it is not interruptible.", "quantifier": "every number of awaitables and every subset outstanding", "why_tests_cant": "Range positions beyond the first need several children with mixed capabilities.", "anchors": ["include/boost/cobalt/detail/join.hpp: join_ranged_impl::interrupt_await lines 380-395, join_variadic_impl::interrupt_await"]}
{"id": "C18", "title": "race returns the outcome of the first completed awaitable", "statement": "race completes with the index and value (or exception) of the awaitable that completed, or began a transaction, first; outcomes of the others are discarded.", "quantifier": "every number of awaitables, every start permutation, every completion order", "why_tests_cant": "Which child is first depends on schedule and shuffle.", "anchors": ["include/boost/cobalt/detail/race.hpp: race_variadic_impl, race_ranged_impl"]}
{"id": "C19", "title": "race cancels or interrupts every loser, once", "statement": "Once a race has a winner, each other started and outstanding awaitable is interrupted or, failing that, sent exactly one cancellation, awaitables not yet started are not started when the winner completed while being started, and race completes only after all started awaitables finished.", "quantifier": "every number of awaitables, every winner, every set of started and outstanding awaitables", "why_tests_cant": "Combinatorial in children, permutation and completion time.", "anchors": ["include/boost/cobalt/detail/race.hpp: cancel_all, await_suspend"]}
{"id": "C20", "title": "race reports failure of the winner through as_tuple", "statement": "co_await as_tuple(race(...)) whose winner failed yields the exception without touching a result that does not exist.", "quantifier": "every race with non-void results whose winner failed", "why_tests_cant": "Reading an empty optional usually appears to work.", "anchors": ["include/boost/cobalt/detail/race.hpp: await_resume(as_tuple_tag) lines 353-359, 664-670"]}
{"id": "C21", "title": "Cancelling a combinator cancels each outstanding child", "statement": "A cancellation sent to a coroutine suspended in gather, join or race is forwarded to each outstanding awaitable, with the same type, and to no finished one.", "quantifier": "every number of children, every subset already finished, every cancellation type", "why_tests_cant": "Subset of finished children is arbitrary.", "anchors": ["include/boost/cobalt/detail/gather.hpp: cancel_all / await_suspend cancel handler", "include/boost/cobalt/detail/join.hpp", "include/boost/cobalt/detail/race.hpp", "include/boost/cobalt/detail/forward_cancellation.hpp"]}
{"id": "C22", "title": "wait_one removes exactly the promise that completed", "statement": "co_await wait_group::wait_one() completes when one member completes and removes exactly that member; repeating it consumes each member once, and an empty group completes at once.", "quantifier": "every number of members, every completion order, including members that fail", "why_tests_cant": "Needs failing members mixed with repeated waits.", "anchors": ["include/boost/cobalt/detail/wait_group.hpp: race_wrapper, wait_one_op", "include/boost/cobalt/wait_group.hpp"]}
{"id": "C23", "title": "wait_group reap, wait and exit account for every member", "statement": "reap() removes exactly the completed members and reports how many; wait() completes when all members completed and empties the group; await_exit(e) first cancels every member with the normal type if e is null and with the exceptional type otherwise (no cancellation for type none).", "quantifier": "every list of members in any mixture of states", "why_tests_cant": "All mixtures of states cannot be enumerated.", "anchors": ["include/boost/cobalt/detail/wait_group.hpp", "include/boost/cobalt/wait_group.hpp"]}
{"id": "C24", "title": "with tears down exactly once", "statement": "with(arg, f, teardown) awaits teardown exactly once, after f has completed and with f's exception (null if none), then rethrows f's exception if any, else teardown's exception if any, else returns f's result.", "quantifier": "every outcome of f and teardown (value, exception, synchronous or asynchronous, teardown that modifies the exception)", "why_tests_cant": "Cross product of outcome combinations, including f throwing before its awaitable exists.", "anchors": ["include/boost/cobalt/with.hpp", "include/boost/cobalt/detail/with.hpp"]}
{"id": "C25", "title": "A promise delivers its outcome once to its awaiter", "statement": "An awaited promise resumes its awaiter exactly once with the value or exception the coroutine finished with, whether awaited before or after completion; while one await is pending another await fails with already_awaited; nothing else is lost or altered.", "quantifier": "every sequence of awaiting, completing, detaching, moving and interrupting one promise", "why_tests_cant": "Histories mixing moves, interrupts and completion are unbounded.", "anchors": ["include/boost/cobalt/detail/promise.hpp: promise_receiver, promise_value_holder", "include/boost/cobalt/promise.hpp"]}
{"id": "C26", "title": "An interrupted promise can be awaited again", "statement": "interrupt_await on a pending await of a promise resumes that awaiter with the detached error, leaves the coroutine running, and a later await still obtains its outcome.", "quantifier": "every history of interruptions before and after completion", "why_tests_cant": "Interrupt timing relative to completion is schedule dependent.", "anchors": ["include/boost/cobalt/detail/promise.hpp: promise_receiver::awaitable::interrupt_await"]}
{"id": "C27", "title": "Moved-from promises fail instead of hanging", "statement": "Awaiting a promise that was moved from (by construction or by assignment) fails with moved_from at once.", "quantifier": "every history of move construction and move assignment before or after completion", "why_tests_cant": "Assignment and construction differ only after particular histories.", "anchors": ["include/boost/cobalt/detail/promise.hpp: promise_receiver move constructor and move assignment (lines 112-155)"]}
{"id": "C28", "title": "Dropping a promise cancels, detaching does not", "statement": "Destroying or overwriting an attached, unfinished promise sends one cancellation to its coroutine; a detached one sends none; either way a later completion never touches the destroyed handle.", "quantifier": "every sequence of attach, detach, move, drop and completion", "why_tests_cant": "Use-after-free shows only for certain move/complete/drop orders.", "anchors": ["include/boost/cobalt/promise.hpp: promise::~promise, operator=, detach, attach", "include/boost/cobalt/detail/promise.hpp: promise_receiver::~promise_receiver"]}
{"id": "C29", "title": "A task runs at most once, and only when awaited", "statement": "The body of a task starts only when awaited or spawned, is resumed by the await at most once, delivers its outcome once to its awaiter, and if never awaited is destroyed with its handle without running.", "quantifier": "every sequence of creating, moving, awaiting, interrupting, completing and dropping one task", "why_tests_cant": "Double start needs a second await in a particular state.", "anchors": ["include/boost/cobalt/detail/task.hpp: task_receiver, task_promise", "include/boost/cobalt/task.hpp"]}
{"id": "C30", "title": "A generator delivers its yields in order without loss", "statement": "Successive awaits of a generator return exactly the values yielded, in order, followed by the co_returned value if any; an exception of the body is delivered after the values yielded before it.", "quantifier": "every body (sequence of yields, internal awaits, return or throw), every sequence of awaits, eager and lazy", "why_tests_cant": "Two result slots plus eager resumption give many interleavings.", "anchors": ["include/boost/cobalt/detail/generator.hpp: generator_receiver, generator_yield_awaitable", "include/boost/cobalt/generator.hpp"]}
{"id": "C31", "title": "Pushed values reach the matching yield", "statement": "For generator<Y, P>, the value passed with the k-th await is the result of the k-th suspension point of the body (k-th co_yield for eager, co_await initial first for lazy), each exactly once.", "quantifier": "every body and every sequence of pushes via operator(), eager and lazy", "why_tests_cant": "Off-by-one pairing appears only for longer histories and eager/lazy mixtures.", "anchors": ["include/boost/cobalt/detail/generator.hpp: generator_receiver::awaitable::await_suspend/await_resume, pushed_value"]}
{"id": "C32", "title": "A generator is true until exhausted", "statement": "bool(generator) is true while a value or exception is still to be delivered or the body has not finished, and false afterwards; awaiting an exhausted generator fails instead of suspending forever.", "quantifier": "every history of one generator", "why_tests_cant": "Must hold in every reachable state.", "anchors": ["include/boost/cobalt/generator.hpp: generator::operator bool, ready, get", "include/boost/cobalt/detail/generator.hpp"]}
{"id": "C33", "title": "An asio operation resumes its coroutine exactly once", "statement": "co_await of an operation returns exactly once with the arguments of its completion, whether it completes before suspension, through the immediate executor during initiation, or later; never both without suspending and by resumption.", "quantifier": "every conforming behaviour of the initiating function: complete in ready(), complete through the immediate executor at any nesting of non-completing immediate work, complete later, throw, or abandon the handler", "why_tests_cant": "Re-entrancy during initiation depends on the operation's internals.", "anchors": ["include/boost/cobalt/op.hpp: op_awaitable, await_suspend", "include/boost/cobalt/detail/handler.hpp: completion_handler, completed_immediately_t, completion_handler_noop_executor"]}
{"id": "C34", "title": "Nested immediate completions stay inside initiation", "statement": "While an operation is being initiated, invoking the completion from any work run by the immediate executor never resumes the coroutine before initiation has returned.", "quantifier": "every nesting of immediate-executor calls during one initiation", "why_tests_cant": "Needs immediate work that itself runs non-completing immediate work before completing.", "anchors": ["include/boost/cobalt/detail/handler.hpp: completion_handler_noop_executor::execute"]}
{"id": "C35", "title": "Small-buffer resource hands out disjoint live blocks", "statement": "Blocks obtained from the operation's small-buffer memory resource and not yet returned never overlap, blocks from the buffer lie inside it, and every block returned goes back to where it came from.", "quantifier": "every buffer size, every sequence of allocations (any non-zero size that can be rounded up to a multiple of 16 within size_t) and deallocations in any order", "why_tests_cant": "Any order of deallocation of any sizes.", "anchors": ["include/boost/cobalt/detail/sbo_resource.hpp"]}
{"id": "C36", "title": "Small-buffer resource honours alignment and size", "statement": "A block returned by the small-buffer resource is at least as large as requested and aligned as requested.", "quantifier": "every size and every alignment representable in size_t", "why_tests_cant": "Extreme sizes and alignments are not sampled.", "anchors": ["include/boost/cobalt/detail/sbo_resource.hpp: do_allocate, align_as_max_"]}
{"id": "C37", "title": "Combinator frame allocator keeps blocks disjoint and in bounds", "statement": "Blocks handed out by the arena used for gather/join/race child frames are pairwise disjoint, inside memory the arena owns, aligned as requested, and do not overlap its bookkeeping.", "quantifier": "every initial buffer, every sequence of (size, power-of-two alignment) requests", "why_tests_cant": "Any sequence of sizes and alignments.", "anchors": ["include/boost/cobalt/detail/monotonic_resource.hpp"]}
{"id": "C38", "title": "Coroutine frames are freed with what they were allocated with", "statement": "A coroutine frame allocated with a user allocator or memory resource is returned to that same allocator/resource with the same pointer and size, and the stored allocator does not overlap the frame.", "quantifier": "every frame size, allocator size and alignment", "why_tests_cant": "Layout arithmetic must hold for all sizes.", "anchors": ["include/boost/cobalt/this_coro.hpp: promise_memory_resource_base, allocate_coroutine, deallocate_coroutine", "include/boost/cobalt/detail/main.hpp: operator new/delete"]}
{"id": "C39", "title": "Dropping bytes from a buffer sequence", "statement": "seq += n removes exactly the first min(n, size) bytes of the concatenation of the buffers and keeps all others in order.", "quantifier": "every sequence of buffers (including empty ones) and every n", "why_tests_cant": "All split points and empty-buffer placements.", "anchors": ["include/boost/cobalt/io/buffer.hpp: mutable_buffer_sequence::operator+=, const_buffer_sequence::operator+="]}
{"id": "C40", "title": "Buffer sequence iteration visits every buffer once, in order", "statement": "Iterating from begin() to end() of a buffer sequence visits the head and then each tail buffer once; distance, indexing and advance agree with each other; comparison agrees with position.", "quantifier": "every sequence length and every pair of iterators", "why_tests_cant": "Wrap-around of the offset affects all lengths.", "anchors": ["include/boost/cobalt/io/buffer.hpp: const_iterator"]}
{"id": "C41", "title": "read/write transfer everything or report why not", "statement": "io::read / io::write (and the _at forms) complete without error only when the whole buffer was transferred; the reported count is the number of bytes transferred; bytes go through in order, each exactly once, and the _at forms put byte i at offset+i.", "quantifier": "every buffer sequence, every sequence of partial transfers, errors and cancellations of the underlying stream", "why_tests_cant": "Every split of a transfer into partial steps.", "anchors": ["src/io/read.cpp", "src/io/write.cpp", "include/boost/cobalt/io/buffer.hpp"]}
{"id": "C42", "title": "Positioned file access uses the requested position", "statement": "read_some_at(offset)/write_some_at(offset) on a random_access_file transfers at `offset`, and seek on a stream_file reports the new position, on platforms without native asio files too.", "quantifier": "every offset and every current position", "why_tests_cant": "The fallback is not compiled where native asio files exist, and offset 0 works.", "anchors": ["src/io/random_access_file.cpp: initiate_async_read_some_at_helper lines 73-99", "src/io/stream_file.cpp: seek"]}
{"id": "C43", "title": "Endpoints round-trip", "statement": "An endpoint built from an IPv4, IPv6 or local address reads back the same address and port through get, and asking for another family yields nothing.", "quantifier": "every address, port and path of valid length, every host byte order", "why_tests_cant": "All addresses, ports, and path lengths.", "anchors": ["include/boost/cobalt/io/endpoint.hpp: make_endpoint_tag, get_endpoint_tag, get_if", "src/io/endpoint.cpp"]}
{"id": "C44", "title": "Endpoint sizes cover the stored address", "statement": "The size an endpoint reports to the system covers the whole stored address (including the terminated local path) and fits the storage.", "quantifier": "every address family and content", "why_tests_cant": "Path length is arbitrary.", "anchors": ["src/io/endpoint.cpp: tag_invoke(make_endpoint_tag) lines 36-50, 200-215", "include/boost/cobalt/io/endpoint.hpp: endpoint::resize"]}
{"id": "C45", "title": "Predefined protocols carry their own protocol number", "statement": "Each predefined ip protocol constant names the family, type and protocol its name says.", "quantifier": "every predefined constant", "why_tests_cant": "A wrong constant still works for defaulted sockets.", "anchors": ["include/boost/cobalt/io/endpoint.hpp: tcp, udp, icmp, ... static protocols"]}
{"id": "C46", "title": "Awaiting a thread never loses the wake-up", "statement": "co_await of a thread completes exactly once with the thread's outcome for every interleaving of the awaiting thread's steps and the finishing thread's steps.", "quantifier": "every interleaving of the two threads' atomic and lock-protected steps, every outcome", "why_tests_cant": "Thread interleavings are not controllable in tests.", "anchors": ["include/boost/cobalt/detail/thread.hpp", "src/thread.cpp: run_thread"]}
{"id": "C47", "title": "Awaiting a finished thread through as_tuple or twice is safe", "statement": "co_await as_tuple(thread) and awaiting an already finished thread give its outcome without reading a missing value.", "quantifier": "every outcome and every interleaving", "why_tests_cant": "Reading an empty optional usually appears to work.", "anchors": ["include/boost/cobalt/detail/thread.hpp: await_resume(as_tuple_tag)"]}
{"id": "C48", "title": "spawn completes its token once on the spawning executor", "statement": "spawn(ctx, task, token) invokes the completion exactly once with the task's exception or value, whether the task completes synchronously, later, or is destroyed.", "quantifier": "every behaviour of the task", "why_tests_cant": "Destroyed-before-completion and synchronous completion are separate paths.", "anchors": ["include/boost/cobalt/detail/spawn.hpp", "include/boost/cobalt/spawn.hpp"]}
{"id": "C49", "title": "run leaves the thread's environment as it was", "statement": "run(task) returns the task's value or throws its exception, and afterwards the thread's executor and default memory resource are what they were before, nested runs included.", "quantifier": "every nesting of run and every prior environment, set or unset", "why_tests_cant": "Nesting depth and prior environment are arbitrary.", "anchors": ["include/boost/cobalt/run.hpp", "src/this_thread.cpp"]}
{"id": "C50", "title": "co_main returns its value and stops on completion", "statement": "The process exit code is the value co_main returned; SIGINT and SIGTERM become total and terminal cancellation; once co_main has finished the event loop ends without touching the finished coroutine.", "quantifier": "every interleaving of signals with the completion of co_main", "why_tests_cant": "A signal arriving as co_main finishes cannot be timed in a test.", "anchors": ["src/main.cpp", "include/boost/cobalt/detail/main.hpp"]}
{"id": "C51", "title": "as_result and as_tuple agree with throwing awaits", "statement": "For a completion signature with leading error_code or exception_ptr, co_await throws exactly when that argument is set, as_result holds exactly the value or error a throwing await would give, and as_tuple gives all arguments unchanged.", "quantifier": "every completion signature shape and every argument values", "why_tests_cant": "All shapes and values.", "anchors": ["include/boost/cobalt/result.hpp: interpret_as_result, as_result_tag, as_tuple_tag"]}
{"id": "C52", "title": "Executor and allocator arguments are found wherever they are", "statement": "A coroutine with executor_arg (allocator_arg) in any position uses the argument following the first such tag, and otherwise the thread's default.", "quantifier": "every argument list", "why_tests_cant": "All positions and repetitions.", "anchors": ["include/boost/cobalt/detail/this_thread.hpp: get_executor_from_args, get_memory_resource_from_args"]}
{"id": "C53", "title": "throw_if_cancelled and reset work together", "statement": "An await in a coroutine with throw_if_cancelled enabled throws operation_aborted exactly when a cancellation passing its filter arrived since the last reset of the cancellation state; without it no await throws because of cancellation.", "quantifier": "every sequence of cancellations (any types), resets, toggles and awaits", "why_tests_cant": "Histories are unbounded.", "anchors": ["include/boost/cobalt/concepts.hpp: enable_awaitables", "include/boost/cobalt/this_coro.hpp: promise_cancellation_base, promise_throw_if_cancelled_base"]}
{"id": "C54", "title": "BOOST_COBALT_FOR over a channel reader sees every value", "statement": "A BOOST_COBALT_FOR over channel_reader(c) runs its body for every value written to c before close.", "quantifier": "every producer history and limit", "why_tests_cant": "Depends on close arriving while values are buffered.", "anchors": ["include/boost/cobalt/async_for.hpp", "include/boost/cobalt/channel.hpp: channel_reader::operator bool"]}
{"id": "C55", "title": "Coroutine handles are owned by exactly one place", "statement": "A suspended coroutine handed to the library is either resumed once or destroyed once, never both, across moves, resets, posts and drops of the owning handle.", "quantifier": "every sequence of operations on owning handles", "why_tests_cant": "All move/reset histories.", "anchors": ["include/boost/cobalt/unique_handle.hpp"]}
{"id": "C56", "title": "Cancelling a composed read or write ends it", "statement": "A cancellation of co_await io::read(...) or io::write(...) (and the _at forms) reaches the operation: it stops and reports operation_aborted with the number of bytes moved so far.", "quantifier": "every buffer, every stream behaviour, every cancellation", "why_tests_cant": "A cancellation can come between any two partial transfers.", "anchors": ["include/boost/cobalt/composition.hpp: composition_promise", "src/io/read.cpp", "src/io/write.cpp"]}
{"id": "C57", "title": "channel<void> conserves tokens for any number of producers and consumers", "statement": "On an open channel<void> the stored count never underflows and never exceeds the limit, and successful reads plus stored tokens plus tokens in flight equal the tokens written, however many coroutines read and write.", "quantifier": "every limit, any number of readers and writers, every schedule before close", "why_tests_cant": "Needs a reader posted by a write to be overtaken by another reader before it resumes.", "anchors": ["src/channel.cpp: channel<void>::read_op::await_resume, write_op::await_resume"]}
{"id": "C58", "title": "Frames of child coroutines are not used after they end", "statement": "While gather, join or race starts its children, no handle of a child coroutine is asked, resumed or destroyed after that child's frame has been destroyed.", "quantifier": "every number of awaitables, each ready, completing while being awaited, or completing later", "why_tests_cant": "Access to a destroyed frame in a monotonic buffer appears to work.", "anchors": ["include/boost/cobalt/detail/fork.hpp: final_awaitable, done", "include/boost/cobalt/detail/gather.hpp: await_ready", "include/boost/cobalt/detail/join.hpp: await_ready", "include/boost/cobalt/detail/race.hpp: await_ready, await_suspend"]}
{"id": "C59", "title": "A combinator is not touched after its awaiter was resumed", "statement": "Once the awaiter of a gather, join or race has been resumed, so that the awaitable may be gone, no loop of it (cancel_all, interrupt_await, forwarding of a cancellation) goes on.", "quantifier": "every number of awaitables, every order of completions, cancellations and interruptions, also nested", "why_tests_cant": "Needs the last child to complete inside a cancellation or interruption forwarded to it.", "anchors": ["include/boost/cobalt/detail/gather.hpp: interrupt_await, await_suspend", "include/boost/cobalt/detail/join.hpp: interrupt_await, await_suspend", "include/boost/cobalt/detail/race.hpp: interrupt_await, await_suspend"]}
{"id": "C60", "title": "A destroyed generator ends its coroutine", "statement": "Destroying a generator object destroys its coroutine at once if it is suspended at a yield, otherwise at its next suspension point or end; after that nothing is delivered to or by the body and no frame is leaked.", "quantifier": "every state of the generator and every continuation of its body", "why_tests_cant": "The executor may hold a posted resumption of the body when the object goes.", "anchors": ["include/boost/cobalt/detail/generator.hpp: ~generator_receiver, terminator, await_resume (posted lambda), unhandled_exception"]}
{"id": "C61", "title": "Copies of endpoints read as the original", "statement": "An endpoint constructed from another endpoint gives the same answers to get and reads the same address, port and path.", "quantifier": "every address family and content, const and non-const sources", "why_tests_cant": "Address content and path length are arbitrary; lost bytes often happen to be zero.", "anchors": ["include/boost/cobalt/io/endpoint.hpp: endpoint(OtherEndpoint &&), endpoint(const endpoint &)"]}
{"id": "C62", "title": "The coroutine of a thread is destroyed once and not used afterwards", "statement": "The body of a cobalt::thread starts once, after its initial suspension; when the thread and the object are gone its frame has been destroyed exactly once, and neither the frame nor memory of the thread's pool is used after it was released.", "quantifier": "every interleaving of the creating thread and the new one; bodies that suspend or not, return or throw, start other coroutines; objects kept or destroyed early", "why_tests_cant": "Unlocking a mutex in freed memory and leaks do not fail tests.", "anchors": ["src/thread.cpp: run_thread", "include/boost/cobalt/detail/thread.hpp: thread_promise", "include/boost/cobalt/thread.hpp: ~thread"]}
{"id": "C63", "title": "An upgraded ssl stream is encrypted", "statement": "After a successful handshake, and until a successful shutdown, every transfer on an ssl::stream goes through TLS, secure() is true, a handshake is refused with already_started and shutdown reaches OpenSSL; without one transfers are plain, secure() is false and shutdown is refused.", "quantifier": "every sequence of handshakes, shutdowns, transfers and queries, operations made and awaited in any order", "why_tests_cant": "No test of the repository looks at the bytes on the wire; a plaintext stream works with a plaintext peer.", "anchors": ["include/boost/cobalt/io/ssl.hpp: stream, handshake_op_, shutdown_op_", "src/io/ssl.cpp"]}
{"id": "C64", "title": "A sleep never ends early", "statement": "co_await sleep(d) is defined for every duration d and ends not before d has passed since the call; co_await sleep(tp) ends not before tp.", "quantifier": "every integral duration type, period and value, every clock value, every time between making and awaiting it", "why_tests_cant": "Durations of centuries cannot be waited for, and ones that overflow return at once.", "anchors": ["include/boost/cobalt/io/sleep.hpp", "src/io/sleep.cpp"]}
{"id": "C65", "title": "Waits on a timer end once and for a reason", "statement": "Every wait on a steady_timer or system_timer ends at most once: with success only when the expiry it was started with has been reached, with operation_aborted only after a cancel or reset; once the expiry is reached, or after a cancel or reset, none is left pending, and a wait on an expired timer does not suspend.", "quantifier": "every sequence of waits, cancellations, resets and changes of the clock, any number of waits", "why_tests_cant": "Histories are unbounded.", "anchors": ["src/io/steady_timer.cpp", "src/io/system_timer.cpp", "include/boost/cobalt/io/ops.hpp: wait_op"]}
{"id": "C66", "title": "Moved io objects use their own descriptor", "statement": "After a file, pipe, socket or ssl stream has been constructed or assigned by a move, every operation on the new object acts on the descriptor it took over, and none on the object it was moved from.", "quantifier": "every sequence of constructions, moves, assignments, opens, closes, queries and destructions of any number of objects of every class, with and without native files", "why_tests_cant": "The object moved from often lives on, and has the same state by chance, for as long as a test does.", "anchors": ["include/boost/cobalt/io/file.hpp: file_", "include/boost/cobalt/io/stream_file.hpp", "include/boost/cobalt/io/ssl.hpp: stream", "src/io/stream_file.cpp", "src/io/random_access_file.cpp", "src/io/stream_socket.cpp"]}
{"id": "C67", "title": "Every open descriptor is held exactly once", "statement": "Every descriptor opened by the library is held by exactly one object, or by the user after a release, until it is closed; a call that fails says so in the result it returns and has no effect on the objects.", "quantifier": "every sequence of opening, assigning, releasing, closing, connecting pipes and pairs, and every failure of the operating system or the reactor", "why_tests_cant": "Leaked descriptors do not fail tests, and failures of the reactor cannot be provoked.", "anchors": ["src/io/file.cpp: open, assign, release, close", "src/io/pipe.cpp: pipe", "src/io/socket.cpp: connect_pair"]}
{"id": "C68", "title": "Connecting completes endpoints, and only completes them", "statement": "Endpoints given to connect without a type or protocol get those of the class of the socket; what was given, the address family and the address stay as they were.", "quantifier": "every class of sockets, every list of endpoints, of every family, type and protocol", "why_tests_cant": "Platforms without SCTP are not tested; endpoints in tests are complete.", "anchors": ["src/io/stream_socket.cpp: adopt_endpoint_", "src/io/datagram_socket.cpp: adopt_endpoint_", "src/io/seq_packet_socket.cpp: adopt_endpoint_", "src/io/socket.cpp: connect"]}
{"id": "C69", "title": "A stackful coroutine behaves as a coroutine", "statement": "Resuming, destroying and asking done() of a coroutine made by make_context has the effects it has for a coroutine of the same promise with the same body: the same awaits suspend, exceptions of awaiters reach the body, local variables, promise and memory are destroyed once and in the same order, and done() is true at the final suspension.", "quantifier": "every promise type by what its initial and final awaiters do, every sequence of awaits in the body, every sequence of calls", "why_tests_cant": "Use of a freed stack does not fail tests, and the order of destruction is seldom observed.", "anchors": ["include/boost/cobalt/experimental/context.hpp: context_frame, make_context", "include/boost/cobalt/experimental/frame.hpp"]}
{"id": "C70", "title": "Every error of the library is an error, and its own", "statement": "The error_code of every cobalt::error is a failure, different errors have different codes and messages, and every exception the library makes for an error carries that error.", "quantifier": "every error, every pair of errors, every exception function, every number as argument of message", "why_tests_cant": "Tests look at the exception type, not at its code as a condition; a failed allocation is not tested.", "anchors": ["include/boost/cobalt/error.hpp", "src/error.cpp: make_error_code", "src/detail/exception.cpp"]}
{"id": "C71", "title": "An operation written as a coroutine completes once and cleans up", "statement": "An awaited operation whose initiate is a coroutine resumes the awaiting coroutine exactly once, with what the body returned or threw, or, if its pending operation is destroyed, destroys it; its own frame is destroyed exactly once, no freed memory is used and no exception goes elsewhere.", "quantifier": "every sequence of immediate and pending operations in the body, every outcome, completion or destruction at every point, frames of any size, immediate and posted self destruction", "why_tests_cant": "The memory used after being freed lies in a buffer which is usually still intact.", "anchors": ["include/boost/cobalt/composition.hpp: composition_promise", "include/boost/cobalt/op.hpp: awaitable", "include/boost/cobalt/detail/util.hpp: self_destroy", "src/detail/util.cpp"]}
{"id": "C72", "title": "A cancellation reaches the operation at the end of the awaits", "statement": "When a coroutine is cancelled that awaits another, which awaits another and so on, the operation the last one waits for is cancelled once, with the type as the filters on the way make it; every coroutine on the way sees the cancellation, no other does, and no signal of a coroutine that is gone is used.", "quantifier": "every history of calls, awaits, returns, yields, interruptions and changes of filters of any number of coroutines, chains of any length, every cancellation type, destructors of parameters that cancel", "why_tests_cant": "Tests cancel one level deep with default filters; destructors that cancel are not tested.", "anchors": ["include/boost/cobalt/detail/forward_cancellation.hpp", "include/boost/cobalt/detail/promise.hpp: awaitable, final_awaitable", "include/boost/cobalt/detail/task.hpp: awaitable, final_awaitable", "include/boost/cobalt/detail/generator.hpp: awaitable, final_awaitable"]}
{"id": "C73", "title": "A task can be spawned onto another thread", "statement": "Spawning a task on an executor that another thread runs is free of data races: every two accesses to the same memory resource by different threads are ordered by a happens-before relation.", "quantifier": "every interleaving of the spawning thread's further use of its memory resource with what the other thread does, the resource of the task and the allocator of the handler being the thread's pool or a shared one, completions handled on the spawning thread, on the other one, or not waited for", "why_tests_cant": "Races on a pool rarely show and tests run without a thread sanitizer.", "anchors": ["include/boost/cobalt/detail/spawn.hpp", "include/boost/cobalt/detail/wrapper.hpp: post_coroutine_promise", "include/boost/cobalt/this_coro.hpp: promise_memory_resource_base", "include/boost/cobalt/unique_handle.hpp: associator"]}
{"id": "C74", "title": "An acceptor can be opened, bound, listen and accept", "statement": "Every acceptor can be brought into the state where it listens by its public functions, the functions succeed in the order documented, and an accepted connection is given as a socket of the class that fits its protocol.", "quantifier": "every acceptor, made with or without an endpoint, every sequence of calls, every protocol", "why_tests_cant": "Tests only construct acceptors with an endpoint and accept the protocol they were made for.", "anchors": ["src/io/acceptor.cpp", "include/boost/cobalt/io/acceptor.hpp"]}
{"id": "C75", "title": "A coroutine that ends is destroyed once and its exception arrives at one place", "statement": "When a coroutine of any kind ends its frame is destroyed exactly once, its awaiter is resumed at most once, and an exception that ended it goes to its owner, or to whoever resumed it if there is none, and nowhere else.", "quantifier": "every kind of coroutine of the library, every history of detaching and awaiting before and after the end, ends by return and by exception", "why_tests_cant": "A leaked frame does not fail tests, and exceptions of detached coroutines are not tested.", "anchors": ["include/boost/cobalt/detail/promise.hpp: unhandled_exception, final_awaitable", "include/boost/cobalt/detail/task.hpp: unhandled_exception, final_awaitable", "include/boost/cobalt/detail/generator.hpp: unhandled_exception, final_awaitable", "include/boost/cobalt/detail/detached.hpp", "include/boost/cobalt/detail/with.hpp", "include/boost/cobalt/detail/fork.hpp", "include/boost/cobalt/detail/wrapper.hpp: post_coroutine_promise"]}
{"id": "C76", "title": "Destroying a channel destroys who waits for it, and returns", "statement": "The destructor of a channel returns and destroys every coroutine that waits for it exactly once and no other one; coroutines that are resumed later do not use the channel.", "quantifier": "every history of the channel before, any number of readers and writers, operations that live in the frame of the coroutine, of a child of a combinator, or in the combinator", "why_tests_cant": "Tests destroy channels that nobody waits for.", "anchors": ["include/boost/cobalt/impl/channel.hpp: ~channel", "src/channel.cpp: ~channel", "include/boost/cobalt/detail/fork.hpp: shared_state"]}
{"id": "C77", "title": "Every form of awaiting a join or race gives the outcome", "statement": "Awaiting a join or a race plainly, as a tuple or as a result gives the same outcome: the values if it succeeded, the exception of the child that failed if not, also when it is awaited while another exception is being handled.", "quantifier": "both combinators with fixed and with a range of arguments, with values and without, every outcome, with and without an exception that is being handled at the point of the await", "why_tests_cant": "Tests await with as_tuple only outside of handlers, and forms that do not compile cannot be tested.", "anchors": ["include/boost/cobalt/detail/join.hpp: await_resume", "include/boost/cobalt/detail/race.hpp: await_resume"]}
{"id": "C78", "title": "A combinator survives the destruction of its children", "statement": "Whatever mixture of children of a gather, join or race completes or is destroyed, no destroyed frame is used, the awaiter never reads a result that does not exist, and it is resumed or destroyed once when all children have ended.", "quantifier": "gather, join and race with any number of children, every history of completions, failures, destructions of children, cancellations and interruptions", "why_tests_cant": "Children are destroyed when a channel or the coroutine behind a promise goes; tests do not do that.", "anchors": ["include/boost/cobalt/detail/fork.hpp: shared_state", "include/boost/cobalt/detail/gather.hpp", "include/boost/cobalt/detail/join.hpp", "include/boost/cobalt/detail/race.hpp: interrupt_await"]}
{"id": "C79", "title": "Functions that return a result report in it what happened", "statement": "Every function of the io library that returns a result asks Asio or the system for what it is named after, returns the value it got, and returns every error in the result instead of throwing it or hiding it.", "quantifier": "all functions of the io library that return a system::result, with native files and without, every outcome of every call they make, every argument of the options of serial ports", "why_tests_cant": "Tests call few of the functions and hardly ever make them fail.", "anchors": ["src/io/socket.cpp", "src/io/serial_port.cpp", "src/io/signal_set.cpp", "src/io/file.cpp", "src/io/stream_file.cpp: seek", "src/io/pipe.cpp", "src/io/ssl.cpp: set_verify_depth, set_verify_mode", "src/io/acceptor.cpp: bind, listen"]}
{"id": "C80", "title": "Every documented use of with is accepted", "statement": "Every use of with compiles whose argument can be handed over, whose function can be called with a reference to it and gives an object or nothing, or an awaitable of that, and whose teardown can be called with the argument, or which has await_exit.", "quantifier": "all combinations of arguments that can be copied or only moved, given as lvalue or rvalue, functions that are awaited or not, results, and kinds of parameters of the teardown", "why_tests_cant": "What does not compile is not in a test suite.", "anchors": ["include/boost/cobalt/with.hpp", "include/boost/cobalt/detail/with.hpp: with_promise_value"]}
{"id": "C81", "title": "The coroutine of a with is destroyed once", "statement": "Whatever happens to a with and its awaiter, its frame is destroyed once, at the latest when its awaiter is gone, and the awaiter does not wait for a frame that was destroyed.", "quantifier": "every history of awaiting it or not, completions and destructions of the operations it waits for, and destructions of the awaiter", "why_tests_cant": "Tests await every with to its end.", "anchors": ["include/boost/cobalt/detail/with.hpp: with_impl"]}
{"id": "C82", "title": "A cancelled thread is told so, and what it used is freed", "statement": "Every call that cancels a thread is emitted on it, in the order of the calls, and when the thread has ended and its object and its awaiter are done the state they shared is freed.", "quantifier": "every history of cancelling a thread through its object and through the coroutine that awaits it, awaiting, detaching and destroying it, and of the steps of the thread", "why_tests_cant": "What is leaked is not seen by tests, and cancellations at the end of a thread are a matter of timing.", "anchors": ["include/boost/cobalt/thread.hpp: cancel, ~thread", "include/boost/cobalt/detail/thread.hpp: thread_awaitable", "src/thread.cpp: run_thread"]}
{"id": "C83", "title": "A generator that is moved goes on where it was", "statement": "Moving a generator or assigning it to another one changes nothing about what it gives: the object it was moved to goes on, the object it was moved from gives no value, and the generator that was assigned to is destroyed. Nothing undefined happens unless it does without the moves.", "quantifier": "every history of any number of generators that are awaited, interrupted, moved, assigned and destroyed, for Push void or not and whatever a move leaves of a value", "why_tests_cant": "Tests move a fresh generator at most; the state the objects and the frame point to each other in has to be right after every history.", "anchors": ["include/boost/cobalt/generator.hpp: operator=", "include/boost/cobalt/detail/generator.hpp: generator_receiver"]}
{"id": "C84", "title": "BOOST_COBALT_FOR over a generator sees every value and ends", "statement": "BOOST_COBALT_FOR over a generator runs its body with every value the generator gives, in order, each once. It ends normally exactly if the generator ended without an exception, throws that exception otherwise, and nothing else but an interruption throws. A loop that waits has seen every value. Once the generator has ended the loop ends after the values that are left.", "quantifier": "every interleaving of the loop, the body of the generator and the executor, for lazy and eager generators, with interruption, break and destruction", "why_tests_cant": "Depends on operator bool, the buffering of results and the posted resumption of the body agreeing in every interleaving; tests have one.", "anchors": ["include/boost/cobalt/async_for.hpp: BOOST_COBALT_FOR_IMPL", "include/boost/cobalt/generator.hpp: operator bool", "include/boost/cobalt/detail/generator.hpp: generator_receiver"]}
{"id": "C85", "title": "BOOST_COBALT_FOR over a promise runs its body once", "statement": "BOOST_COBALT_FOR over a promise that was not awaited runs its body exactly once, with the value the coroutine returned, and ends normally; if the coroutine throws the loop throws that exception and its body does not run. Nothing but an interruption throws otherwise, and a second loop over the promise ends at once.", "quantifier": "every history of any number of promises around and before the loop", "why_tests_cant": "Depends on operator bool being false exactly after the result was taken, whichever of the await and the end of the coroutine came first.", "anchors": ["include/boost/cobalt/async_for.hpp: BOOST_COBALT_FOR_IMPL", "include/boost/cobalt/promise.hpp: operator bool", "include/boost/cobalt/detail/promise.hpp: promise_receiver"]}
{"id": "C86", "title": "Headers can be included together, in any order", "statement": "Whatever headers of the library a translation unit includes, and in whatever order, it compiles and the declarations of each of them, and of all the headers they include, are there afterwards.", "quantifier": "every list of headers of the library", "why_tests_cant": "A test includes its headers in one order; a guard two headers share, or an include that goes round in a circle, shows in other orders and other combinations only.", "anchors": ["include/boost/cobalt.hpp", "include/boost/cobalt/io.hpp", "include/boost/cobalt/io/stream.hpp: include guard", "include/boost/cobalt/io/random_access_device.hpp: include guard", "include/boost/cobalt/channel.hpp: last include", "include/boost/cobalt/main.hpp: last include"]}
{"id": "C87", "title": "Whole buffers can be read from and written to every device", "statement": "io::read, io::write, io::read_at and io::write_at can be called with every device that has the member function read_some, write_some, read_some_at or write_some_at as declared by the abstract classes, and return the operation that is documented.", "quantifier": "every class with any member functions", "why_tests_cant": "A test calls the templates with the devices it knows; that a requirement excludes a device, or every device, shows only in calls no test makes.", "anchors": ["include/boost/cobalt/io/read.hpp: read, read_at", "include/boost/cobalt/io/write.hpp: write, write_at", "include/boost/cobalt/io/ops.hpp"]}
{"id": "C88", "title": "Combinators can be nested", "statement": "An expression of gather, join and race of any depth behaves as a whole as one of them does: its awaiter goes on once, when nothing below is awaited any more; as long as it waits, some awaitable at a leaf is being waited for; what it throws an awaitable at a leaf has thrown, and where there are joins only every failure is seen; and no run is undefined.", "quantifier": "every tree of combinators, all runs of events at its leaves, cancellations and interruptions", "why_tests_cant": "The number of trees and of orders of completion, cancellation and forwarding grows without bound; tests nest two by hand.", "anchors": ["include/boost/cobalt/detail/gather.hpp: await_suspend", "include/boost/cobalt/detail/join.hpp: await_suspend", "include/boost/cobalt/detail/race.hpp: await_suspend", "include/boost/cobalt/detail/fork.hpp: shared_state"]}
{"id": "C89", "title": "What a race takes reaches the awaiter", "statement": "In an expression made of races, of any depth, at most one awaitable takes a value out of a channel, and the value it takes is the result of the expression.", "quantifier": "every tree of races, all runs", "why_tests_cant": "It needs the value to be taken in the inner race while the outer one is still open and the cancelled awaitable has not completed yet; no test nests races of reads.", "anchors": ["include/boost/cobalt/detail/race.hpp: begin_transaction", "include/boost/cobalt/detail/fork.hpp: transactable_base", "include/boost/cobalt/impl/channel.hpp: read_op::await_suspend"]}
{"id": "C90", "title": "A race of channel operations loses nothing", "statement": "In a race of reads and writes of channels, at most one of the operations takes place, and it is the one the race reports. No value is taken and thrown away, no value is written unnoticed, and the other users of the channels are not disturbed.", "quantifier": "any number of channels in any state, any mix of reads and writes, all runs of the race and of the other users of the channels, cancellations and interruptions", "why_tests_cant": "It takes two or more channels with a waiting partner at the right moments; the tests race one read against a timer.", "anchors": ["include/boost/cobalt/detail/race.hpp: await_suspend", "include/boost/cobalt/detail/race.hpp: begin_transaction", "include/boost/cobalt/impl/channel.hpp: read_op::await_suspend", "include/boost/cobalt/impl/channel.hpp: write_op::await_suspend"]}
{"id": "C91", "title": "Waiting operations are served in the order they came", "statement": "On channel<T> and channel<void>, a read that has to wait is not served after a read that began to wait later, and likewise for writes, unless it is the later one that is cancelled or interrupted, or the channel is closed.", "quantifier": "every limit, any number of readers and writers, all runs", "why_tests_cant": "The tests have one reader and one writer; the order matters only with three or more operations on one side.", "anchors": ["include/boost/cobalt/impl/channel.hpp: read_op::await_suspend", "include/boost/cobalt/impl/channel.hpp: write_op::await_suspend", "include/boost/cobalt/channel.hpp: await_resume", "src/channel.cpp: await_resume"]}
{"id": "C92", "title": "Racing the same generators again and again loses nothing", "statement": "In a loop that awaits race(g1, ..., gn) over generators that live on, whatever a generator hands over to a race, other than the answer to an interruption, is what this race gives; so the values a generator yields are those of the races it wins, in order, and what it still holds.", "quantifier": "any number of generators, any order of asking in each race, all behaviours of the coroutines, cancellations and interruptions of the race from outside, any number of rounds", "why_tests_cant": "The tests race generators in one order of events; losing a value needs a generator that becomes ready while the race asks another one.", "anchors": ["include/boost/cobalt/detail/race.hpp: await_impl, await_suspend", "include/boost/cobalt/detail/generator.hpp: generator_receiver::awaitable", "doc/design/race.adoc"]}
{"id": "C93", "title": "Racing the same promises twice waits for both", "statement": "After co_await race(t1, t2) has been won by one promise, a second co_await race(t1, t2) is not won by the same promise; no value of a coroutine is given by two races or lost.", "quantifier": "both orders of asking, all moments at which the coroutines end", "why_tests_cant": "The tests await a race of promises once.", "anchors": ["include/boost/cobalt/detail/promise.hpp: promise_receiver::awaitable", "include/boost/cobalt/detail/race.hpp: await_impl", "doc/reference/race.adoc"]}
{"id": "C94", "title": "No coroutine of a wait_group outlives its with", "statement": "When co_await with(wait_group(), func) has ended, every coroutine that was added to the group has ended, whether func returned or threw; with ends as func did and as soon as they have ended; the coroutines running at the end of func are sent the cancellation set for this case.", "quantifier": "any number of coroutines, added by func or by each other at any time, all orders of ends, waits, reaps and cancellations", "why_tests_cant": "The tests add coroutines from func only and let all of them end at once.", "anchors": ["include/boost/cobalt/with.hpp: with, invoke_await_exit", "include/boost/cobalt/wait_group.hpp: await_exit", "include/boost/cobalt/detail/wait_group.hpp: gather_wrapper", "doc/reference/wait_group.adoc"]}
{"id": "C95", "title": "A chain of coroutines connected by channels delivers everything in order", "statement": "In a chain of coroutines, each reading from one channel and writing to the next, what arrives at the end are the first values put in, in order, each once. No channel does anything undefined, the chain does not block itself, holds a bounded number of values, and when every coroutine waits for more everything put in has arrived.", "quantifier": "any number of channels with any limits, all interleavings of the coroutines, of the executor, of cancellations, interruptions and close", "why_tests_cant": "The tests use one channel at a time, with fixed schedules.", "anchors": ["include/boost/cobalt/channel.hpp: channel::read_op, channel::write_op", "include/boost/cobalt/impl/channel.hpp: await_suspend, await_resume, close"]}
{"id": "C96", "title": "A race tries its awaitables in an evenly drawn order, left_race from left to right", "statement": "Whatever the random numbers are, race tries every awaitable at most once in an order that contains each; every order comes from exactly one sequence of draws, so any awaitable may be tried first and win. left_race asks awaitables from left to right: one that is ready when asked, or throws then, wins only if all on its left were asked before and said they were not ready.", "quantifier": "any number of awaitables, all draws, all histories of completions, cancellations and interruptions", "why_tests_cant": "The tests cannot see the distribution of orders, and use few awaitables that are ready at once.", "anchors": ["include/boost/cobalt/detail/race.hpp: race_variadic_impl::awaitable, race_ranged_impl::awaitable", "include/boost/cobalt/race.hpp: prng, race, left_race"]}
{"id": "C97", "title": "No consumer of a channel sleeps while a value is there, no producer while there is space", "statement": "However many operations use a channel: in every state in which nothing is scheduled, a suspended read means that the buffer is empty and no write is suspended, and a suspended write that the buffer is full and no read is suspended.", "quantifier": "any number of readers and writers, any capacity, all histories of reads, writes, cancellations, interruptions, destructions and closes", "why_tests_cant": "The tests have one reader and one writer at a time, and cancel none between its wake-up and its resumption.", "anchors": ["include/boost/cobalt/impl/channel.hpp: read_op::await_resume, write_op::await_resume, cancel_impl", "include/boost/cobalt/channel.hpp: channel"]}
{"id": "C98", "title": "No consumer of a channel<void> sleeps while a token is there, no producer while there is room", "statement": "However many operations use a channel<void>: in every state in which nothing is scheduled, a suspended read means that no token is stored and no write is suspended, and a suspended write that the counter is at the limit or above and no read is suspended.", "quantifier": "any number of readers and writers, any limit, all histories of reads, writes, cancellations, interruptions, destructions and closes", "why_tests_cant": "The tests have one reader and one writer at a time, and cancel none between its wake-up and its resumption; the counter never comes near its ends.", "anchors": ["src/channel.cpp: channel<void>::read_op::await_resume, channel<void>::write_op::await_resume", "include/boost/cobalt/impl/channel.hpp: channel<void>::read_op::cancel_impl"]}
{"id": "C99", "title": "A channel<void> can be used as a semaphore", "statement": "If coroutines come in with co_await sem.write() and leave with co_await sem.read() on a channel<void> of limit k, then at most k of them are inside at any time, and whenever nothing is scheduled and a coroutine waits to come in, at least k are inside.", "quantifier": "any number of coroutines that fits into a size_t, any limit, all interleavings, cancellations of waiting coroutines at any time", "why_tests_cant": "No test has two coroutines that contend for a channel<void> and go on after they got it.", "anchors": ["src/channel.cpp: channel<void>::read_op::await_resume, channel<void>::write_op::await_resume", "include/boost/cobalt/channel.hpp: channel<void>"]}
{"id": "C100", "title": "A read raced against a timer again and again loses nothing", "statement": "If a loop awaits race(read, timer.wait()) in every round, then between two rounds every message that has arrived has been given to the loop in order, or has not been taken from the stream (or is held by the promise, if the read is run by a promise that is kept).", "quantifier": "reads of one message and reads that fill a buffer, the operation itself or a promise that runs it, both orders of starting, completions while the operation is initiated, expired timers, all interleavings of arrivals, the system taking messages, the timer expiring and handlers being called", "why_tests_cant": "It takes a read and a timer that are done in the same pass of the event loop.", "anchors": ["include/boost/cobalt/detail/race.hpp: race_variadic_impl::awaitable::cancel_all, await_impl", "include/boost/cobalt/op.hpp: op::awaitable_base", "include/boost/cobalt/detail/promise.hpp: promise_receiver::awaitable::interrupt_await", "src/io/steady_timer.cpp: try_wait_", "src/io/read.cpp"]}
{"id": "C101", "title": "A loop that races a generator against a channel loses nothing", "statement": "If a loop awaits race(generator, channel.read()) in every round (the dispatcher of the tutorial ticker), then between two rounds every message that was yielded has been given to the loop in order or is held by the generator, and every value that the channel has taken over has been given to the loop or is in the buffer.", "quantifier": "every limit of the channel, both orders of starting, any number of writing coroutines, their cancellations, all interleavings of yields, writes and resumptions", "why_tests_cant": "A value is lost only if a message comes between a hand-over and the resumption of the read, or the message is ready and the shuffled order starts with the read.", "anchors": ["include/boost/cobalt/detail/race.hpp: race_variadic_impl::awaitable::cancel_all, await_impl", "include/boost/cobalt/impl/channel.hpp: channel::read_op::await_suspend, await_resume", "include/boost/cobalt/channel.hpp: read_op::interrupt_await", "include/boost/cobalt/detail/generator.hpp: generator_receiver::awaitable", "example/ticker.cpp: run_blockchain_info"]}
{"id": "C102", "title": "A pool of workers around a channel does every job once", "statement": "If any number of workers loop over co_await channel.read() and any number of producers write their jobs to the channel, all on one executor, and nobody is cancelled and nobody closes the channel, then nothing undefined happens and no job that a producer has written is lost: it has been given to one worker or is in the channel.", "quantifier": "every limit of the channel, every number of workers and producers, every number of jobs, all interleavings, coroutines that are suspended on something else between two operations", "why_tests_cant": "It fails only for a limit of at least one together with at least two coroutines on one side, and shows as a job that is done twice or not at all.", "anchors": ["include/boost/cobalt/impl/channel.hpp: channel::read_op::await_suspend, await_resume, channel::write_op::await_suspend, await_resume", "include/boost/cobalt/channel.hpp: channel"]}
{"id": "C103", "title": "A queue between two threads that is made awaitable loses nothing and never stands still", "statement": "If one coroutine on a thread of its own writes n values to the awaitable_spsc_queue of the spsc example and another one on another thread reads them, then for every interleaving of the two threads no value is read that was not written, every value is read once and in order, no assertion fails, and the two do not both stand still before all is read.", "quantifier": "every capacity, every number of values, every interleaving of the two threads at their accesses to the queue and to the two atomics", "why_tests_cant": "It needs the other thread to run between the test in await_ready and the store in await_suspend, or between the push and the exchange in await_resume: a few instructions in some hundred million operations.", "anchors": ["example/spsc.cpp: awaitable_spsc_queue::read_op::await_ready, await_suspend, await_resume, write_op::await_ready, await_suspend, await_resume, thr, co_main"]}
{"id": "C104", "title": "Awaiting a signal resumes the coroutine once and keeps it alive", "statement": "If coroutines await a signal by the awaitable of the signals example, every emission resumes each coroutine that waited when it began once with its value; no object is touched that no longer exists; no coroutine is destroyed while it waits unless the signal is destroyed; and destroying the signal destroys the ones that wait and touches nothing else.", "quantifier": "every number of coroutines, everything a resumed coroutine can do with its frame, nested emissions, destruction of the signal at any time", "why_tests_cant": "The example frees the frame before the slot lets go of the pointer into it, which goes unnoticed with an allocator that keeps memory; a loop around the co_await destroys the coroutine silently.", "anchors": ["example/signals.cpp: signal_awaitable::await_suspend, await_resume, intrusive_ptr_release, await_signal, co_main"]}
{"id": "C105", "title": "What an operation takes when it completes early is returned", "statement": "If operations that read from sources complete early by their ready function, then whatever they took is returned by the await that made them take it: with gather, join or race, of arguments or of a range, every value put into a source is returned once by one operation or is still in the source, and operations of a gather or join on the same source return its values in order.", "quantifier": "every number of operations and sources, every assignment of operations to sources, every content of the sources, everything that arrives later", "why_tests_cant": "The operations of the library have a ready function that can be called again without harm; tests of ranges use timers and channels.", "anchors": ["include/boost/cobalt/op.hpp: awaitable_base::await_ready", "include/boost/cobalt/detail/handler.hpp: handler::operator()", "include/boost/cobalt/detail/gather.hpp: gather_ranged_impl::awaitable", "include/boost/cobalt/detail/join.hpp: join_ranged_impl::awaitable", "include/boost/cobalt/detail/race.hpp: await_impl"]}
{"id": "C106", "title": "A server that limits its sessions by a wait_group keeps the limit and serves everybody", "statement": "If a server loops as the echo server or the ticker does - at the limit it awaits wait_one, otherwise it accepts a connection and adds a session to the group - then there are never more sessions than the limit; every connection gets one session, in the order of the connections; while fewer run than the limit allows the next connection is served after at most three turns of the server; it stands still with a connection pending only if as many sessions run as allowed; and it fails only with the exception of a session, reported by wait_one.", "quantifier": "both loops, every limit above 0, every interleaving of connections, turns of the server and ends of sessions, every order a race starts its branches in", "why_tests_cant": "Sessions that have ended and are still in the group count, so whether the server goes on depends on which ends are noticed when.", "anchors": ["example/echo_server.cpp: run_server", "example/ticker.cpp: co_main", "include/boost/cobalt/detail/wait_group.hpp: race_wrapper"]}
{"id": "C107", "title": "Python and a coroutine exchange values without losing any", "statement": "If a coroutine is made awaitable for Python as in the python example, every await of Python ends once, with what the coroutine makes next; async for runs its body with what the coroutine yields; nothing that is gone is touched and the frame is freed once; a coroutine that awaits a task of Python is resumed with the outcome of the task; and the coroutines it starts run on the loop that awaits it.", "quantifier": "every sequence of awaits, steps of the coroutine, callbacks, cancellations, tasks of Python and the end of the object", "why_tests_cant": "The example has no test; a cancelled await leaves a pointer to an object Python frees at a time of its choosing.", "anchors": ["example/python.cpp: py_coroutine::initiate, yield_value, return_value, unhandled_exception, final_suspend, done, py_awaitable::await_suspend, extract_result, __await_impl, __aiter_impl"]}
{"id": "C108", "title": "The frame and the stack of a stackful coroutine do not overlap, and a failure leaves nothing behind", "statement": "Whatever block the stack allocator gives to make_context, the frame with the promise lies in it, is aligned, and the stack of the fiber is all of the block that is below the frame; and if making the coroutine fails, nothing that was made for it remains.", "quantifier": "every address and size of the block, every size and alignment of the promise, every word size, and a failure of each step", "why_tests_cant": "Depends on where the allocator puts the block and on the size of the promise; failures of the steps are not provoked.", "anchors": ["include/boost/cobalt/experimental/context.hpp: make_context, stack_allocator, context_frame::destroy"]}
{"id": "C109", "title": "A chain of generators computes the composition of its stages", "statement": "If each generator of a chain loops over the one before with BOOST_COBALT_FOR, yields any number of values for each value, which may depend on those before, and returns a value at the end, then the loop over the last generator sees the composition of these stages on what the first did: in order, nothing lost or doubled, with its end or its exception. The chain comes to rest, then the last loop has seen all; if no stage leaves values out, the first generator is ahead of it by one value and one for each eager generator before the last at most; a chain of lazy generators does nothing before it is asked.", "quantifier": "every length of the chain, all stages (maps, filters, folds, expansions), every choice of lazy and eager generators, every order in which the coroutines and the executor go on", "why_tests_cant": "The coroutines and what was posted to the executor interleave in many orders, and tests have one generator.", "anchors": ["include/boost/cobalt/async_for.hpp: BOOST_COBALT_FOR", "include/boost/cobalt/detail/generator.hpp: generator_receiver, generator_yield_awaitable, generator_promise"]}
{"id": "C110", "title": "A network of coroutines and channels is deterministic", "statement": "If coroutines only read, write and close channels, every channel has one reader and one writer and only the writer closes it, then what a coroutine sees does not depend on the executor nor on the limits of the channels: of two histories of a coroutine one continues the other. If the network comes to rest once, it always does, after boundedly many steps and with the same results; with smaller limits no coroutine gets further. At rest every coroutine has finished, or reads from an open channel of which it has had everything, or writes to an open channel that is full.", "quantifier": "any number of coroutines and channels, all programs, all limits, every order in which the coroutines and the executor go on", "why_tests_cant": "It is about all programs and all interleavings; tests run a few programs in the one order the executor happens to choose.", "anchors": ["include/boost/cobalt/channel.hpp: channel", "include/boost/cobalt/impl/channel.hpp: read_op, write_op, close"]}
{"id": "C111", "title": "A network of coroutines and channels without cycles does not get stuck", "statement": "If the channels of a network (one reader and one writer each, closed only by the writer) form a forest, then when it comes to rest all coroutines have stopped, or one waits for a coroutine that has stopped. If moreover every coroutine closes what it writes to and reads the rest to the end, then all have stopped, the results are the same with any limits of the channels, and coming to rest with some limits means coming to rest with all.", "quantifier": "all forests, all programs, all limits including 0, every order in which the coroutines and the executor go on", "why_tests_cant": "A deadlock needs a particular program, limit and order; that there is none is about all of them.", "anchors": ["include/boost/cobalt/channel.hpp: channel", "include/boost/cobalt/impl/channel.hpp: read_op, write_op, close"]}
{"id": "C112", "title": "Coroutines that start others and await them compute what they would one after the other", "statement": "Let coroutines returning promises be arbitrary programs that start further such coroutines (recursion included), await operations, and await every promise they hold exactly once before they end, by value or exception. Then in every order of events what happens to each coroutine is what happens when every awaited coroutine is run by itself. The outcome is unique, no coroutine is cancelled or destroyed on the way, when nothing can happen any more all have ended and no frame or promise is left over, and if the sequential computation ends, every history ends after boundedly many steps with its outcome.", "quantifier": "all programs and arguments, any number and depth of coroutines, every order in which coroutines go on and operations complete", "why_tests_cant": "The orders of events and the trees of coroutines are unbounded; tests run a few of them.", "anchors": ["include/boost/cobalt/promise.hpp: promise", "include/boost/cobalt/detail/promise.hpp: promise_receiver, cobalt_promise"]}
{"id": "C113", "title": "Trees of coroutines that are cancelled or abandoned come to an end and leave nothing behind", "statement": "Let coroutines returning promises be arbitrary programs that start further such coroutines, keep their promises as local variables, await them or not, and await operations. Whenever the first coroutine is cancelled or its promise destroyed: nothing undefined happens, no coroutine is destroyed while it runs, a promise is destroyed exactly when the coroutine that holds it ends, a coroutine whose promise was destroyed is cancelled, cancellation reaches what a cancelled coroutine waits for and nobody else, no coroutine waits for ever for another, if no coroutine goes on for ever when its awaits throw then cancelled coroutines and operations alone bring all to an end after finitely many steps, and the frame of every ended coroutine is freed and no exception leaves the executor.", "quantifier": "all programs and arguments, any number and depth of coroutines, every order of events, any time of cancellation or destruction", "why_tests_cant": "The trees and the moments at which they may be cancelled are unbounded; tests cancel a few fixed trees at a few moments.", "anchors": ["include/boost/cobalt/promise.hpp: promise", "include/boost/cobalt/detail/promise.hpp: promise_receiver, cobalt_promise", "include/boost/cobalt/detail/forward_cancellation.hpp: forward_cancellation", "include/boost/cobalt/this_coro.hpp: promise_cancellation_base"]}
{"id": "C114", "title": "What is written to a channel is the value that was passed, and a variable passed as an lvalue keeps its value", "statement": "Let a program write variables to any number of channels with any of the four overloads of write. If nobody assigns or writes a variable while a coroutine waits in a write of it, then every value taken from a write, and so every value a reader gets, is the one that was in the variable when the write was made; a write that fails leaves the value in the variable; and a variable loses its value only if it was written as an rvalue, as in write(std::move(x)).", "quantifier": "all limits, all numbers of channels and variables, all programs of writes, reads, assignments, cancellations, interruptions and closes", "why_tests_cant": "Which operation takes the value out of the variable, and when, depends on the interleaving of readers and writers; tests write literals or trivially copyable values, which a move does not change.", "anchors": ["include/boost/cobalt/channel.hpp: channel::write, channel::write_op", "include/boost/cobalt/impl/channel.hpp: channel::read_op::await_suspend, channel::write_op::await_suspend, channel::write_op::await_resume"]}
{"id": "C115", "title": "Coroutines that hand over to each other use a bounded stack", "statement": "Coroutines are made, begin at once or when awaited, hand over to each other by await_suspend and final_suspend, resume each other, suspend and end, in any order. At any time the stack of the thread holds at most one activation of each coroutine that has not ended, however often they have handed over to each other; and when none of them runs the executor has the thread.", "quantifier": "any number of coroutines, stackful (make_context) or not, every sequence of hand-overs of any length", "why_tests_cant": "Stack overflow needs thousands of hand-overs without a wait in between; tests hand over a few times.", "anchors": ["include/boost/cobalt/experimental/context.hpp: context_frame::resume, context_frame::do_resume, context_frame::do_await", "include/boost/cobalt/detail/generator.hpp: generator_receiver::awaitable, generator_receiver::yield_awaitable", "include/boost/cobalt/detail/task.hpp: task_receiver::awaitable, task_promise::final_awaitable"]}
{"id": "C116", "title": "A hub that writes to the channels of its sessions serves every session", "statement": "One coroutine takes updates and subscriptions and writes every update to the channel of each session that is still there; the sessions read their channels, and leave when they want. Every session gets the updates since its subscription, from the first on, in order and each once; and whatever has happened, as long as the hub and the sessions go on, every session that is still there gets every one of them.", "quantifier": "any number of sessions, any limit of the channels, every sequence of updates, subscriptions, reads and sessions that leave, every order of the executor", "why_tests_cant": "The example has no test; a session that leaves while the hub waits for it needs a full channel and a failing socket at the same time.", "anchors": ["example/ticker.cpp: handle_update, handle_new_subscription, run_blockchain_info, run_session", "include/boost/cobalt/impl/channel.hpp: channel::write_op::await_suspend, channel::read_op::await_suspend"]}
{"id": "C117", "title": "Calls handed to threads through channels return to their caller", "statement": "Coroutines on one thread hand calls to worker threads: they send a request with a pointer to a channel of their own and receive the answer from that channel. They are awaited by join. Every coroutine gets the answers to its own calls, in order and each once, and no exception but that of its own call; nothing is used after it has been destroyed; nobody waits for ever, and when all coroutines have ended the workers end.", "quantifier": "any number of coroutines, calls and workers, every call returns or throws, every interleaving of the threads", "why_tests_cant": "In the example no call throws, and whether a worker is slow depends on the scheduling of threads.", "anchors": ["example/thread.cpp: worker, work, co_main", "include/boost/cobalt/detail/join.hpp: join_variadic_impl::awaitable::cancel_all, join_variadic_impl::awaitable::await_impl"]}
{"id": "C118", "title": "Io operations can be awaited again", "statement": "An io operation can be kept, changed and awaited again. The loop of the documentation, which drops the bytes moved from the buffer of the operation and awaits it again until nothing is moved, moves every byte of the buffer once, in order and to its position, and ends. A composed operation that failed continues where it stopped when it is awaited again, and an operation that succeeded does the same again.", "quantifier": "any buffer sequence, any offset, every behaviour of a device that reports no more than it was given, any number of awaits", "why_tests_cant": "No test awaits an io operation twice; devices of the tests move everything at once.", "anchors": ["doc/reference/io/ops.adoc: The ops can be reused", "include/boost/cobalt/io/ops.hpp: write_op, read_op, write_at_op, read_at_op", "src/io/write.cpp: write_all::initiate, write_all_at::initiate", "src/io/read.cpp: read_all::initiate, read_all_at::initiate", "include/boost/cobalt/op.hpp: op::operator co_await"]}
{"id": "C119", "title": "A consumer that reads while the channel is open gets everything", "statement": "A producer writes values to a channel and closes it, a consumer reads while the channel is open, as in the example of the documentation. The consumer gets every value, in order, and its loop ends without an exception.", "quantifier": "any number of values, any limit of the channel", "why_tests_cant": "The example has no buffer and four values; no test closes a channel after the last value in this way.", "anchors": ["example/channel.cpp: producer, co_main", "doc/reference/channel.adoc: channel_example", "include/boost/cobalt/impl/channel.hpp: channel::close, read_op::await_resume, write_op::await_resume"]}
{"id": "C120", "title": "A coroutine that takes a cancellation source hears what is emitted on it", "statement": "A detached coroutine that awaits reset_cancellation_source(slot) hears every cancellation emitted on that source from then until it takes another or ends, as its filters make it; the operation it waits for is told, nobody else is, cancelled and throw_if_cancelled see what was heard last since the source was taken or the state reset, and nothing is used that is gone.", "quantifier": "any number of coroutines and signals, every history of taking, leaving, resetting, awaiting, emitting (any types) and destroying signals", "why_tests_cant": "The tests never pass a slot to reset_cancellation_source; sources shared by coroutines or destroyed before them do not occur.", "anchors": ["include/boost/cobalt/this_coro.hpp: promise_cancellation_base::reset_cancellation_source", "include/boost/cobalt/detail/detached.hpp: await_transform", "include/boost/cobalt/concepts.hpp: enable_awaitables", "doc/reference/detached.adoc: my_task"]}
{"id": "C121", "title": "Coroutines on strands can be run by several threads", "statement": "When several threads run a context, no two threads are in the same coroutine at a time, nor in two coroutines of the same strand, whichever way the coroutines were started; every coroutine ends.", "quantifier": "any number of threads, coroutines, strands and operations, coroutines that are spawned or called by a thread, every interleaving of the threads with the completions", "why_tests_cant": "The race needs a completion between two instructions of await_suspend; the test waits 50 ms for its timers.", "anchors": ["include/boost/cobalt/op.hpp: await_suspend", "include/boost/cobalt/detail/handler.hpp: completion_handler::operator()", "include/boost/cobalt/detail/spawn.hpp: async_initiate_spawn", "example/thread_pool.cpp", "test/strand.cpp"]}
{"id": "C122", "title": "Name resolution", "statement": "A co_await of resolve or lookup gives the endpoints of the texts that were passed in the call, in the order of the co_awaits, and aborts if the coroutine or the resolver is cancelled before the result is there; it always ends, and nothing is undefined.", "quantifier": "any number of resolvers, lookups and texts, texts that change or go away at any time, every order of calls, awaits, cancellations, destructions and steps of the resolving thread", "why_tests_cant": "test/io/lookup.cpp makes one lookup with string literals and needs a network; nothing is cancelled or stored.", "anchors": ["include/boost/cobalt/io/resolver.hpp", "src/io/resolver.cpp", "doc/reference/io/resolver.adoc", "test/io/lookup.cpp"]}
{"id": "C123", "title": "Nested withs and cancellation", "statement": "Every argument of a with is torn down exactly once, after everything that was opened later, completely unless the operations of the teardown fail by themselves, however the coroutine is cancelled; the first exception is the one that is passed on; it ends when its operations do.", "quantifier": "every nesting and sequence of withs and operations, every number of operations in teardowns, cancellations and failures at any operation", "why_tests_cant": "test/with.cpp has single withs and no cancellation; the loss needs a cancellation that comes when an operation is already complete.", "anchors": ["include/boost/cobalt/with.hpp", "include/boost/cobalt/detail/with.hpp", "include/boost/cobalt/concepts.hpp: enable_awaitables::await_transform", "doc/reference/with.adoc", "example/ticker.cpp"]}
{"id": "C124", "title": "A channel can hold a pool of objects", "statement": "Objects are kept in a channel whose limit is at least their number; coroutines read one to take it and write it to bring it back, and may be cancelled while they wait. Nothing undefined happens, every object is always with one coroutine or once in the channel, bringing one back never waits, and nobody waits while an object lies in the channel and nothing is scheduled.", "quantifier": "any limit, any number of coroutines, any sequence of taking, bringing back, cancelling and running what is scheduled in any order", "why_tests_cant": "The tests have one reader and one writer; a reader that is overtaken between its wake-up and its resumption needs a third operation in between.", "anchors": ["include/boost/cobalt/channel.hpp: channel", "include/boost/cobalt/impl/channel.hpp: read_op::await_suspend, read_op::await_resume, write_op::await_resume"]}
{"id": "C125", "title": "Whole reads and writes of files move every byte to its place", "statement": "io::write puts every byte of its buffers into the file at the position, in order, and nothing else; io::read and io::read_at bring the bytes of the file into the buffers, in order, and report eof exactly if the file ends before the buffers are full. What was written is read back after seeking, and a loop of read_some and write copies a file.", "quantifier": "any file, position, offset and sequence of buffers, however the device splits the transfers", "why_tests_cant": "The tests of files move a few bytes at once into one buffer; no test sees a device that moves fewer bytes than it could.", "anchors": ["src/io/read.cpp: read_all::initiate, read_all_at::initiate", "src/io/write.cpp: write_all::initiate", "src/io/stream_file.cpp: initiate_read_some_, initiate_write_some_, seek", "src/io/random_access_file.cpp: initiate_async_read_some_at_helper"]}
{"id": "C126", "title": "Buffer sequences are values", "statement": "A buffer sequence covers the bytes of the buffers it was made of, in order, and keeps the identity of a registered buffer. A copy is the same value, += n drops the first n bytes, and what happens to the array a sequence was made of does not matter to it; so an operation can be kept and started later. No use of a sequence is undefined.", "quantifier": "any program that makes, copies, advances and looks at any number of sequences, with and without io_uring", "why_tests_cant": "The tests use one buffer at a time, in one expression, and are not built with io_uring; no test keeps an operation whose array is gone.", "anchors": ["include/boost/cobalt/io/buffer.hpp: mutable_buffer_sequence, const_buffer_sequence, operator+=, is_registered, visit", "include/boost/cobalt/io/ops.hpp: read_op, write_op"]}
{"id": "C127", "title": "Semaphores taken in order do not deadlock", "statement": "Coroutines use several channels of void as semaphores. If each takes them in increasing order, gives back what it took, and nobody is cancelled, then in every state in which somebody has not finished, some coroutine can go on or some resumption is posted; every run ends, after at most two events for each command, with everybody finished and nothing held.", "quantifier": "any number of coroutines and semaphores, any capacities from one up, any ordered programs, any schedule of the coroutines and of the posted resumptions", "why_tests_cant": "The tests use one channel at a time with two coroutines; a deadlock depends on several channels and on the schedule.", "anchors": ["include/boost/cobalt/impl/channel.hpp: channel<void>::read_op::await_suspend, write_op::await_suspend, await_resume", "include/boost/cobalt/channel.hpp: channel<void>"]}
{"id": "C128", "title": "Nobody starves at a semaphore", "statement": "Coroutines use a channel of void as a semaphore. While a coroutine waits to come in with p others before it in line, w others woken but not yet inside and e more inside than there are places, at most 2p + w + e places are given back, whatever the others do and whoever is cancelled; with the next place given back it is woken. If nobody comes in past those that wait, at most p places are given back.", "quantifier": "any capacity, any number of coroutines below 2^64, any history before and after, with cancellations", "why_tests_cant": "The tests never have more than one waiter, and overtaking depends on the schedule.", "anchors": ["src/channel.cpp: channel<void>::read_op::await_suspend", "include/boost/cobalt/impl/channel.hpp: channel<void>::write_op::await_suspend, await_resume, cancel_impl"]}
{"id": "C129", "title": "The echo server sends back what it receives, and stops", "statement": "In the echo server of the examples what a session has sent back is always the beginning of what its client has sent; a session that ends because its client has finished has sent everything back; as long as kernel and executor can do anything the session moves on, and otherwise it has sent everything back and waits for the client; a session that is cancelled comes to its end by itself, so that the server can stop.", "quantifier": "any number of sessions, any size of the buffer, any pieces in which bytes arrive and leave, errors and cancellations at any time", "why_tests_cant": "The example is not run by the tests, and clients that do not read while the server stops are not tried.", "anchors": ["example/echo_server.cpp: echo, run_server", "src/io/write.cpp: write_all::initiate", "include/boost/cobalt/composition.hpp: composition_promise", "include/boost/cobalt/concepts.hpp: enable_awaitables::await_transform"]}
{"id": "C130", "title": "A semaphore can be waited for with a timeout", "statement": "A coroutine that races the write to a channel<void> used as a semaphore against a timer is inside exactly if the race says so: whoever gave up holds no place. Giving up and trying again brings it in if a place is free and concerns nobody else, and whoever gives up is not in the way of those who wait: nobody waits with nothing scheduled while a place is free.", "quantifier": "any number of places and coroutines, every history of coming, leaving, resumptions and expired timers", "why_tests_cant": "A timer that expires between the wake-up and the resumption is hardly ever hit by a test.", "anchors": ["include/boost/cobalt/channel.hpp: channel<void>::write_op::interrupt_await", "src/channel.cpp: write_op::await_resume", "include/boost/cobalt/detail/race.hpp: cancel_all, await_impl"]}
{"id": "C131", "title": "Several coroutines can wait for one wait_group", "statement": "Any number of coroutines can await wait and wait_one of the same wait_group at the same time: each of them goes on when what it waits for has happened, none is destroyed or told that another one waits, and no promise is destroyed before its coroutine has ended.", "quantifier": "every group, every number of waits of both kinds that overlap in any way, every history of members that are added and end", "why_tests_cant": "The tests have one coroutine per group; what happens depends on which wait ends first.", "anchors": ["include/boost/cobalt/detail/wait_group.hpp: gather_wrapper, race_wrapper", "include/boost/cobalt/detail/promise.hpp: await_ready, await_resume", "include/boost/cobalt/detail/fork.hpp: shared_state destructor"]}
{"id": "C132", "title": "Signals are not lost", "statement": "A coroutine that waits for the signals of a signal_set, in a loop or in races, is told of every signal that comes to the set, once and in the order the signals came, whether it waits when the signal comes or later.", "quantifier": "every number of sets and coroutines, every history of signals, waits, races, cancellations and changes of the sets", "why_tests_cant": "The tests send no signals to a signal_set; races that a signal nearly wins, and signals that come between two waits, depend on timing.", "anchors": ["include/boost/cobalt/io/signal_set.hpp: wait_op_, wait", "src/io/signal_set.cpp: add, remove, clear, cancel, wait_op_::initiate", "include/boost/cobalt/detail/race.hpp: cancel_all"]}
{"id": "C133", "title": "Channels are at least as good as meetings, and channels of limit 0 just as good", "statement": "In a network of coroutines and channels (one reader and one writer each, closed only by the writer), everything happens that could happen if readers and writers met in some order, and with limits 0 nothing else. So if there is one order of meetings in which all coroutines finish, then all finish with the same results whatever the limits are and whatever the executor does; and conversely. A barrier made of channels lets nobody go before everybody has come, and keeps nobody for ever.", "quantifier": "all programs, cyclic ones included, all limits including 0, every order in which the coroutines and the executor go on, any number of participants and rounds of the barrier", "why_tests_cant": "That no order of resumptions leads into a deadlock, with any limits, is about infinitely many runs; a test with a buffer may pass where a smaller one deadlocks.", "anchors": ["include/boost/cobalt/channel.hpp: channel", "include/boost/cobalt/impl/channel.hpp: read_op, write_op, close"]}
{"id": "C134", "title": "A channel is a buffer of limited size, whatever the executor does", "statement": "In a network of coroutines and channels (one reader and one writer each, closed only by the writer) with any limits, something that should never happen never happens if and only if it never happens with plain buffers of these sizes, into which a write puts a value if there is room and from which a read takes the oldest. Where the network comes to rest is where nothing can happen with buffers any more; and if there is one order in which all coroutines finish with buffers, then all finish with channels of these limits or higher ones, in every history.", "quantifier": "all programs, all limits including 0, every order in which the coroutines and the executor go on", "why_tests_cant": "The queues of waiting operations, the posted resumptions and the direct switches from one coroutine to another must be invisible in every interleaving.", "anchors": ["include/boost/cobalt/channel.hpp: channel", "include/boost/cobalt/impl/channel.hpp: read_op, write_op, close"]}
{"id": "C135", "title": "channel<void> is channel<T> without the values", "statement": "The two implementations of the channel, one with a ring buffer and one with a counter, do the same: with the same limit and the same operations awaited, cancelled, interrupted, resumed and destroyed, the same operations wait in the same order, the same resumptions are posted and every operation ends with the same result.", "quantifier": "all limits a std::size_t can hold, all histories with any number of readers and writers, cancellations, interruptions and transactions", "why_tests_cant": "The test suite has separate tests for the two; none compares them, and the number of histories is infinite.", "anchors": ["include/boost/cobalt/impl/channel.hpp: read_op, write_op", "src/channel.cpp: channel<void>::read_op, write_op, close"]}
{"id": "C136", "title": "Networks of coroutines that synchronise with channel<void>", "statement": "In a network of coroutines that read and write channel<void> (one reader and one writer each, never closed) nothing is undefined, no channel holds more tokens than its limit and every operation that ends succeeds. Where the network comes to rest does not depend on the executor; larger limits get nobody less far. At rest a coroutine that waits to read has read as often as was written, one that waits to write has written as often as was read and the limit on top. If readers and writers could meet in some order until everybody has stopped, there is no deadlock with any limits.", "quantifier": "all programs, cyclic ones included, any number of coroutines and channels, all limits a std::size_t can hold, every order in which the coroutines and the executor go on", "why_tests_cant": "That no order of resumptions leads into a deadlock or past the limit is about infinitely many runs, programs and limits.", "anchors": ["include/boost/cobalt/channel.hpp: channel<void>", "src/channel.cpp: read_op, write_op"]}
{"id": "C137", "title": "channel<void> is a counter between 0 and its limit", "statement": "What a network of coroutines can do with channel<void> is what it can do with counters: a write adds one if the limit is not reached, a read takes one away, and at 0 a reader and a writer can meet. How far the coroutines get at rest is the farthest they get with counters; whatever bound on their progress holds with counters holds with channels and conversely. There is no deadlock with any limits if and only if readers and writers can meet, in some order, until everybody has stopped.", "quantifier": "all programs with one reader and one writer per channel and without close, all limits a std::size_t can hold, every order in which the coroutines and the executor go on", "why_tests_cant": "It equates two infinite sets of runs, for all programs and limits.", "anchors": ["include/boost/cobalt/channel.hpp: channel<void>", "src/channel.cpp: read_op, write_op"]}
