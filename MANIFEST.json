{
 "claims": [
  {
   "property": "C01",
   "status": "partial",
   "theorems": [
    "Cobalt.Chan.C01_no_ub_partial",
    "Cobalt.Chan.C01_rendezvous_partial",
    "Cobalt.Chan.C01_success_means_handed_partial",
    "Cobalt.Chan.C01_no_deadlock",
    "Cobalt.Chan.C01_late_write_asserts",
    "Cobalt.Chan.C01_order",
    "Cobalt.Chan.C01_assert_exact",
    "Cobalt.Chan.C01_exact"
   ],
   "note": "Order and at-most-once hold for every schedule without undefined behaviour (C01_order). A write that reports success was handed to a read, and no assertion fails, exactly if no write made before close is awaited after it (C01_exact, C01_assert_exact). Undefined behaviour is unreachable if interrupted operations are destroyed at once (Tidy); C01_late_write_asserts and C09_interrupted_is_resumed show the code violates it otherwise."
  },
  {
   "property": "C02",
   "status": "partial",
   "theorems": [
    "Cobalt.Chan.C02_no_ub_partial",
    "Cobalt.Chan.C02_fifo_partial",
    "Cobalt.Chan.C02_late_write_loses_value",
    "Cobalt.Chan.C02_interrupted_ub",
    "Cobalt.Chan.C02_exact"
   ],
   "note": "One reader, one writer, up to undefined behaviour: first in first out holds exactly if no write made before close is awaited after it while the buffer is full (C02_exact). Undefined behaviour is unreachable if interrupted operations are destroyed at once; C02_late_write_loses_value and C02_interrupted_ub show the code violates it otherwise."
  },
  {
   "property": "C03",
   "status": "proved",
   "theorems": [
    "Cobalt.Chan.C03_limit",
    "Cobalt.Chan.C03_full_suspends",
    "Cobalt.Chan.C03_full_waits"
   ],
   "note": ""
  },
  {
   "property": "C04",
   "status": "proved",
   "theorems": [
    "Cobalt.Chan.C04_no_invention",
    "Cobalt.Chan.C04_one_result"
   ],
   "note": ""
  },
  {
   "property": "C05",
   "status": "partial",
   "theorems": [
    "Cobalt.Chan.C05_value_lost",
    "Cobalt.Chan.C05_woken_reader_finds_nothing",
    "Cobalt.Chan.C05_kept_partial",
    "Cobalt.Chan.C05_exact",
    "Cobalt.Chan.C05_when",
    "Cobalt.Chan.C05_woken_read_exact",
    "Cobalt.Chan.C05_woken_write_exact",
    "Cobalt.Chan.C05_ub_only",
    "Cobalt.Chan.C05_room",
    "Cobalt.Chan.C05_turns_partial",
    "Cobalt.Chan.C05_turns_defined_partial"
   ],
   "note": "Violated by the code with several producers or consumers; the exact theorems say when a value is lost and when undefined behaviour is reached; nothing is lost if nobody begins an operation while another was woken and not resumed yet (C05_turns_partial)."
  },
  {
   "property": "C06",
   "status": "proved",
   "theorems": [
    "Cobalt.Chan.C06_failed_write",
    "Cobalt.Chan.C06_failed_read_had_nothing",
    "Cobalt.Chan.C06_failures_keep_buffer",
    "Cobalt.Chan.C06_only_reads_consume"
   ],
   "note": ""
  },
  {
   "property": "C07",
   "status": "proved",
   "theorems": [
    "Cobalt.Chan.C07_nothing_left",
    "Cobalt.Chan.C07_close_closes",
    "Cobalt.Chan.C07_all_end",
    "Cobalt.Chan.C07_no_suspend",
    "Cobalt.Chan.C07_queued_write",
    "Cobalt.Chan.C07_queued_read",
    "Cobalt.Chan.C07_aborted_means_buffered",
    "Cobalt.Chan.C07_drain"
   ],
   "note": ""
  },
  {
   "property": "C08",
   "status": "partial",
   "theorems": [
    "Cobalt.Chan.C08_late_write_succeeds",
    "Cobalt.Chan.C08_write_after_close_partial",
    "Cobalt.Chan.C08_exact"
   ],
   "note": "Violated by the code for writes made before close and awaited after it; C08_exact says what every late write reports and does to the buffer."
  },
  {
   "property": "C09",
   "status": "partial",
   "theorems": [
    "Cobalt.Chan.C09_interrupted_is_resumed",
    "Cobalt.Chan.C09_tidy_partial",
    "Cobalt.Chan.C09_cancel_unlinks",
    "Cobalt.Chan.C09_stays",
    "Cobalt.Chan.C09_write_exact",
    "Cobalt.Chan.C09_read_exact"
   ],
   "note": "Violated by the code: interrupt_await leaves the operation queued; the exact theorems say when awaiting an operation resumes a null coroutine."
  },
  {
   "property": "C10",
   "status": "partial",
   "theorems": [
    "Cobalt.Chan.C10_no_lost_wakeup_partial",
    "Cobalt.Chan.C10_violated"
   ],
   "note": "For every schedule that has not reached undefined behaviour; C10_violated: an interrupted read left in the queue makes a write post a null handle instead of waking the read behind it."
  },
  {
   "property": "C100",
   "status": "partial",
   "theorems": [
    "Cobalt.Tmo.C100_exact",
    "Cobalt.Tmo.C100_count",
    "Cobalt.Tmo.C100_kept",
    "Cobalt.Tmo.C100_partial",
    "Cobalt.Tmo.C100_violated",
    "Cobalt.Tmo.C100_buffer_violated",
    "Cobalt.Tmo.C100_deaf_waits"
   ],
   "note": "Missing: holds for a promise that is kept, and for a read of one message that is taken in one go with the call of its handler. Otherwise violated by the code: a read that is cancelled drops what it has taken, and io::read is not cancelled at all, so that the race ends when the buffer is full and then drops it; C100_exact says when."
  },
  {
   "property": "C101",
   "status": "partial",
   "theorems": [
    "Cobalt.Disp.C101_msgs",
    "Cobalt.Disp.C101_count",
    "Cobalt.Disp.C101_exact",
    "Cobalt.Disp.C101_partial",
    "Cobalt.Disp.C101_room",
    "Cobalt.Disp.C101_defined",
    "Cobalt.Disp.C101_violated"
   ],
   "note": "Missing: holds for the messages (C101_msgs), and for the values of the channel if no session waits whenever the race is awaited, in particular if the limit is not less than the number of writes (C101_room). Otherwise violated by the code; C101_exact says when."
  },
  {
   "property": "C102",
   "status": "partial",
   "theorems": [
    "Cobalt.Pool.C102_exact",
    "Cobalt.Pool.C102_simple_exact",
    "Cobalt.Pool.C102_partial",
    "Cobalt.Pool.C102_fails",
    "Cobalt.Pool.C102_unbuffered",
    "Cobalt.Pool.C102_pair",
    "Cobalt.Pool.C102_no_worker",
    "Cobalt.Pool.C102_no_producer",
    "Cobalt.Pool.C102_once",
    "Cobalt.Pool.C102_done",
    "Cobalt.Pool.C102_violated"
   ],
   "note": "Missing: holds exactly for channels without a buffer, for one worker and one producer, and if there is nobody on one side (C102_exact). Otherwise violated by the code even in the simplest schedule (C102_simple_exact)."
  },
  {
   "property": "C103",
   "status": "partial",
   "theorems": [
    "Cobalt.Lfq.C103_exact",
    "Cobalt.Lfq.C103_sizes",
    "Cobalt.Lfq.C103_sizes_fine",
    "Cobalt.Lfq.C103_stale",
    "Cobalt.Lfq.C103_fine",
    "Cobalt.Lfq.C103_missed",
    "Cobalt.Lfq.C103_dead",
    "Cobalt.Lfq.C103_order",
    "Cobalt.Lfq.C103_assert",
    "Cobalt.Lfq.C103_ends",
    "Cobalt.Lfq.C103_partial",
    "Cobalt.Lfq.C103_all_partial",
    "Cobalt.Lfq.C103_violated"
   ],
   "note": "Missing: violated by the code for every number of values but 0 (C103_sizes); C103_exact says which interleavings are right."
  },
  {
   "property": "C104",
   "status": "partial",
   "theorems": [
    "Cobalt.Sig.C104_safe_exact",
    "Cobalt.Sig.C104_example_violated",
    "Cobalt.Sig.C104_loop_violated",
    "Cobalt.Sig.C104_honest_partial",
    "Cobalt.Sig.C104_served_partial",
    "Cobalt.Sig.C104_first_exact",
    "Cobalt.Sig.C104_overtaken_violated",
    "Cobalt.Sig.C104_kill",
    "Cobalt.Sig.C104_ended"
   ],
   "note": "Missing: violated by the code, also by the example itself; C104_safe_exact says which runs are right, and C104_first_exact which awaits return the value of the first emission."
  },
  {
   "property": "C105",
   "status": "partial",
   "theorems": [
    "Cobalt.Early.C105_kept_partial",
    "Cobalt.Early.C105_exact",
    "Cobalt.Early.C105_loss",
    "Cobalt.Early.C105_range_violated",
    "Cobalt.Early.C105_order_partial",
    "Cobalt.Early.C105_order_exact",
    "Cobalt.Early.C105_race_one",
    "Cobalt.Early.C105_served"
   ],
   "note": "Missing: violated by gather and join of a range; C105_exact says for which contents of the sources they are right, and C105_loss how much they lose."
  },
  {
   "property": "C106",
   "status": "proved",
   "theorems": [
    "Cobalt.Limit.C106_limit",
    "Cobalt.Limit.C106_order",
    "Cobalt.Limit.C106_prompt",
    "Cobalt.Limit.C106_progress",
    "Cobalt.Limit.C106_stop_exact",
    "Cobalt.Limit.C106_alive"
   ],
   "note": ""
  },
  {
   "property": "C107",
   "status": "partial",
   "theorems": [
    "Cobalt.Py.C107_safe_exact",
    "Cobalt.Py.C107_safe_violated",
    "Cobalt.Py.C107_safe_partial",
    "Cobalt.Py.C107_exact",
    "Cobalt.Py.C107_arrives_partial",
    "Cobalt.Py.C107_lost_violated",
    "Cobalt.Py.C107_once",
    "Cobalt.Py.C107_answered_partial",
    "Cobalt.Py.C107_stop_never",
    "Cobalt.Py.C107_frame",
    "Cobalt.Py.C107_task_exact",
    "Cobalt.Py.C107_task_violated",
    "Cobalt.Py.C107_hung_violated",
    "Cobalt.Py.C107_for_exact",
    "Cobalt.Py.C107_for_throws",
    "Cobalt.Py.C107_for_violated",
    "Cobalt.Py.C107_loop_exact",
    "Cobalt.Py.C107_loop_violated",
    "Cobalt.Py.C107_done_exact",
    "Cobalt.Py.C107_done_violated"
   ],
   "note": "Missing: violated by the code in five ways; the theorems named exact say when."
  },
  {
   "property": "C108",
   "status": "partial",
   "theorems": [
    "Cobalt.Ctx.C108_layout_exact",
    "Cobalt.Ctx.C108_layout_partial",
    "Cobalt.Ctx.C108_small_violated",
    "Cobalt.Ctx.C108_given_back",
    "Cobalt.Ctx.C108_failure_exact",
    "Cobalt.Ctx.C108_leak_violated",
    "Cobalt.Ctx.C108_made"
   ],
   "note": "Missing: violated by the code for blocks smaller than the frame and when a step after the allocation fails; the theorems named exact say when."
  },
  {
   "property": "C109",
   "status": "proved",
   "theorems": [
    "Cobalt.Gen.Chain.C109_safe",
    "Cobalt.Gen.Chain.C109_stages",
    "Cobalt.Gen.Chain.C109_proper",
    "Cobalt.Gen.Chain.C109_exact",
    "Cobalt.Gen.Chain.C109_bounded",
    "Cobalt.Gen.Chain.C109_rests",
    "Cobalt.Gen.Chain.C109_ahead",
    "Cobalt.Gen.Chain.C109_lazy",
    "Cobalt.Gen.Chain.C109_steps"
   ],
   "note": ""
  },
  {
   "property": "C11",
   "status": "proved",
   "theorems": [
    "Cobalt.VChan.C11_tokens",
    "Cobalt.VChan.C11_tidy_defined",
    "Cobalt.VChan.C11_interrupted_is_resumed"
   ],
   "note": "Undefined behaviour is excluded for Tidy programs (C11_tidy_defined); C11_interrupted_is_resumed shows it happens otherwise (the defect of C09)."
  },
  {
   "property": "C110",
   "status": "proved",
   "theorems": [
    "Cobalt.Net.C110_safe",
    "Cobalt.Net.C110_stream",
    "Cobalt.Net.C110_determined",
    "Cobalt.Net.C110_rest",
    "Cobalt.Net.C110_unique",
    "Cobalt.Net.C110_final",
    "Cobalt.Net.C110_ends",
    "Cobalt.Net.C110_reaches",
    "Cobalt.Net.C110_rest_iff",
    "Cobalt.Net.C110_why",
    "Cobalt.Net.C110_close_needed",
    "Cobalt.Net.C110_results",
    "Cobalt.Net.C110_stops"
   ],
   "note": ""
  },
  {
   "property": "C111",
   "status": "proved",
   "theorems": [
    "Cobalt.Net.C111_stuck",
    "Cobalt.Net.C111_finishes",
    "Cobalt.Net.C111_limits",
    "Cobalt.Net.C111_always",
    "Cobalt.Net.C111_polite_needed",
    "Cobalt.Net.C111_cycle_needed"
   ],
   "note": ""
  },
  {
   "property": "C112",
   "status": "proved",
   "theorems": [
    "Cobalt.Fork.C112_safe",
    "Cobalt.Fork.C112_sound",
    "Cobalt.Fork.C112_result",
    "Cobalt.Fork.C112_held",
    "Cobalt.Fork.C112_unique",
    "Cobalt.Fork.C112_rest",
    "Cobalt.Fork.C112_ends",
    "Cobalt.Fork.C112_ends_conv",
    "Cobalt.Fork.C112_await_needed",
    "Cobalt.Fork.C112_once_needed"
   ],
   "note": ""
  },
  {
   "property": "C113",
   "status": "partial",
   "theorems": [
    "Cobalt.Tree.C113_violated",
    "Cobalt.Tree.C113_partial",
    "Cobalt.Tree.C113_exact",
    "Cobalt.Tree.C113_frames",
    "Cobalt.Tree.C113_orphans",
    "Cobalt.Tree.C113_scope",
    "Cobalt.Tree.C113_told",
    "Cobalt.Tree.C113_cause",
    "Cobalt.Tree.C113_rest",
    "Cobalt.Tree.C113_winddown",
    "Cobalt.Tree.C113_stops",
    "Cobalt.Tree.C113_retry"
   ],
   "note": "the frame of a coroutine that throws after its promise was destroyed is lost and the exception leaves the executor; exact: only then"
  },
  {
   "property": "C114",
   "status": "partial",
   "theorems": [
    "Cobalt.Own.C114_violated",
    "Cobalt.Own.C114_partial",
    "Cobalt.Own.C114_faithful",
    "Cobalt.Own.C114_exact",
    "Cobalt.Own.C114_failed"
   ],
   "note": "write(T &) keeps a T* and moves from it, so co_await a.write(x); co_await b.write(x); sends a moved-from value to b; exact: a variable loses its value exactly when a write of it by write(T &) or write(T &&) is taken"
  },
  {
   "property": "C115",
   "status": "partial",
   "theorems": [
    "Cobalt.Stk.C115_violated",
    "Cobalt.Stk.C115_partial",
    "Cobalt.Stk.C115_exact",
    "Cobalt.Stk.C115_loop",
    "Cobalt.Stk.C115_tasks",
    "Cobalt.Stk.C115_returns"
   ],
   "note": "a stackful coroutine that hands over keeps its activation: context_frame::resume calls await_suspend(h).resume() and returns after that only; exact: the depth is the number of busy coroutines and of such activations"
  },
  {
   "property": "C116",
   "status": "partial",
   "theorems": [
    "Cobalt.Hub.C116_violated",
    "Cobalt.Hub.C116_partial",
    "Cobalt.Hub.C116_exact",
    "Cobalt.Hub.C116_safe",
    "Cobalt.Hub.C116_stream",
    "Cobalt.Hub.C116_rest",
    "Cobalt.Hub.C116_stuck",
    "Cobalt.Hub.C116_why",
    "Cobalt.Hub.C116_ends"
   ],
   "note": "a session that leaves while the hub waits for it stops the hub for ever; exact: the sessions can be served exactly when the hub does not wait for one that is gone"
  },
  {
   "property": "C117",
   "status": "partial",
   "theorems": [
    "Cobalt.Rpc.C117_violated",
    "Cobalt.Rpc.C117_partial",
    "Cobalt.Rpc.C117_exact",
    "Cobalt.Rpc.C117_why",
    "Cobalt.Rpc.C117_right",
    "Cobalt.Rpc.C117_rest",
    "Cobalt.Rpc.C117_ends",
    "Cobalt.Rpc.C117_results"
   ],
   "note": "when a call throws join cancels the other coroutines, which end and destroy the channels that workers still have pointers to; exact: possible whenever one coroutine fails and another one has a call to make (two workers or more)"
  },
  {
   "property": "C118",
   "status": "partial",
   "theorems": [
    "Cobalt.Io.C118_violated",
    "Cobalt.Io.C118_spent",
    "Cobalt.Io.C118_loop_violated",
    "Cobalt.Io.C118_loop",
    "Cobalt.Io.C118_loop_ends",
    "Cobalt.Io.C118_loop_exact",
    "Cobalt.Io.C118_partial",
    "Cobalt.Io.C118_resume_exact"
   ],
   "note": "a composed operation that succeeded moves nothing when awaited again; the printed loop leaves the offset of the _at forms where it is; bytes of a failing transfer are moved again"
  },
  {
   "property": "C119",
   "status": "partial",
   "theorems": [
    "Cobalt.Loop.C119_violated",
    "Cobalt.Loop.C119_exact",
    "Cobalt.Loop.C119_when",
    "Cobalt.Loop.C119_example",
    "Cobalt.Loop.C119_partial"
   ],
   "note": "with a buffer the channel is closed while values are in it, and is_open() is false; exact: how many of the values arrive, and for which numbers and limits all do"
  },
  {
   "property": "C12",
   "status": "partial",
   "theorems": [
    "Cobalt.VChan.C12_stored_token_lost",
    "Cobalt.VChan.C12_handed_token_lost",
    "Cobalt.VChan.C12_no_read_after_close",
    "Cobalt.VChan.C12_queued_write",
    "Cobalt.VChan.C12_exact",
    "Cobalt.VChan.C12_open_partial"
   ],
   "note": "Violated by the code: after close every read reports broken_pipe."
  },
  {
   "property": "C120",
   "status": "partial",
   "theorems": [
    "Cobalt.Src.C120_violated",
    "Cobalt.Src.C120_lost_violated",
    "Cobalt.Src.C120_exact",
    "Cobalt.Src.C120_told",
    "Cobalt.Src.C120_honest",
    "Cobalt.Src.C120_partial",
    "Cobalt.Src.C120_doc"
   ],
   "note": "a source has room for one coroutine, which keeps a pointer into it: one whose source is taken by another or destroyed uses freed memory at its next await"
  },
  {
   "property": "C121",
   "status": "partial",
   "theorems": [
    "Cobalt.Strand.C121_violated",
    "Cobalt.Strand.C121_both_violated",
    "Cobalt.Strand.C121_exact",
    "Cobalt.Strand.C121_one",
    "Cobalt.Strand.C121_strand",
    "Cobalt.Strand.C121_ends",
    "Cobalt.Strand.C121_partial",
    "Cobalt.Strand.C121_started"
   ],
   "note": "a coroutine called outside of its strand may be resumed while the thread that called it is still in await_suspend"
  },
  {
   "property": "C122",
   "status": "partial",
   "theorems": [
    "Cobalt.Resv.C122_violated",
    "Cobalt.Resv.C122_text_violated",
    "Cobalt.Resv.C122_deaf_violated",
    "Cobalt.Resv.C122_late_violated",
    "Cobalt.Resv.C122_ub",
    "Cobalt.Resv.C122_exact",
    "Cobalt.Resv.C122_order",
    "Cobalt.Resv.C122_ends",
    "Cobalt.Resv.C122_deaf",
    "Cobalt.Resv.C122_partial"
   ],
   "note": "an operation that is stored refers to texts and a resolver that may be gone; cancelling the coroutine has no effect"
  },
  {
   "property": "C123",
   "status": "partial",
   "theorems": [
    "Cobalt.Nest.C123_violated",
    "Cobalt.Nest.C123_doc_violated",
    "Cobalt.Nest.C123_cut_violated",
    "Cobalt.Nest.C123_exact",
    "Cobalt.Nest.C123_lifo",
    "Cobalt.Nest.C123_first",
    "Cobalt.Nest.C123_ends",
    "Cobalt.Nest.C123_whole",
    "Cobalt.Nest.C123_partial"
   ],
   "note": "await_transform throws in a cancelled coroutine after the coroutine of with has been made, which is then lost with its argument"
  },
  {
   "property": "C124",
   "status": "partial",
   "theorems": [
    "Cobalt.Objs.C124_violated",
    "Cobalt.Objs.C124_asleep_violated",
    "Cobalt.Objs.C124_own",
    "Cobalt.Objs.C124_exact",
    "Cobalt.Objs.C124_late",
    "Cobalt.Objs.C124_served_partial",
    "Cobalt.Objs.C124_partial"
   ],
   "note": "a read that was woken takes a value without looking whether another one was quicker; exact: the event at which it becomes undefined and the states from which it can no longer be avoided"
  },
  {
   "property": "C125",
   "status": "partial",
   "theorems": [
    "Cobalt.File.C125_read",
    "Cobalt.File.C125_write",
    "Cobalt.File.C125_back",
    "Cobalt.File.C125_read_at",
    "Cobalt.File.C125_copy",
    "Cobalt.File.C125_violated",
    "Cobalt.File.C125_exact",
    "Cobalt.File.C125_partial",
    "Cobalt.File.C125_fails"
   ],
   "note": "without native files a whole read at an offset returns wrong bytes without an error; exact: at the start of a file it is right for every split only up to two bytes; the rest holds"
  },
  {
   "property": "C126",
   "status": "partial",
   "theorems": [
    "Cobalt.BufVal.C126_exact",
    "Cobalt.BufVal.C126_value_partial",
    "Cobalt.BufVal.C126_partial",
    "Cobalt.BufVal.C126_single_partial",
    "Cobalt.BufVal.C126_union_violated",
    "Cobalt.BufVal.C126_registered_partial",
    "Cobalt.BufVal.C126_gone_violated",
    "Cobalt.BufVal.C126_put_violated",
    "Cobalt.BufVal.C126_violated",
    "Cobalt.BufVal.C126_union_array"
   ],
   "note": "a sequence of more than one buffer refers to the array it was made of; with io_uring the inactive member of a union is read by every copy of a plain sequence; exact: undefined iff one of these happens; values otherwise"
  },
  {
   "property": "C127",
   "status": "proved",
   "theorems": [
    "Cobalt.Dead.C127_holds",
    "Cobalt.Dead.C127_finished",
    "Cobalt.Dead.C127_no_deadlock",
    "Cobalt.Dead.C127_bound",
    "Cobalt.Dead.C127_end",
    "Cobalt.Dead.C127_needs_order",
    "Cobalt.Dead.C127_needs_room"
   ],
   "note": "the order and a place in each semaphore are needed (C127_needs_order, C127_needs_room); with cancellation see C99_asleep_violated"
  },
  {
   "property": "C128",
   "status": "proved",
   "theorems": [
    "Cobalt.Lock.C128_holds",
    "Cobalt.Lock.C128_woken",
    "Cobalt.Lock.C128_polite"
   ],
   "note": "the bound 2p is reached when those woken are overtaken (C99_two_inside shows the overtaking); the examples reach both bounds"
  },
  {
   "property": "C129",
   "status": "partial",
   "theorems": [
    "Cobalt.Echo.C129_echo_partial",
    "Cobalt.Echo.C129_kept",
    "Cobalt.Echo.C129_bound",
    "Cobalt.Echo.C129_rest",
    "Cobalt.Echo.C129_violated",
    "Cobalt.Echo.C129_exact",
    "Cobalt.Echo.C129_late",
    "Cobalt.Echo.C129_server",
    "Cobalt.Echo.C129_server_stops"
   ],
   "note": "a session that is sending does not hear that it is cancelled (C129_violated): it ends by itself exactly if the client has taken the answer (C129_exact), and so does the server (C129_server_stops)"
  },
  {
   "property": "C13",
   "status": "partial",
   "theorems": [
    "Cobalt.Comb.C13_resume_once",
    "Cobalt.Comb.C13_instant",
    "Cobalt.Comb.C13_all_done",
    "Cobalt.Comb.C13_defined",
    "Cobalt.Comb.C13_defined_alone",
    "Cobalt.Comb.C13_empty"
   ],
   "note": "Holds for every run without undefined behaviour; gather and join of nothing are undefined."
  },
  {
   "property": "C130",
   "status": "partial",
   "theorems": [
    "Cobalt.Lock.C130_partial",
    "Cobalt.Lock.C130_exact",
    "Cobalt.Lock.C130_told",
    "Cobalt.Lock.C130_retry",
    "Cobalt.Lock.C130_heals",
    "Cobalt.Lock.C130_violated"
   ],
   "note": "violated by the code if the timer expires between the wake-up and the resumption: the next in line is not woken (C130_violated); C130_exact says exactly when somebody is left asleep, C130_heals that one round of giving up and trying again repairs it; the other parts hold"
  },
  {
   "property": "C131",
   "status": "partial",
   "theorems": [
    "Cobalt.Shared.C131_partial",
    "Cobalt.Shared.C131_exact",
    "Cobalt.Shared.C131_account",
    "Cobalt.Shared.C131_two",
    "Cobalt.Shared.C131_wait",
    "Cobalt.Shared.C131_violated",
    "Cobalt.Shared.C131_undefined",
    "Cobalt.Shared.C131_undefined_exact",
    "Cobalt.Shared.C131_reap"
   ],
   "note": "violated by the code: a promise has one awaiter, and a wait that ends clears the group and destroys whoever else waits (C131_violated), or the behaviour is undefined (C131_undefined); C131_exact says exactly which events go wrong, C131_two that of two pending waits only one can end"
  },
  {
   "property": "C132",
   "status": "partial",
   "theorems": [
    "Cobalt.SigSet.C132_partial",
    "Cobalt.SigSet.C132_exact",
    "Cobalt.SigSet.C132_order_exact",
    "Cobalt.SigSet.C132_awake",
    "Cobalt.SigSet.C132_signal",
    "Cobalt.SigSet.C132_cancel",
    "Cobalt.SigSet.C132_main",
    "Cobalt.SigSet.C132_violated",
    "Cobalt.SigSet.C132_twice_violated",
    "Cobalt.SigSet.C132_order_violated",
    "Cobalt.SigSet.C132_slot",
    "Cobalt.SigSet.C132_reason"
   ],
   "note": "violated: a race that something else wins drops a signal that has come (C132_violated), several coroutines that wait are all told of one signal (C132_twice_violated), and a signal with a lower number overtakes (C132_order_violated); C132_exact and C132_order_exact say exactly when no signal is lost or doubled and when the order is kept"
  },
  {
   "property": "C133",
   "status": "proved",
   "theorems": [
    "Cobalt.Net.C133_least",
    "Cobalt.Net.C133_most",
    "Cobalt.Net.C133_exact",
    "Cobalt.Net.C133_finishes",
    "Cobalt.Net.C133_iff",
    "Cobalt.Net.C133_barrier",
    "Cobalt.Net.C133_barrier_finishes",
    "Cobalt.Net.C133_buffers",
    "Cobalt.Net.C133_any",
    "Cobalt.Net.C133_decides"
   ],
   "note": ""
  },
  {
   "property": "C134",
   "status": "proved",
   "theorems": [
    "Cobalt.Net.C134_least",
    "Cobalt.Net.C134_most",
    "Cobalt.Net.C134_reach",
    "Cobalt.Net.C134_safety",
    "Cobalt.Net.C134_exact",
    "Cobalt.Net.C134_meets",
    "Cobalt.Net.C134_finishes"
   ],
   "note": ""
  },
  {
   "property": "C135",
   "status": "partial",
   "theorems": [
    "Cobalt.Same.C135_lockstep_partial",
    "Cobalt.Same.C135_results_partial",
    "Cobalt.Same.C135_onto",
    "Cobalt.Same.C135_close",
    "Cobalt.Same.C135_one_one",
    "Cobalt.Same.C135_rendezvous",
    "Cobalt.Same.C135_violated_close",
    "Cobalt.Same.C135_violated_two_readers",
    "Cobalt.Same.C135_violated_late_write",
    "Cobalt.Same.C135_after_close",
    "Cobalt.Same.C135_exact",
    "Cobalt.Same.C135_exact_late",
    "Cobalt.Same.C135_turns_partial"
   ],
   "note": "They do the same until the channel is closed, and for one producer and one consumer or for limit 0; after close they go on doing the same exactly when no value was left in the channel (C135_exact, no late writes); where channel<T> asserts or is undefined they differ."
  },
  {
   "property": "C136",
   "status": "proved",
   "theorems": [
    "Cobalt.VNet.C136_safe",
    "Cobalt.VNet.C136_ok",
    "Cobalt.VNet.C136_why",
    "Cobalt.VNet.C136_rest",
    "Cobalt.VNet.C136_unique",
    "Cobalt.VNet.C136_reaches",
    "Cobalt.VNet.C136_meets",
    "Cobalt.VNet.C136_finishes",
    "Cobalt.VNet.C136_meets_needed"
   ],
   "note": ""
  },
  {
   "property": "C137",
   "status": "proved",
   "theorems": [
    "Cobalt.VNet.C137_reach",
    "Cobalt.VNet.C137_most",
    "Cobalt.VNet.C137_safety",
    "Cobalt.VNet.C137_exact",
    "Cobalt.VNet.C137_meets",
    "Cobalt.VNet.C137_iff"
   ],
   "note": ""
  },
  {
   "property": "C14",
   "status": "proved",
   "theorems": [
    "Cobalt.Comb.C14_gather",
    "Cobalt.Comb.C14_no_cancel"
   ],
   "note": "For runs without undefined behaviour, see C13_defined and C59."
  },
  {
   "property": "C15",
   "status": "proved",
   "theorems": [
    "Cobalt.Comb.C15_join"
   ],
   "note": "For runs without undefined behaviour, see C13_defined and C59."
  },
  {
   "property": "C16",
   "status": "partial",
   "theorems": [
    "Cobalt.Comb.C16_cancel_partial",
    "Cobalt.Comb.C16_started",
    "Cobalt.Comb.C16_start_exact",
    "Cobalt.Comb.C16_start_violated"
   ],
   "note": "Awaitables are still started after a failure."
  },
  {
   "property": "C17",
   "status": "partial",
   "theorems": [
    "Cobalt.Comb.C17_interrupt_partial",
    "Cobalt.Comb.C17_ranged_exact",
    "Cobalt.Comb.C17_ranged_violated",
    "Cobalt.Comb.C17_uninterruptible_violated"
   ],
   "note": "Violated by the ranged join, C17_ranged_exact says exactly what that does, and for awaitables without interrupt_await."
  },
  {
   "property": "C18",
   "status": "partial",
   "theorems": [
    "Cobalt.Comb.C18_race_partial",
    "Cobalt.Comb.C18_race_values",
    "Cobalt.Comb.C18_report",
    "Cobalt.Comb.C18_exact",
    "Cobalt.Comb.C18_variadic_exact",
    "Cobalt.Comb.C18_void_violated",
    "Cobalt.Comb.C18_mixed_violated",
    "Cobalt.Comb.C18_ranged_void_violated"
   ],
   "note": "Violated by the code when void awaitables fail."
  },
  {
   "property": "C19",
   "status": "partial",
   "theorems": [
    "Cobalt.Comb.C19_losers_partial",
    "Cobalt.Comb.C19_late_violated",
    "Cobalt.Comb.C19_thrown_violated",
    "Cobalt.Comb.C19_exact"
   ],
   "note": "Violated by the code for awaitables started late and for winners that throw while being started; C19_exact says who is told: exactly those suspended before an awaitable completes or the first transaction begins."
  },
  {
   "property": "C20",
   "status": "partial",
   "theorems": [
    "Cobalt.Comb.C20_as_tuple_violated",
    "Cobalt.Comb.C20_as_tuple_partial",
    "Cobalt.Comb.C20_report",
    "Cobalt.Comb.C20_exact"
   ],
   "note": "Violated by the code whenever the winner fails."
  },
  {
   "property": "C21",
   "status": "partial",
   "theorems": [
    "Cobalt.Comb.C21_forward_partial",
    "Cobalt.Comb.C21_gather",
    "Cobalt.Comb.C21_only",
    "Cobalt.Comb.C21_transaction_violated",
    "Cobalt.Comb.C21_second_violated",
    "Cobalt.Comb.C21_race_exact"
   ],
   "note": "Holds for gather; join and race do not forward to awaitables they have cancelled or that are in a transaction; C21_race_exact says for a race who is sent the cancellation."
  },
  {
   "property": "C22",
   "status": "partial",
   "theorems": [
    "Cobalt.Group.C22_wait_one_partial",
    "Cobalt.Group.C22_pending",
    "Cobalt.Group.C22_not_lost",
    "Cobalt.Group.C22_each_once",
    "Cobalt.Group.C22_failed_again",
    "Cobalt.Group.C22_violated",
    "Cobalt.Group.C22_overlap_violated",
    "Cobalt.Group.C22_exact",
    "Cobalt.Group.C22_ends"
   ],
   "note": "Violated by the code for failing members and overlapping waits; C22_exact says exactly when a wait_one that ends is right."
  },
  {
   "property": "C23",
   "status": "partial",
   "theorems": [
    "Cobalt.Group.C23_reap_partial",
    "Cobalt.Group.C23_wait_partial",
    "Cobalt.Group.C23_pending",
    "Cobalt.Group.C23_not_lost",
    "Cobalt.Group.C23_exit_cancels",
    "Cobalt.Group.C23_reap_violated",
    "Cobalt.Group.C23_wait_violated",
    "Cobalt.Group.C23_reap_exact",
    "Cobalt.Group.C23_wait_exact"
   ],
   "note": "Violated by the code for failed members already reported and members added during a wait; the exact theorems say when reap, wait and await_exit are right."
  },
  {
   "property": "C24",
   "status": "partial",
   "theorems": [
    "Cobalt.With.C24_partial",
    "Cobalt.With.C24_exact",
    "Cobalt.With.C24_modified",
    "Cobalt.With.C24_order",
    "Cobalt.With.C24_changed",
    "Cobalt.With.C24_violated"
   ],
   "note": "Violated by the code for a teardown that clears the exception it is given; C24_exact says exactly when, C24_modified what happens else."
  },
  {
   "property": "C25",
   "status": "partial",
   "theorems": [
    "Cobalt.Prom.C25_delivers_partial",
    "Cobalt.Prom.C25_before_partial",
    "Cobalt.Prom.C25_after_partial",
    "Cobalt.Prom.C25_second",
    "Cobalt.Prom.C25_violated",
    "Cobalt.Prom.C25_moved_violated",
    "Cobalt.Prom.C25_undefined_exact"
   ],
   "note": "Violated by the code when an await that has failed is interrupted, and when a promise is moved while awaited."
  },
  {
   "property": "C26",
   "status": "proved",
   "theorems": [
    "Cobalt.Prom.C26",
    "Cobalt.Prom.C26_interrupt",
    "Cobalt.Prom.C26_again_partial"
   ],
   "note": "C26: any history of awaits, interruptions and the end of the coroutine. C26_again_partial is the same among all other uses of promises listed at Tidy."
  },
  {
   "property": "C27",
   "status": "partial",
   "theorems": [
    "Cobalt.Prom.C27_construct_partial",
    "Cobalt.Prom.C27_assign_violated",
    "Cobalt.Prom.C27_value_violated",
    "Cobalt.Prom.C27_exception_violated",
    "Cobalt.Prom.C27_exact",
    "Cobalt.Prom.C27_otherwise"
   ],
   "note": "Violated by the code for assignment and for moves after the coroutine has ended."
  },
  {
   "property": "C28",
   "status": "partial",
   "theorems": [
    "Cobalt.Prom.C28_signal_partial",
    "Cobalt.Prom.C28_drop_partial",
    "Cobalt.Prom.C28_left",
    "Cobalt.Prom.C28_later",
    "Cobalt.Prom.C28_zombie_violated",
    "Cobalt.Prom.C28_violated",
    "Cobalt.Prom.C28_assign_violated",
    "Cobalt.Prom.C28_twice_violated",
    "Cobalt.Prom.C28_leave_exact",
    "Cobalt.Prom.C28_drop_exact",
    "Cobalt.Prom.C28_assign_exact",
    "Cobalt.Prom.C28_attached"
   ],
   "note": "Violated by the code after a move assignment."
  },
  {
   "property": "C29",
   "status": "partial",
   "theorems": [
    "Cobalt.Task.C29_once_partial",
    "Cobalt.Task.C29_lazy",
    "Cobalt.Task.C29_delivers_partial",
    "Cobalt.Task.C29_never_awaited",
    "Cobalt.Task.C29_violated",
    "Cobalt.Task.C29_second_violated",
    "Cobalt.Task.C29_lost_violated",
    "Cobalt.Task.C29_moved_violated",
    "Cobalt.Task.C29_undefined_exact",
    "Cobalt.Task.C29_await_exact"
   ],
   "note": "Violated by the code when a running task is awaited again and when an ended await is interrupted."
  },
  {
   "property": "C30",
   "status": "partial",
   "theorems": [
    "Cobalt.Gen.C30_order_partial",
    "Cobalt.Gen.C30_next_partial",
    "Cobalt.Gen.C30_waiting_partial",
    "Cobalt.Gen.C30_get_violated",
    "Cobalt.Gen.C30_overtaken_violated",
    "Cobalt.Gen.C30_late_violated",
    "Cobalt.Gen.C30_assert_violated",
    "Cobalt.Gen.C30_stale_violated",
    "Cobalt.Gen.C30_exact",
    "Cobalt.Gen.C30_gives"
   ],
   "note": "Violated by the code for get() of eager generators and after interrupted awaits of lazy ones; C30_exact says, for all histories, exactly when everything the body gave is given once and in order and nothing undefined happens."
  },
  {
   "property": "C31",
   "status": "partial",
   "theorems": [
    "Cobalt.Gen.C31_pairs_partial",
    "Cobalt.Gen.C31_once_partial",
    "Cobalt.Gen.C31_violated",
    "Cobalt.Gen.C31_shifted_violated",
    "Cobalt.Gen.C31_exact",
    "Cobalt.Gen.C31_kth",
    "Cobalt.Gen.C31_account",
    "Cobalt.Gen.C31_handed"
   ],
   "note": "Violated by the code after an interrupted await; C31_exact says for every history of an eager generator which suspension point gets which value, C31_account where every pushed value of any generator is."
  },
  {
   "property": "C32",
   "status": "partial",
   "theorems": [
    "Cobalt.Gen.C32_true_partial",
    "Cobalt.Gen.C32_exhausted",
    "Cobalt.Gen.C32_only_partial",
    "Cobalt.Gen.C32_violated",
    "Cobalt.Gen.C32_initial_violated",
    "Cobalt.Gen.C32_exact",
    "Cobalt.Gen.C32_true_exact"
   ],
   "note": "Violated by the code for get() of an exception, for co_await initial while awaited and for interrupting an await that has ended; C32_exact says that these are the only ways in the histories of C30_exact."
  },
  {
   "property": "C33",
   "status": "partial",
   "theorems": [
    "Cobalt.Oper.C33_partial",
    "Cobalt.Oper.C33_at_most_once",
    "Cobalt.Oper.C33_violated",
    "Cobalt.Oper.C33_throw_violated",
    "Cobalt.Oper.C33_drop_violated",
    "Cobalt.Oper.C33_lost_violated",
    "Cobalt.Oper.C33_exact",
    "Cobalt.Oper.C33_ready",
    "Cobalt.Oper.C33_lost_exact"
   ],
   "note": "Violated by the code when immediate work throws, when the handler is destroyed during initiation, and as C34; C33_exact says exactly which operations are handled as they should be, exceptions included."
  },
  {
   "property": "C34",
   "status": "partial",
   "theorems": [
    "Cobalt.Oper.C34_partial",
    "Cobalt.Oper.C34_violated",
    "Cobalt.Oper.C34_exact"
   ],
   "note": "Violated by the code for nested immediate work; C34_exact says exactly when, exceptions included."
  },
  {
   "property": "C35",
   "status": "proved",
   "theorems": [
    "Cobalt.Mem.C35_disjoint",
    "Cobalt.Mem.C35_empty_block_misrouted"
   ],
   "note": "C35_empty_block_misrouted is about empty blocks, outside the quantifier."
  },
  {
   "property": "C36",
   "status": "partial",
   "theorems": [
    "Cobalt.Mem.C36_overaligned",
    "Cobalt.Mem.C36_rounding_wraps",
    "Cobalt.Mem.C36_aligned_partial",
    "Cobalt.Mem.C36_exact"
   ],
   "note": "Violated by the code for alignments above 16 and sizes within 15 of the maximum."
  },
  {
   "property": "C37",
   "status": "partial",
   "theorems": [
    "Cobalt.Mem.C37_disjoint",
    "Cobalt.Mem.C37_misaligned",
    "Cobalt.Mem.C37_header_out_of_bounds",
    "Cobalt.Mem.C37_header_overwritten",
    "Cobalt.Mem.C37_size_wraps",
    "Cobalt.Mem.C37_bookkeeping_partial",
    "Cobalt.Mem.C37_aligned_partial",
    "Cobalt.Mem.C37_release",
    "Cobalt.Mem.C37_bookkeeping_exact",
    "Cobalt.Mem.C37_aligned_exact"
   ],
   "note": "Disjointness holds; alignment and placement of the bookkeeping are violated by the code."
  },
  {
   "property": "C38",
   "status": "partial",
   "theorems": [
    "Cobalt.Mem.Frame.C38_resource_sized",
    "Cobalt.Mem.Frame.C38_resource",
    "Cobalt.Mem.Frame.C38_allocator_sized",
    "Cobalt.Mem.Frame.C38_allocator",
    "Cobalt.Mem.Frame.C38_main_sized",
    "Cobalt.Mem.Frame.C38_main_unsized",
    "Cobalt.Mem.Frame.C38_larger_rebind"
   ],
   "note": "Holds except for the frame of co_main without sized deallocation and for allocators that grow when rebound."
  },
  {
   "property": "C39",
   "status": "proved",
   "theorems": [
    "Cobalt.Io.C39_drop_bytes",
    "Cobalt.Io.C39_drop_size",
    "Cobalt.Io.C39_span"
   ],
   "note": ""
  },
  {
   "property": "C40",
   "status": "partial",
   "theorems": [
    "Cobalt.Io.C40_visits_all",
    "Cobalt.Io.C40_random_access",
    "Cobalt.Io.C40_visit_complete",
    "Cobalt.Io.C40_order_partial",
    "Cobalt.Io.C40_order_exact",
    "Cobalt.Io.C40_order_violated"
   ],
   "note": "The ordering of iterators is violated by the code: C40_order_violated is the witness, C40_order_partial what holds."
  },
  {
   "property": "C41",
   "status": "proved",
   "theorems": [
    "Cobalt.Io.C41_transfer",
    "Cobalt.Io.C41_terminates"
   ],
   "note": ""
  },
  {
   "property": "C42",
   "status": "partial",
   "theorems": [
    "Cobalt.File.C42_partial",
    "Cobalt.File.C42_exact",
    "Cobalt.File.C42_native_read",
    "Cobalt.File.C42_native_write",
    "Cobalt.File.C42_native_seek",
    "Cobalt.File.C42_native_seek_throws",
    "Cobalt.File.C42_seek_moves",
    "Cobalt.File.C42_seek_exact",
    "Cobalt.File.C42_violated",
    "Cobalt.File.C42_violated_start",
    "Cobalt.File.C42_violated_fails",
    "Cobalt.File.C42_violated_seek"
   ],
   "note": "Violated by the code: the fallback without native files passes the offset as whence to lseek and seek reports 0; with native files an invalid seek throws. The conditions are shown to be exact."
  },
  {
   "property": "C43",
   "status": "partial",
   "theorems": [
    "Cobalt.Endp.C43_partial",
    "Cobalt.Endp.C43_exact",
    "Cobalt.Endp.C43_wire",
    "Cobalt.Endp.C43_path",
    "Cobalt.Endp.C43_own",
    "Cobalt.Endp.C43_violated"
   ],
   "note": "Violated by the code for local paths containing NUL (abstract sockets), which read back up to the NUL."
  },
  {
   "property": "C44",
   "status": "partial",
   "theorems": [
    "Cobalt.Endp.C44_partial",
    "Cobalt.Endp.C44_violated",
    "Cobalt.Endp.C44_violated_path"
   ],
   "note": "Violated by the code for local paths longer than 5 and for IPv6 text given to ip."
  },
  {
   "property": "C45",
   "status": "partial",
   "theorems": [
    "Cobalt.Endp.C45_partial",
    "Cobalt.Endp.C45_exact",
    "Cobalt.Endp.C45_violated",
    "Cobalt.Endp.C45_consequence"
   ],
   "note": "Violated by the code: udp_v6 has the protocol number of ICMP."
  },
  {
   "property": "C46",
   "status": "partial",
   "theorems": [
    "Cobalt.Thr.C46_partial",
    "Cobalt.Thr.C46_exact",
    "Cobalt.Thr.C46_once",
    "Cobalt.Thr.C46_waiting",
    "Cobalt.Thr.C46_moved",
    "Cobalt.Thr.C46_violated",
    "Cobalt.Thr.C46_violated_success"
   ],
   "note": "Violated by the code for threads that end by an exception before the awaiter has registered: success is reported or the process terminates."
  },
  {
   "property": "C47",
   "status": "partial",
   "theorems": [
    "Cobalt.Thr.C47_partial",
    "Cobalt.Thr.C47_exact",
    "Cobalt.Thr.C47_tuple",
    "Cobalt.Thr.C47_violated",
    "Cobalt.Thr.C47_joined",
    "Cobalt.Thr.C47_violated_joined",
    "Cobalt.Thr.C47_second",
    "Cobalt.Thr.C47_violated_twice"
   ],
   "note": "Violated by the code: as_tuple of a finished thread dereferences an empty optional; await after join throws system_error; co_await t then co_await std::move(t) terminates."
  },
  {
   "property": "C48",
   "status": "partial",
   "theorems": [
    "Cobalt.Task.C48_called_partial",
    "Cobalt.Task.C48_once_partial",
    "Cobalt.Task.C48_violated",
    "Cobalt.Task.C48_started_violated",
    "Cobalt.Task.C48_exact"
   ],
   "note": "Violated by the code for tasks that are destroyed and for tasks that were started before."
  },
  {
   "property": "C49",
   "status": "partial",
   "theorems": [
    "Cobalt.Run.C49_partial",
    "Cobalt.Run.C49_exact",
    "Cobalt.Run.C49_result",
    "Cobalt.Run.C49_resource",
    "Cobalt.Run.C49_violated"
   ],
   "note": "Violated by the code: a thread without executor that runs a task which sets one keeps the task's executor afterwards. Result and resource hold in full."
  },
  {
   "property": "C50",
   "status": "partial",
   "theorems": [
    "Cobalt.Main.C50_partial",
    "Cobalt.Main.C50_exact",
    "Cobalt.Main.C50_signals",
    "Cobalt.Main.C50_armed",
    "Cobalt.Main.C50_late",
    "Cobalt.Main.C50_violated",
    "Cobalt.Main.C50_violated_waits"
   ],
   "note": "Violated by the code: a signal whose handler is queued when co_main returns emits on the cancellation signal in the destroyed frame; co_main returning from within an emission leaves the signal wait armed and the loop running."
  },
  {
   "property": "C51",
   "status": "proved",
   "theorems": [
    "Cobalt.Result.C51_holds",
    "Cobalt.Result.C51_payload",
    "Cobalt.Result.C51_lossless",
    "Cobalt.Result.C51_initiation",
    "Cobalt.Result.C51_as_result",
    "Cobalt.Result.C51_as_tuple",
    "Cobalt.Result.C51_as_tuple_nothrow",
    "Cobalt.Result.C51_adaptors"
   ],
   "note": "Operations, and the adaptors over any awaitable. Exceptions of the initiation are thrown by all forms."
  },
  {
   "property": "C52",
   "status": "partial",
   "theorems": [
    "Cobalt.Args.C52_partial",
    "Cobalt.Args.C52_kinds",
    "Cobalt.Args.C52_exact",
    "Cobalt.Args.C52_ill_formed",
    "Cobalt.Args.C52_task_tag",
    "Cobalt.Args.C52_task_frame",
    "Cobalt.Args.C52_violated",
    "Cobalt.Args.C52_violated_task"
   ],
   "note": "Holds for promise, generator and detached. A task takes no executor, its allocator defaults to the global resource, but its frame comes from the thread's resource although documented otherwise."
  },
  {
   "property": "C53",
   "status": "partial",
   "theorems": [
    "Cobalt.Cst.C53_partial",
    "Cobalt.Cst.C53_off",
    "Cobalt.Cst.C53_filters",
    "Cobalt.Cst.C53_default",
    "Cobalt.Cst.C53_exact",
    "Cobalt.Cst.C53_sound",
    "Cobalt.Cst.C53_disabled",
    "Cobalt.Cst.C53_reset",
    "Cobalt.Cst.C53_forward",
    "Cobalt.Cst.C53_other",
    "Cobalt.Cst.C53_violated",
    "Cobalt.Cst.C53_violated_deferred"
   ],
   "note": "Violated by the code: deferred operations are not checked; with a filter set by the coroutine a cancellation that passes is forgotten when one that does not pass follows. In full for awaitables with the default filters."
  },
  {
   "property": "C54",
   "status": "partial",
   "theorems": [
    "Cobalt.Chan.C54_buffered_values_skipped",
    "Cobalt.Chan.C54_close_in_body",
    "Cobalt.Chan.C54_exact",
    "Cobalt.Chan.C54_seen_prefix_partial",
    "Cobalt.Chan.C54_all_seen_partial"
   ],
   "note": "Violated by the code: the loop tests is_open and so drops buffered values."
  },
  {
   "property": "C55",
   "status": "partial",
   "theorems": [
    "Cobalt.Hnd.C55_partial",
    "Cobalt.Hnd.C55_exact",
    "Cobalt.Hnd.C55_unknown",
    "Cobalt.Hnd.C55_owner",
    "Cobalt.Hnd.C55_end",
    "Cobalt.Hnd.C55_empty",
    "Cobalt.Hnd.C55_violated",
    "Cobalt.Hnd.C55_violated_twice"
   ],
   "note": "Violated only by resuming a handle as an lvalue, which leaves it owning the coroutine; the library itself does not do that."
  },
  {
   "property": "C56",
   "status": "partial",
   "theorems": [
    "Cobalt.Io.C56_cancellation_never_arrives",
    "Cobalt.Io.C56_cancelled_stops_partial",
    "Cobalt.Io.C56_exact",
    "Cobalt.Io.C56_met",
    "Cobalt.Io.C56_if_passed_on",
    "Cobalt.Io.C56_violated",
    "Cobalt.Io.C56_emit_exact"
   ],
   "note": "Violated by the code: a cancellation never reaches a composed operation."
  },
  {
   "property": "C57",
   "status": "partial",
   "theorems": [
    "Cobalt.VChan.C57_underflow",
    "Cobalt.VChan.C57_limit_exceeded",
    "Cobalt.VChan.C57_modulo",
    "Cobalt.VChan.C57_exact",
    "Cobalt.VChan.C57_tokens_partial",
    "Cobalt.VChan.C57_turns_partial",
    "Cobalt.VChan.C57_lock_partial",
    "Cobalt.VChan.C57_lock_violated"
   ],
   "note": "Violated by the code with two consumers or two producers; holds for any number of them if nobody begins an operation while another was woken and not resumed yet (C57_turns_partial)."
  },
  {
   "property": "C58",
   "status": "partial",
   "theorems": [
    "Cobalt.Comb.Frames.C58_gather_partial",
    "Cobalt.Comb.Frames.C58_race_partial",
    "Cobalt.Comb.Frames.C58_gather_violated",
    "Cobalt.Comb.Frames.C58_race_violated"
   ],
   "note": "The partial theorems say exactly when it holds."
  },
  {
   "property": "C59",
   "status": "partial",
   "theorems": [
    "Cobalt.Comb.C59_not_touched_partial",
    "Cobalt.Comb.C59_cancel_violated",
    "Cobalt.Comb.C59_interrupt_violated",
    "Cobalt.Comb.C59_race_violated",
    "Cobalt.Comb.C59_exact",
    "Cobalt.Comb.C59_only",
    "Cobalt.Comb.C59_last"
   ],
   "note": "Violated by the code when the last child completes inside a forwarded cancellation or interruption."
  },
  {
   "property": "C60",
   "status": "partial",
   "theorems": [
    "Cobalt.Gen.C60_drop",
    "Cobalt.Gen.C60_after_partial",
    "Cobalt.Gen.C60_exact",
    "Cobalt.Gen.C60_frozen",
    "Cobalt.Gen.C60_violated"
   ],
   "note": "Violated by the code for a body that throws after the object is gone."
  },
  {
   "property": "C61",
   "status": "partial",
   "theorems": [
    "Cobalt.Endp.C61_partial",
    "Cobalt.Endp.C61_exact",
    "Cobalt.Endp.C61_path",
    "Cobalt.Endp.C61_ipv6",
    "Cobalt.Endp.C61_violated"
   ],
   "note": "Violated by the code: the constructor template wins over the copy constructor for endpoints that are not const and copies only size() bytes."
  },
  {
   "property": "C62",
   "status": "partial",
   "theorems": [
    "Cobalt.Thr.Frame.C62_start",
    "Cobalt.Thr.Frame.C62_partial",
    "Cobalt.Thr.Frame.C62_exact",
    "Cobalt.Thr.Frame.C62_dropped",
    "Cobalt.Thr.Frame.C62_immediate",
    "Cobalt.Thr.Frame.C62_violated",
    "Cobalt.Thr.Frame.C62_violated_throws",
    "Cobalt.Thr.Frame.C62_violated_pool",
    "Cobalt.Thr.Frame.C62_violated_dropped"
   ],
   "note": "Violated by the code: a body that does not suspend unlocks a mutex in its destroyed frame; a body that throws, or an object destroyed before the thread runs, leaks the frame; coroutines left in the context are released to a destroyed pool."
  },
  {
   "property": "C63",
   "status": "partial",
   "theorems": [
    "Cobalt.Ssl.C63_partial",
    "Cobalt.Ssl.C63_exact",
    "Cobalt.Ssl.C63_always_plain",
    "Cobalt.Ssl.C63_violated",
    "Cobalt.Ssl.C63_secure_violated"
   ],
   "note": "Violated by the code: upgraded_ is never set, so that everything is transferred in the clear, whatever the handshake did, and shutdown always fails. Right exactly as long as nothing follows the first successful handshake."
  },
  {
   "property": "C64",
   "status": "partial",
   "theorems": [
    "Cobalt.Time.C64_partial",
    "Cobalt.Time.C64_for_exact",
    "Cobalt.Time.C64_until_exact",
    "Cobalt.Time.C64_timer",
    "Cobalt.Time.C64_forever_is_over",
    "Cobalt.Time.C64_violated",
    "Cobalt.Time.C64_hours_violated",
    "Cobalt.Time.C64_truncates"
   ],
   "note": "Violated by the code: now + d and the conversion of d overflow for large durations, and parts of a nanosecond are cut off. The conditions are exact. Timers saturate."
  },
  {
   "property": "C65",
   "status": "proved",
   "theorems": [
    "Cobalt.Time.C65",
    "Cobalt.Time.C65_reset"
   ],
   "note": ""
  },
  {
   "property": "C66",
   "status": "partial",
   "theorems": [
    "Cobalt.Obj.C66_partial",
    "Cobalt.Obj.C66_exact",
    "Cobalt.Obj.C66_rebinding",
    "Cobalt.Obj.C66_moved",
    "Cobalt.Obj.C66_violated",
    "Cobalt.Obj.C66_close_violated",
    "Cobalt.Obj.C66_ssl_violated"
   ],
   "note": "Violated by the code: a file (native files) or ssl::stream constructed by a move keeps using its source for is_open, close and so on. In full for sockets, pipes and files without native support; for the others as long as no such use is made of an object referring to another."
  },
  {
   "property": "C67",
   "status": "partial",
   "theorems": [
    "Cobalt.Desc.C67_partial",
    "Cobalt.Desc.C67_exact",
    "Cobalt.Desc.C67_fails_cleanly",
    "Cobalt.Desc.C67_violated",
    "Cobalt.Desc.C67_pipe_violated"
   ],
   "note": "Violated by the code: opening a file that is open, or that the reactor refuses, leaks the descriptor, and pipe() throws instead of giving an error. Accounted for exactly in the histories without such an open; all calls but pipe() fail cleanly."
  },
  {
   "property": "C68",
   "status": "partial",
   "theorems": [
    "Cobalt.Endp.C68_partial",
    "Cobalt.Endp.C68_exact",
    "Cobalt.Endp.C68_idempotent",
    "Cobalt.Endp.C68_mismatch",
    "Cobalt.Endp.C68_violated"
   ],
   "note": "Violated by the code where there is no SCTP: seq_packet_socket leaves internet endpoints without a type. In full otherwise."
  },
  {
   "property": "C69",
   "status": "partial",
   "theorems": [
    "Cobalt.Ctx.C69_partial",
    "Cobalt.Ctx.C69_exact",
    "Cobalt.Ctx.C69_violated",
    "Cobalt.Ctx.C69_order_violated",
    "Cobalt.Ctx.C69_done_violated",
    "Cobalt.Ctx.C69_throw_violated"
   ],
   "note": "Violated by the code: promises that do not suspend at their end are never destroyed and used after their stack was freed, destruction has the wrong order, done() is always false, and exceptions of await_suspend go to the resumer. The condition of C69_exact says exactly which histories are right."
  },
  {
   "property": "C70",
   "status": "partial",
   "theorems": [
    "Cobalt.Err.C70_partial",
    "Cobalt.Err.C70_violated",
    "Cobalt.Err.C70_allocation_violated"
   ],
   "note": "Violated by the code: error::moved_from is zero, so its error_code is no failure, and allocation_failed() gives an exception for already_awaited. The exceptions are exactly these."
  },
  {
   "property": "C71",
   "status": "partial",
   "theorems": [
    "Cobalt.Cmp.C71_partial",
    "Cobalt.Cmp.C71_exact",
    "Cobalt.Cmp.C71_throws",
    "Cobalt.Cmp.C71_never",
    "Cobalt.Cmp.C71_once_stale",
    "Cobalt.Cmp.C71_violated",
    "Cobalt.Cmp.C71_deferred_violated",
    "Cobalt.Cmp.C71_drop_violated",
    "Cobalt.Cmp.C71_drop_large_violated",
    "Cobalt.Cmp.C71_throw_violated"
   ],
   "note": "Violated by the code in every run that ends: freed memory is used or the frame is left. The results are delivered once, and frames destroyed once, if the body does not throw."
  },
  {
   "property": "C72",
   "status": "partial",
   "theorems": [
    "Cobalt.Casc.C72_partial",
    "Cobalt.Casc.C72_exact",
    "Cobalt.Casc.C72_told",
    "Cobalt.Casc.C72_others",
    "Cobalt.Casc.C72_default",
    "Cobalt.Casc.C72_violated"
   ],
   "note": "Violated by the code when the destructor of a parameter of a coroutine that ends cancels its awaiter: the signal is used after its destruction. C72_exact says exactly when; else it holds for every history."
  },
  {
   "property": "C73",
   "status": "partial",
   "theorems": [
    "Cobalt.Xthr.C73_exact",
    "Cobalt.Xthr.C73_partial",
    "Cobalt.Xthr.C73_violated",
    "Cobalt.Xthr.C73_frame_violated",
    "Cobalt.Xthr.C73_handler_violated"
   ],
   "note": "Violated by the code: the frame of the task and what spawn allocates come from the pool of the spawning thread and are freed by the other one, without synchronization. C73_exact says exactly when."
  },
  {
   "property": "C74",
   "status": "partial",
   "theorems": [
    "Cobalt.Acc.C74_partial",
    "Cobalt.Acc.C74_exact",
    "Cobalt.Acc.C74_violated",
    "Cobalt.Acc.C74_default",
    "Cobalt.Acc.C74_bind",
    "Cobalt.Acc.C74_class_violated"
   ],
   "note": "Violated by the code: an acceptor made without endpoint can never be opened, bind never succeeds on any acceptor, and accept can give a stream as a seq_packet_socket."
  },
  {
   "property": "C75",
   "status": "partial",
   "theorems": [
    "Cobalt.Fin.C75_exact",
    "Cobalt.Fin.C75_partial",
    "Cobalt.Fin.C75_kept",
    "Cobalt.Fin.C75_violated",
    "Cobalt.Fin.C75_lost",
    "Cobalt.Fin.C75_post_violated"
   ],
   "note": "Violated by the code exactly when a coroutine without owner ends by an exception: its frame is never destroyed, or it is destroyed while it runs."
  },
  {
   "property": "C76",
   "status": "partial",
   "theorems": [
    "Cobalt.Chan.C76_exact",
    "Cobalt.Chan.C76_partial",
    "Cobalt.Chan.C76_stale",
    "Cobalt.Chan.C76_race_violated",
    "Cobalt.Chan.C76_closed_violated",
    "Cobalt.Chan.C76_violated"
   ],
   "note": "Violated by the code: the destructor loops forever if an interrupted operation is queued or an operation lives in a combinator with other children that wait, and readers of a channel that was closed use it after it is destroyed."
  },
  {
   "property": "C77",
   "status": "partial",
   "theorems": [
    "Cobalt.Comb.C77_tuple_exact",
    "Cobalt.Comb.C77_result_exact",
    "Cobalt.Comb.C77_partial",
    "Cobalt.Comb.C77_violated",
    "Cobalt.Comb.C77_foreign",
    "Cobalt.Comb.C77_race"
   ],
   "note": "Violated by the code: a join with values awaited as a tuple while an exception is handled reports that exception though it succeeded, and some forms of join do not compile."
  },
  {
   "property": "C78",
   "status": "partial",
   "theorems": [
    "Cobalt.Lost.C78_once",
    "Cobalt.Lost.C78_partial",
    "Cobalt.Lost.C78_all",
    "Cobalt.Lost.C78_gather",
    "Cobalt.Lost.C78_join",
    "Cobalt.Lost.C78_race",
    "Cobalt.Lost.C78_violated",
    "Cobalt.Lost.C78_missing_violated",
    "Cobalt.Lost.C78_join_violated",
    "Cobalt.Lost.C78_cancel_violated"
   ],
   "note": "Violated by the code: race calls into destroyed children, gather and join read results that do not exist. The exact conditions are proved; it holds if only destructions follow the first one."
  },
  {
   "property": "C79",
   "status": "partial",
   "theorems": [
    "Cobalt.Rep.C79_exact",
    "Cobalt.Rep.C79_partial",
    "Cobalt.Rep.C79_arguments",
    "Cobalt.Rep.C79_violated",
    "Cobalt.Rep.C79_seek_violated",
    "Cobalt.Rep.C79_file_violated"
   ],
   "note": "Violated by the code: seek and pipe throw, seek without native files returns 0, release and cancel of files hide errors, options of serial ports throw. C79_exact says exactly when."
  },
  {
   "property": "C80",
   "status": "partial",
   "theorems": [
    "Cobalt.With.Forms.C80_exact",
    "Cobalt.With.Forms.C80_partial",
    "Cobalt.With.Forms.C80_only",
    "Cobalt.With.Forms.C80_violated",
    "Cobalt.With.Forms.C80_sync_violated"
   ],
   "note": "Violated by the code: the teardown of the documentation, taking the argument by reference, is refused, and so are functions that are not awaited with await_exit. C80_exact lists what is refused."
  },
  {
   "property": "C81",
   "status": "partial",
   "theorems": [
    "Cobalt.With.Life.C81_once",
    "Cobalt.With.Life.C81_partial",
    "Cobalt.With.Life.C81_dropped",
    "Cobalt.With.Life.C81_orphan",
    "Cobalt.With.Life.C81_lost",
    "Cobalt.With.Life.C81_exact",
    "Cobalt.With.Life.C81_violated",
    "Cobalt.With.Life.C81_more_violated"
   ],
   "note": "Violated by the code: with_impl has no destructor, so a with that is not awaited leaks, one whose awaiter is destroyed resumes it, and one that is destroyed leaves its awaiter."
  },
  {
   "property": "C82",
   "status": "partial",
   "theorems": [
    "Cobalt.Thr.Cancel.C82_order",
    "Cobalt.Thr.Cancel.C82_exact",
    "Cobalt.Thr.Cancel.C82_partial",
    "Cobalt.Thr.Cancel.C82_late",
    "Cobalt.Thr.Cancel.C82_freed",
    "Cobalt.Thr.Cancel.C82_detached",
    "Cobalt.Thr.Cancel.C82_terminated",
    "Cobalt.Thr.Cancel.C82_violated",
    "Cobalt.Thr.Cancel.C82_posted_violated",
    "Cobalt.Thr.Cancel.C82_stopped_violated",
    "Cobalt.Thr.Cancel.C82_ignored_violated"
   ],
   "note": "Violated by the code: a cancellation posted after the context stopped running owns the state that owns it, and an object that is awaited ignores cancel. C82_exact says when the state is freed."
  },
  {
   "property": "C83",
   "status": "partial",
   "theorems": [
    "Cobalt.Gen.Move.C83_same_partial",
    "Cobalt.Gen.Move.C83_legal_partial",
    "Cobalt.Gen.Move.C83_order_partial",
    "Cobalt.Gen.Move.C83_moved_partial",
    "Cobalt.Gen.Move.C83_assign_exact",
    "Cobalt.Gen.Move.C83_assign_violated",
    "Cobalt.Gen.Move.C83_left_violated",
    "Cobalt.Gen.Move.C83_noerror_violated",
    "Cobalt.Gen.Move.C83_awaited_violated",
    "Cobalt.Gen.Move.C83_dangling_violated",
    "Cobalt.Gen.Move.C83_buffer_violated",
    "Cobalt.Gen.Move.C83_pushed_violated"
   ],
   "note": "Violated by the code: assigning to a generator whose coroutine has ended reads its freed frame (C83_assign_exact says exactly when), and an object that was moved from gives the value that the move left. C83_same_partial: with the uses listed at Tidy every generator is as if it had never been moved."
  },
  {
   "property": "C84",
   "status": "partial",
   "theorems": [
    "Cobalt.Gen.For.C84_partial",
    "Cobalt.Gen.For.C84_ends_partial",
    "Cobalt.Gen.For.C84_violated",
    "Cobalt.Gen.For.C84_exact"
   ],
   "note": "Violated by the code only if the body of the generator awaits this_coro::initial after the loop has started to wait (C84_exact)."
  },
  {
   "property": "C85",
   "status": "partial",
   "theorems": [
    "Cobalt.Prom.For.C85_partial",
    "Cobalt.Prom.For.C85_again_partial",
    "Cobalt.Prom.For.C85_violated",
    "Cobalt.Prom.For.C85_moved_violated"
   ],
   "note": "Violated by the code for uses that break promises anyway: an await that was interrupted before is interrupted again while the loop waits. Proved for the uses listed at Prom.Tidy."
  },
  {
   "property": "C86",
   "status": "partial",
   "theorems": [
    "Cobalt.Inc.C86_partial",
    "Cobalt.Inc.C86_exact",
    "Cobalt.Inc.C86_guards",
    "Cobalt.Inc.C86_alone",
    "Cobalt.Inc.C86_own_guard",
    "Cobalt.Inc.C86_violated",
    "Cobalt.Inc.C86_io_violated",
    "Cobalt.Inc.C86_pair_violated",
    "Cobalt.Inc.C86_too_deep"
   ],
   "note": "Violated by the code: io/stream.hpp and io/random_access_device.hpp have one include guard, so io.hpp does not compile. Exactly the lists of headers that bring in both are affected."
  },
  {
   "property": "C87",
   "status": "partial",
   "theorems": [
    "Cobalt.Inc.Xfer.C87_partial",
    "Cobalt.Inc.Xfer.C87_exact",
    "Cobalt.Inc.Xfer.C87_violated",
    "Cobalt.Inc.Xfer.C87_never_violated"
   ],
   "note": "Violated by the code for write_at, which no device can be given to. Proved for the other three, exactly."
  },
  {
   "property": "C88",
   "status": "partial",
   "theorems": [
    "Cobalt.Comb.C88_partial",
    "Cobalt.Comb.C88_over",
    "Cobalt.Comb.C88_all",
    "Cobalt.Comb.C88_waits",
    "Cobalt.Comb.C88_once",
    "Cobalt.Comb.C88_thrown",
    "Cobalt.Comb.C88_join",
    "Cobalt.Comb.C88_gather",
    "Cobalt.Comb.C88_defined",
    "Cobalt.Comb.C88_violated"
   ],
   "note": "Proved for all trees and all runs without undefined behaviour; there is none if nothing completes inside a cancellation or interruption being forwarded. Otherwise violated by the code, see C59."
  },
  {
   "property": "C89",
   "status": "partial",
   "theorems": [
    "Cobalt.Comb.C89_one",
    "Cobalt.Comb.C89_single_partial",
    "Cobalt.Comb.C89_violated",
    "Cobalt.Comb.C89_lost_violated",
    "Cobalt.Comb.C89_inner"
   ],
   "note": "Violated by the code for races of races: a transaction is not forwarded to the outer race. Proved for each race by itself."
  },
  {
   "property": "C90",
   "status": "partial",
   "theorems": [
    "Cobalt.Chan.C90_partial",
    "Cobalt.Chan.C90_waits_partial",
    "Cobalt.Chan.C90_violated",
    "Cobalt.Chan.C90_lost_violated",
    "Cobalt.Chan.C90_written_violated",
    "Cobalt.Chan.C90_threw_violated",
    "Cobalt.Chan.C90_named_violated"
   ],
   "note": "Violated by the code if an operation finds its partner waiting when its branch is started: it takes place without a transaction. Proved for all other runs."
  },
  {
   "property": "C91",
   "status": "proved",
   "theorems": [
    "Cobalt.Chan.C91_reads",
    "Cobalt.Chan.C91_writes",
    "Cobalt.VChan.C91_reads",
    "Cobalt.VChan.C91_writes"
   ],
   "note": "For every schedule, up to undefined behaviour. About operations that wait; who finds the channel ready does not wait (C03, C57)."
  },
  {
   "property": "C92",
   "status": "partial",
   "theorems": [
    "Cobalt.Again.C92_partial",
    "Cobalt.Again.C92_stream_partial",
    "Cobalt.Again.C92_wait_partial",
    "Cobalt.Again.C92_first",
    "Cobalt.Again.C92_violated",
    "Cobalt.Again.C92_exact"
   ],
   "note": "Proved if done() of frames that have destroyed themselves says yes. It may say no, and then a value is lost. From end to end for generators that do not await initial."
  },
  {
   "property": "C93",
   "status": "partial",
   "theorems": [
    "Cobalt.Again.C93_kept_partial",
    "Cobalt.Again.C93_once_partial",
    "Cobalt.Again.C93_ready",
    "Cobalt.Again.C93_violated",
    "Cobalt.Again.C93_ended",
    "Cobalt.Again.C93_alone"
   ],
   "note": "No value is given twice or lost. But the second race is won at once by the promise that is done already, with a value that was moved from; exactly: a race is won only by promises that have ended (C93_ended), and while only one has, every race is over at once and none is won by another (C93_alone)."
  },
  {
   "property": "C94",
   "status": "partial",
   "theorems": [
    "Cobalt.Nurse.C94_partial",
    "Cobalt.Nurse.C94_late_partial",
    "Cobalt.Nurse.C94_prompt",
    "Cobalt.Nurse.C94_result",
    "Cobalt.Nurse.C94_told",
    "Cobalt.Nurse.C94_violated",
    "Cobalt.Nurse.C94_used_violated",
    "Cobalt.Nurse.C94_wait_violated",
    "Cobalt.Nurse.C94_overlap_violated",
    "Cobalt.Nurse.C94_exact"
   ],
   "note": "Violated by the code for coroutines added while all of the group is being awaited, and for overlapping wait_one. Else proved; C94_exact says when everybody has ended."
  },
  {
   "property": "C95",
   "status": "proved",
   "theorems": [
    "Cobalt.Pipe.C95_safe",
    "Cobalt.Pipe.C95_stage",
    "Cobalt.Pipe.C95_in_order",
    "Cobalt.Pipe.C95_backlog",
    "Cobalt.Pipe.C95_progress",
    "Cobalt.Pipe.C95_complete"
   ],
   "note": "For chains in which every channel has one reading and one writing coroutine, which destroy operations when their await has ended. The bound of C95_backlog is reached."
  },
  {
   "property": "C96",
   "status": "proved",
   "theorems": [
    "Cobalt.Order.C96_all",
    "Cobalt.Order.C96_even",
    "Cobalt.Order.C96_first",
    "Cobalt.Order.C96_in_order",
    "Cobalt.Order.C96_left_to_right",
    "Cobalt.Order.C96_leftmost"
   ],
   "note": "std::shuffle is modelled as the loop that swaps each place with one drawn at or before it."
  },
  {
   "property": "C97",
   "status": "partial",
   "theorems": [
    "Cobalt.Chan.C97_partial",
    "Cobalt.Chan.C97_violated",
    "Cobalt.Chan.C97_asleep",
    "Cobalt.Chan.C97_race_violated",
    "Cobalt.Chan.C97_write_violated",
    "Cobalt.Chan.C97_exact",
    "Cobalt.Chan.C97_any_order"
   ],
   "note": "Missing: the statement holds if nobody cancels or interrupts an operation between its wake-up and its resumption; otherwise the code violates it (witnesses with a cancelled reader, an interrupted reader and a cancelled writer)."
  },
  {
   "property": "C98",
   "status": "partial",
   "theorems": [
    "Cobalt.VChan.C98_partial",
    "Cobalt.VChan.C98_violated",
    "Cobalt.VChan.C98_asleep",
    "Cobalt.VChan.C98_race_violated",
    "Cobalt.VChan.C98_write_violated",
    "Cobalt.VChan.C98_overtaken_violated",
    "Cobalt.VChan.C98_exact",
    "Cobalt.VChan.C98_any_order"
   ],
   "note": "Missing: the statement holds if nobody cancels or interrupts an operation between its wake-up and its resumption and the counter does not wrap around; otherwise the code violates it (witnesses with a cancelled reader, an interrupted reader, a cancelled writer, and a reader that is overtaken)."
  },
  {
   "property": "C99",
   "status": "partial",
   "theorems": [
    "Cobalt.Lock.C99_count",
    "Cobalt.Lock.C99_excl_partial",
    "Cobalt.Lock.C99_served_partial",
    "Cobalt.Lock.C99_violated",
    "Cobalt.Lock.C99_two_inside",
    "Cobalt.Lock.C99_asleep_violated",
    "Cobalt.Lock.C99_drained",
    "Cobalt.Lock.C99_late"
   ],
   "note": "Missing: the first half holds if no coroutine comes in without waiting while those woken need all the room, the second if no coroutine is cancelled between its wake-up and its resumption. Otherwise violated by the code: with two coroutines in a loop and one place both get in; a cancelled coroutine leaves the next one asleep with nobody inside."
  }
 ]
}