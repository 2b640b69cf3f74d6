/-!
# The headers of the library: their guards and what they include

The table is read off the headers one by one: `include/boost/cobalt.hpp` and the files of
`include/boost/cobalt`. Beside each header stand the line of its guard and the lines of the headers
of the library it includes. The headers of other libraries are left out: they do not include the
headers of this one. The includes that stand under a condition are read with the default
configuration, in which `BOOST_COBALT_NO_PMR` is not defined (`detail/fork.hpp:13-15`).
-/

namespace Cobalt.Inc

/-- The headers: `include/boost/cobalt.hpp` (`all`) and those of `include/boost/cobalt`, where `d_`
stands for `detail/`, `x_` for `experimental/`, `io_` for `io/` and `impl_` for `impl/`. -/
inductive Hdr where
  /-- `cobalt.hpp` -/
  | all
  /-- `cobalt/async_for.hpp` -/
  | async_for
  /-- `cobalt/channel.hpp` -/
  | channel
  /-- `cobalt/composition.hpp` -/
  | composition
  /-- `cobalt/concepts.hpp` -/
  | concepts
  /-- `cobalt/config.hpp` -/
  | config
  /-- `cobalt/detached.hpp` -/
  | detached
  /-- `cobalt/detail/await_result_helper.hpp` -/
  | d_await_result_helper
  /-- `cobalt/detail/detached.hpp` -/
  | d_detached
  /-- `cobalt/detail/exception.hpp` -/
  | d_exception
  /-- `cobalt/detail/fork.hpp` -/
  | d_fork
  /-- `cobalt/detail/forward_cancellation.hpp` -/
  | d_forward_cancellation
  /-- `cobalt/detail/gather.hpp` -/
  | d_gather
  /-- `cobalt/detail/generator.hpp` -/
  | d_generator
  /-- `cobalt/detail/handler.hpp` -/
  | d_handler
  /-- `cobalt/detail/join.hpp` -/
  | d_join
  /-- `cobalt/detail/main.hpp` -/
  | d_main
  /-- `cobalt/detail/monotonic_resource.hpp` -/
  | d_monotonic_resource
  /-- `cobalt/detail/promise.hpp` -/
  | d_promise
  /-- `cobalt/detail/race.hpp` -/
  | d_race
  /-- `cobalt/detail/sbo_resource.hpp` -/
  | d_sbo_resource
  /-- `cobalt/detail/spawn.hpp` -/
  | d_spawn
  /-- `cobalt/detail/task.hpp` -/
  | d_task
  /-- `cobalt/detail/this_thread.hpp` -/
  | d_this_thread
  /-- `cobalt/detail/thread.hpp` -/
  | d_thread
  /-- `cobalt/detail/util.hpp` -/
  | d_util
  /-- `cobalt/detail/wait_group.hpp` -/
  | d_wait_group
  /-- `cobalt/detail/with.hpp` -/
  | d_with
  /-- `cobalt/detail/wrapper.hpp` -/
  | d_wrapper
  /-- `cobalt/error.hpp` -/
  | error
  /-- `cobalt/experimental/context.hpp` -/
  | x_context
  /-- `cobalt/experimental/frame.hpp` -/
  | x_frame
  /-- `cobalt/experimental/yield_context.hpp` -/
  | x_yield_context
  /-- `cobalt/gather.hpp` -/
  | gather
  /-- `cobalt/generator.hpp` -/
  | generator
  /-- `cobalt/impl/channel.hpp` -/
  | impl_channel
  /-- `cobalt/io.hpp` -/
  | io_
  /-- `cobalt/io/acceptor.hpp` -/
  | io_acceptor
  /-- `cobalt/io/buffer.hpp` -/
  | io_buffer
  /-- `cobalt/io/datagram_socket.hpp` -/
  | io_datagram_socket
  /-- `cobalt/io/endpoint.hpp` -/
  | io_endpoint
  /-- `cobalt/io/file.hpp` -/
  | io_file
  /-- `cobalt/io/ops.hpp` -/
  | io_ops
  /-- `cobalt/io/pipe.hpp` -/
  | io_pipe
  /-- `cobalt/io/random_access_device.hpp` -/
  | io_random_access_device
  /-- `cobalt/io/random_access_file.hpp` -/
  | io_random_access_file
  /-- `cobalt/io/read.hpp` -/
  | io_read
  /-- `cobalt/io/resolver.hpp` -/
  | io_resolver
  /-- `cobalt/io/seq_packet_socket.hpp` -/
  | io_seq_packet_socket
  /-- `cobalt/io/serial_port.hpp` -/
  | io_serial_port
  /-- `cobalt/io/signal_set.hpp` -/
  | io_signal_set
  /-- `cobalt/io/sleep.hpp` -/
  | io_sleep
  /-- `cobalt/io/socket.hpp` -/
  | io_socket
  /-- `cobalt/io/ssl.hpp` -/
  | io_ssl
  /-- `cobalt/io/steady_timer.hpp` -/
  | io_steady_timer
  /-- `cobalt/io/stream.hpp` -/
  | io_stream
  /-- `cobalt/io/stream_file.hpp` -/
  | io_stream_file
  /-- `cobalt/io/stream_socket.hpp` -/
  | io_stream_socket
  /-- `cobalt/io/system_timer.hpp` -/
  | io_system_timer
  /-- `cobalt/io/write.hpp` -/
  | io_write
  /-- `cobalt/join.hpp` -/
  | join_
  /-- `cobalt/main.hpp` -/
  | main_
  /-- `cobalt/noop.hpp` -/
  | noop
  /-- `cobalt/op.hpp` -/
  | op
  /-- `cobalt/promise.hpp` -/
  | promise
  /-- `cobalt/race.hpp` -/
  | race
  /-- `cobalt/result.hpp` -/
  | result
  /-- `cobalt/run.hpp` -/
  | run
  /-- `cobalt/spawn.hpp` -/
  | spawn
  /-- `cobalt/task.hpp` -/
  | task
  /-- `cobalt/this_coro.hpp` -/
  | this_coro
  /-- `cobalt/this_thread.hpp` -/
  | this_thread
  /-- `cobalt/thread.hpp` -/
  | thread_
  /-- `cobalt/unique_handle.hpp` -/
  | unique_handle
  /-- `cobalt/wait_group.hpp` -/
  | wait_group
  /-- `cobalt/with.hpp` -/
  | with_
  deriving DecidableEq, Repr

/-- The macros the headers use as guards. -/
inductive Guard where
  | BOOST_COBALT_HPP
  | BOOST_COBALT_COBALT_FOR_HPP
  | BOOST_COBALT_CHANNEL_HPP
  | BOOST_COBALT_EXPERIMENTAL_COMPOSITION_HPP
  | BOOST_COBALT_CONCEPTS_HPP
  | BOOST_COBALT_CONFIG_HPP
  | BOOST_COBALT_DETACHED_HPP
  | BOOST_COBALT_DETAIL_AWAIT_RESULT_HELPER_HPP
  | BOOST_COBALT_DETAIL_DETACHED_HPP
  | BOOST_COBALT_DETAIL_EXCEPTION_HPP
  | BOOST_COBALT_DETAIL_FORK_HPP
  | BOOST_COBALT_DETAIL_FORWARD_CANCELLATION_HPP
  | BOOST_COBALT_DETAIL_GATHER_HPP
  | BOOST_COBALT_DETAIL_GENERATOR_HPP
  | BOOST_COBALT_HANDLER_HPP
  | BOOST_COBALT_DETAIL_JOIN_HPP
  | BOOST_DETAIL_COBALT_MAIN_HPP
  | BOOST_COBALT_DETAIL_MONOTONIC_BUFFER_RESOURCE_HPP
  | BOOST_COBALT_DETAIL_PROMISE_HPP
  | BOOST_COBALT_DETAIL_RACE_HPP
  | BOOST_COBALT_DETAIL_SBO_BUFFER_RESOURCE_HPP
  | BOOST_COBALT_DETAIL_SPAWN_HPP
  | BOOST_COBALT_DETAIL_TASK_HPP
  | BOOST_COBALT_DETAIL_THIS_THREAD_HPP
  | BOOST_COBALT_DETAIL_THREAD_HPP
  | BOOST_COBALT_UTIL_HPP
  | BOOST_COBALT_DETAIL_WAIT_GROUP_HPP
  | BOOST_COBALT_DETAIL_WITH_HPP
  | BOOST_COBALT_WRAPPER_HPP
  | BOOST_COBALT_ERROR_HPP
  | BOOST_COBALT_EXPERIMENTAL_CONTEXT_HPP
  | BOOST_COBALT_EXPERIMENTAL_FRAME_HPP
  | BOOST_COBALT_EXPERIMENTAL_YIELD_CONTEXT_HPP
  | BOOST_COBALT_GATHER_HPP
  | BOOST_COBALT_GENERATOR_HPP
  | BOOST_COBALT_IMPL_CHANNEL_HPP
  | BOOST_COBALT_IO_HPP
  | BOOST_COBALT_EXPERIMENTAL_IO_ACCEPTOR_HPP
  | BOOST_COBALT_IO_BUFFER_HPP
  | BOOST_COBALT_IODATAGRAM_SOCKET_HPP
  | BOOST_COBALT_IO_ENDPOINT_HPP
  | BOOST_COBALT_IO_FILE_HPP
  | BOOST_COBALT_OPS_HPP
  | BOOST_COBALT_IO_PIPE_HPP
  | BOOST_COBALT_IO_STREAM_HPP
  | BOOST_COBALT_IO_RANDOM_ACCESS_FILE_HPP
  | BOOST_COBALT_IO_READ_HPP
  | BOOST_COBALT_RESOLVER_HPP
  | BOOST_COBALT_IOSEQ_PACKET_SOCKET_HPP
  | BOOST_COBALT_IO_SERIAL_PORT_HPP
  | BOOST_COBALT_IO_SIGNAL_SET_HPP
  | BOOST_COBALT_IO_SLEEP_HPP
  | BOOST_COBALT_IOSOCKET_HPP
  | BOOST_COBALT_SSL_HPP
  | BOOST_COBALT_IO_STEADY_TIMER_HPP
  | BOOST_COBALT_IO_STREAM_FILE_HPP
  | BOOST_COBALT_IO_STREAM_SOCKET_HPP
  | BOOST_COBALT_IO_SYSTEM_TIMER_HPP
  | BOOST_COBALT_IO_WRITE_HPP
  | BOOST_COBALT_JOIN_HPP
  | BOOST_COBALT_MAIN_HPP
  | BOOST_COBALT_NOOP_HPP
  | BOOST_COBALT_OP_HPP
  | BOOST_COBALT_PROMISE_HPP
  | BOOST_COBALT_RACE_HPP
  | BOOST_COBALT_RESULT_HPP
  | BOOST_COBALT_RUN_HPP
  | BOOST_COBALT_SPAWN_HPP
  | BOOST_COBALT_TASK_HPP
  | BOOST_COBALT_THIS_CORO_HPP
  | BOOST_COBALT_THIS_THREAD_HPP
  | BOOST_COBALT_THREAD_HPP
  | BOOST_COBALT_HANDLE_HPP
  | BOOST_COBALT_WAIT_GROUP_HPP
  | BOOST_COBALT_WITH_HPP
  deriving DecidableEq, Repr

/-- The guard of each header: the `#ifndef` the file starts with and the `#define` after it. -/
def guard : Hdr → Guard
  -- cobalt.hpp:8
  | .all => .BOOST_COBALT_HPP
  -- cobalt/async_for.hpp:5
  | .async_for => .BOOST_COBALT_COBALT_FOR_HPP
  -- cobalt/channel.hpp:8
  | .channel => .BOOST_COBALT_CHANNEL_HPP
  -- cobalt/composition.hpp:8
  | .composition => .BOOST_COBALT_EXPERIMENTAL_COMPOSITION_HPP
  -- cobalt/concepts.hpp:5
  | .concepts => .BOOST_COBALT_CONCEPTS_HPP
  -- cobalt/config.hpp:10
  | .config => .BOOST_COBALT_CONFIG_HPP
  -- cobalt/detached.hpp:8
  | .detached => .BOOST_COBALT_DETACHED_HPP
  -- cobalt/detail/await_result_helper.hpp:8
  | .d_await_result_helper => .BOOST_COBALT_DETAIL_AWAIT_RESULT_HELPER_HPP
  -- cobalt/detail/detached.hpp:8
  | .d_detached => .BOOST_COBALT_DETAIL_DETACHED_HPP
  -- cobalt/detail/exception.hpp:8
  | .d_exception => .BOOST_COBALT_DETAIL_EXCEPTION_HPP
  -- cobalt/detail/fork.hpp:5
  | .d_fork => .BOOST_COBALT_DETAIL_FORK_HPP
  -- cobalt/detail/forward_cancellation.hpp:8
  | .d_forward_cancellation => .BOOST_COBALT_DETAIL_FORWARD_CANCELLATION_HPP
  -- cobalt/detail/gather.hpp:8
  | .d_gather => .BOOST_COBALT_DETAIL_GATHER_HPP
  -- cobalt/detail/generator.hpp:8
  | .d_generator => .BOOST_COBALT_DETAIL_GENERATOR_HPP
  -- cobalt/detail/handler.hpp:5
  | .d_handler => .BOOST_COBALT_HANDLER_HPP
  -- cobalt/detail/join.hpp:8
  | .d_join => .BOOST_COBALT_DETAIL_JOIN_HPP
  -- cobalt/detail/main.hpp:8
  | .d_main => .BOOST_DETAIL_COBALT_MAIN_HPP
  -- cobalt/detail/monotonic_resource.hpp:12
  | .d_monotonic_resource => .BOOST_COBALT_DETAIL_MONOTONIC_BUFFER_RESOURCE_HPP
  -- cobalt/detail/promise.hpp:8
  | .d_promise => .BOOST_COBALT_DETAIL_PROMISE_HPP
  -- cobalt/detail/race.hpp:8
  | .d_race => .BOOST_COBALT_DETAIL_RACE_HPP
  -- cobalt/detail/sbo_resource.hpp:8
  | .d_sbo_resource => .BOOST_COBALT_DETAIL_SBO_BUFFER_RESOURCE_HPP
  -- cobalt/detail/spawn.hpp:8
  | .d_spawn => .BOOST_COBALT_DETAIL_SPAWN_HPP
  -- cobalt/detail/task.hpp:8
  | .d_task => .BOOST_COBALT_DETAIL_TASK_HPP
  -- cobalt/detail/this_thread.hpp:8
  | .d_this_thread => .BOOST_COBALT_DETAIL_THIS_THREAD_HPP
  -- cobalt/detail/thread.hpp:8
  | .d_thread => .BOOST_COBALT_DETAIL_THREAD_HPP
  -- cobalt/detail/util.hpp:5
  | .d_util => .BOOST_COBALT_UTIL_HPP
  -- cobalt/detail/wait_group.hpp:8
  | .d_wait_group => .BOOST_COBALT_DETAIL_WAIT_GROUP_HPP
  -- cobalt/detail/with.hpp:5
  | .d_with => .BOOST_COBALT_DETAIL_WITH_HPP
  -- cobalt/detail/wrapper.hpp:5
  | .d_wrapper => .BOOST_COBALT_WRAPPER_HPP
  -- cobalt/error.hpp:5
  | .error => .BOOST_COBALT_ERROR_HPP
  -- cobalt/experimental/context.hpp:5
  | .x_context => .BOOST_COBALT_EXPERIMENTAL_CONTEXT_HPP
  -- cobalt/experimental/frame.hpp:8
  | .x_frame => .BOOST_COBALT_EXPERIMENTAL_FRAME_HPP
  -- cobalt/experimental/yield_context.hpp:8
  | .x_yield_context => .BOOST_COBALT_EXPERIMENTAL_YIELD_CONTEXT_HPP
  -- cobalt/gather.hpp:8
  | .gather => .BOOST_COBALT_GATHER_HPP
  -- cobalt/generator.hpp:8
  | .generator => .BOOST_COBALT_GENERATOR_HPP
  -- cobalt/impl/channel.hpp:8
  | .impl_channel => .BOOST_COBALT_IMPL_CHANNEL_HPP
  -- cobalt/io.hpp:8
  | .io_ => .BOOST_COBALT_IO_HPP
  -- cobalt/io/acceptor.hpp:8
  | .io_acceptor => .BOOST_COBALT_EXPERIMENTAL_IO_ACCEPTOR_HPP
  -- cobalt/io/buffer.hpp:8
  | .io_buffer => .BOOST_COBALT_IO_BUFFER_HPP
  -- cobalt/io/datagram_socket.hpp:8
  | .io_datagram_socket => .BOOST_COBALT_IODATAGRAM_SOCKET_HPP
  -- cobalt/io/endpoint.hpp:8
  | .io_endpoint => .BOOST_COBALT_IO_ENDPOINT_HPP
  -- cobalt/io/file.hpp:8
  | .io_file => .BOOST_COBALT_IO_FILE_HPP
  -- cobalt/io/ops.hpp:8
  | .io_ops => .BOOST_COBALT_OPS_HPP
  -- cobalt/io/pipe.hpp:8
  | .io_pipe => .BOOST_COBALT_IO_PIPE_HPP
  -- cobalt/io/random_access_device.hpp:8
  | .io_random_access_device => .BOOST_COBALT_IO_STREAM_HPP
  -- cobalt/io/random_access_file.hpp:8
  | .io_random_access_file => .BOOST_COBALT_IO_RANDOM_ACCESS_FILE_HPP
  -- cobalt/io/read.hpp:8
  | .io_read => .BOOST_COBALT_IO_READ_HPP
  -- cobalt/io/resolver.hpp:9
  | .io_resolver => .BOOST_COBALT_RESOLVER_HPP
  -- cobalt/io/seq_packet_socket.hpp:8
  | .io_seq_packet_socket => .BOOST_COBALT_IOSEQ_PACKET_SOCKET_HPP
  -- cobalt/io/serial_port.hpp:8
  | .io_serial_port => .BOOST_COBALT_IO_SERIAL_PORT_HPP
  -- cobalt/io/signal_set.hpp:8
  | .io_signal_set => .BOOST_COBALT_IO_SIGNAL_SET_HPP
  -- cobalt/io/sleep.hpp:8
  | .io_sleep => .BOOST_COBALT_IO_SLEEP_HPP
  -- cobalt/io/socket.hpp:8
  | .io_socket => .BOOST_COBALT_IOSOCKET_HPP
  -- cobalt/io/ssl.hpp:9
  | .io_ssl => .BOOST_COBALT_SSL_HPP
  -- cobalt/io/steady_timer.hpp:8
  | .io_steady_timer => .BOOST_COBALT_IO_STEADY_TIMER_HPP
  -- cobalt/io/stream.hpp:8
  | .io_stream => .BOOST_COBALT_IO_STREAM_HPP
  -- cobalt/io/stream_file.hpp:8
  | .io_stream_file => .BOOST_COBALT_IO_STREAM_FILE_HPP
  -- cobalt/io/stream_socket.hpp:8
  | .io_stream_socket => .BOOST_COBALT_IO_STREAM_SOCKET_HPP
  -- cobalt/io/system_timer.hpp:8
  | .io_system_timer => .BOOST_COBALT_IO_SYSTEM_TIMER_HPP
  -- cobalt/io/write.hpp:8
  | .io_write => .BOOST_COBALT_IO_WRITE_HPP
  -- cobalt/join.hpp:8
  | .join_ => .BOOST_COBALT_JOIN_HPP
  -- cobalt/main.hpp:5
  | .main_ => .BOOST_COBALT_MAIN_HPP
  -- cobalt/noop.hpp:8
  | .noop => .BOOST_COBALT_NOOP_HPP
  -- cobalt/op.hpp:8
  | .op => .BOOST_COBALT_OP_HPP
  -- cobalt/promise.hpp:8
  | .promise => .BOOST_COBALT_PROMISE_HPP
  -- cobalt/race.hpp:8
  | .race => .BOOST_COBALT_RACE_HPP
  -- cobalt/result.hpp:5
  | .result => .BOOST_COBALT_RESULT_HPP
  -- cobalt/run.hpp:5
  | .run => .BOOST_COBALT_RUN_HPP
  -- cobalt/spawn.hpp:8
  | .spawn => .BOOST_COBALT_SPAWN_HPP
  -- cobalt/task.hpp:8
  | .task => .BOOST_COBALT_TASK_HPP
  -- cobalt/this_coro.hpp:5
  | .this_coro => .BOOST_COBALT_THIS_CORO_HPP
  -- cobalt/this_thread.hpp:8
  | .this_thread => .BOOST_COBALT_THIS_THREAD_HPP
  -- cobalt/thread.hpp:8
  | .thread_ => .BOOST_COBALT_THREAD_HPP
  -- cobalt/unique_handle.hpp:8
  | .unique_handle => .BOOST_COBALT_HANDLE_HPP
  -- cobalt/wait_group.hpp:5
  | .wait_group => .BOOST_COBALT_WAIT_GROUP_HPP
  -- cobalt/with.hpp:8
  | .with_ => .BOOST_COBALT_WITH_HPP

/-- The headers of the library a header includes before what it declares, in their order. -/
def before : Hdr → List Hdr
  -- cobalt.hpp:11-31
  | .all => [.async_for, .channel, .concepts, .config, .detached, .error, .gather, .generator,
      .join_, .main_, .op, .promise, .run, .race, .spawn, .task, .this_coro, .this_thread,
      .thread_, .wait_group, .with_]
  -- cobalt/async_for.hpp: none
  | .async_for => []
  -- cobalt/channel.hpp:11-13
  | .channel => [.this_thread, .unique_handle, .d_util]
  -- cobalt/composition.hpp:11-12
  | .composition => [.op, .d_sbo_resource]
  -- cobalt/concepts.hpp: none
  | .concepts => []
  -- cobalt/config.hpp: none
  | .config => []
  -- cobalt/detached.hpp:11-11
  | .detached => [.d_detached]
  -- cobalt/detail/await_result_helper.hpp:11-11
  | .d_await_result_helper => [.concepts]
  -- cobalt/detail/detached.hpp:11-15
  | .d_detached => [.d_exception, .d_forward_cancellation, .d_wrapper, .d_this_thread, .op]
  -- cobalt/detail/exception.hpp:12-12
  | .d_exception => [.config]
  -- cobalt/detail/fork.hpp:8-12
  | .d_fork => [.config, .d_await_result_helper, .d_util, .this_thread, .unique_handle]
  -- cobalt/detail/forward_cancellation.hpp:11-11
  | .d_forward_cancellation => [.config]
  -- cobalt/detail/gather.hpp:11-18
  | .d_gather => [.d_await_result_helper, .d_exception, .d_fork, .d_forward_cancellation, .d_util,
      .d_wrapper, .task, .this_thread]
  -- cobalt/detail/generator.hpp:11-19
  | .d_generator => [.concepts, .result, .d_exception, .d_forward_cancellation, .d_this_thread,
      .unique_handle, .d_wrapper, .op, .noop]
  -- cobalt/detail/handler.hpp:8-12
  | .d_handler => [.this_coro, .unique_handle, .d_util, .d_sbo_resource]
  -- cobalt/detail/join.hpp:11-18
  | .d_join => [.d_await_result_helper, .d_exception, .d_fork, .d_forward_cancellation, .d_util,
      .d_wrapper, .task, .this_thread]
  -- cobalt/detail/main.hpp:11-13
  | .d_main => [.main_, .op, .this_coro]
  -- cobalt/detail/monotonic_resource.hpp:15-15
  | .d_monotonic_resource => [.config]
  -- cobalt/detail/promise.hpp:11-17
  | .d_promise => [.d_exception, .d_forward_cancellation, .d_wrapper, .d_this_thread, .noop, .op,
      .unique_handle]
  -- cobalt/detail/race.hpp:11-17
  | .d_race => [.d_await_result_helper, .d_fork, .d_handler, .d_forward_cancellation, .result,
      .this_thread, .d_util]
  -- cobalt/detail/sbo_resource.hpp:11-11
  | .d_sbo_resource => [.config]
  -- cobalt/detail/spawn.hpp:11-11
  | .d_spawn => [.task]
  -- cobalt/detail/task.hpp:11-16
  | .d_task => [.d_exception, .d_forward_cancellation, .d_wrapper, .d_this_thread, .noop, .op]
  -- cobalt/detail/this_thread.hpp:11-11
  | .d_this_thread => [.this_thread]
  -- cobalt/detail/thread.hpp:11-16
  | .d_thread => [.config, .d_forward_cancellation, .d_handler, .concepts, .op, .this_coro]
  -- cobalt/detail/util.hpp:8-9
  | .d_util => [.config, .this_thread]
  -- cobalt/detail/wait_group.hpp:11-13
  | .d_wait_group => [.promise, .race, .gather]
  -- cobalt/detail/with.hpp:8-9
  | .d_with => [.concepts, .this_coro]
  -- cobalt/detail/wrapper.hpp:8-10
  | .d_wrapper => [.this_coro, .concepts, .d_util]
  -- cobalt/error.hpp:8-8
  | .error => [.config]
  -- cobalt/experimental/context.hpp:12-14
  | .x_context => [.concepts, .x_frame, .config]
  -- cobalt/experimental/frame.hpp: none
  | .x_frame => []
  -- cobalt/experimental/yield_context.hpp:11-12
  | .x_yield_context => [.x_frame, .concepts]
  -- cobalt/gather.hpp:11-12
  | .gather => [.concepts, .d_gather]
  -- cobalt/generator.hpp:11-11
  | .generator => [.d_generator]
  -- cobalt/impl/channel.hpp:11-12
  | .impl_channel => [.channel, .result]
  -- cobalt/io.hpp:11-32
  | .io_ => [.io_acceptor, .io_buffer, .io_datagram_socket, .io_endpoint, .io_file, .io_ops,
      .io_pipe, .io_random_access_device, .io_random_access_file, .io_read, .io_resolver,
      .io_seq_packet_socket, .io_serial_port, .io_signal_set, .io_sleep, .io_socket,
      .io_steady_timer, .io_stream, .io_stream_file, .io_stream_socket, .io_system_timer,
      .io_write]
  -- cobalt/io/acceptor.hpp:12-14
  | .io_acceptor => [.io_ops, .io_stream_socket, .io_seq_packet_socket]
  -- cobalt/io/buffer.hpp:13-13
  | .io_buffer => [.config]
  -- cobalt/io/datagram_socket.hpp:11-12
  | .io_datagram_socket => [.io_endpoint, .io_socket]
  -- cobalt/io/endpoint.hpp:11-12
  | .io_endpoint => [.config, .d_exception]
  -- cobalt/io/file.hpp:13-13
  | .io_file => [.config]
  -- cobalt/io/ops.hpp:11-15
  | .io_ops => [.config, .d_handler, .io_buffer, .op, .result]
  -- cobalt/io/pipe.hpp:11-15
  | .io_pipe => [.config, .io_buffer, .io_ops, .io_stream, .op]
  -- cobalt/io/random_access_device.hpp:11-12
  | .io_random_access_device => [.io_buffer, .io_ops]
  -- cobalt/io/random_access_file.hpp:13-19
  | .io_random_access_file => [.config, .io_buffer, .io_file, .io_ops, .io_random_access_device,
      .noop, .op]
  -- cobalt/io/read.hpp:11-12
  | .io_read => [.io_buffer, .io_ops]
  -- cobalt/io/resolver.hpp:12-15
  | .io_resolver => [.io_endpoint, .io_ops, .op, .promise]
  -- cobalt/io/seq_packet_socket.hpp:11-12
  | .io_seq_packet_socket => [.io_endpoint, .io_socket]
  -- cobalt/io/serial_port.hpp:11-14
  | .io_serial_port => [.op, .io_ops, .io_buffer, .io_stream]
  -- cobalt/io/signal_set.hpp:11-11
  | .io_signal_set => [.op]
  -- cobalt/io/sleep.hpp:11-13
  | .io_sleep => [.io_ops, .io_steady_timer, .io_system_timer]
  -- cobalt/io/socket.hpp:11-12
  | .io_socket => [.io_endpoint, .io_ops]
  -- cobalt/io/ssl.hpp:12-13
  | .io_ssl => [.io_socket, .io_stream]
  -- cobalt/io/steady_timer.hpp:11-12
  | .io_steady_timer => [.op, .io_ops]
  -- cobalt/io/stream.hpp:11-12
  | .io_stream => [.io_buffer, .io_ops]
  -- cobalt/io/stream_file.hpp:13-18
  | .io_stream_file => [.config, .io_buffer, .io_file, .io_ops, .io_stream, .op]
  -- cobalt/io/stream_socket.hpp:11-13
  | .io_stream_socket => [.io_endpoint, .io_socket, .io_stream]
  -- cobalt/io/system_timer.hpp:11-12
  | .io_system_timer => [.op, .io_ops]
  -- cobalt/io/write.hpp:11-12
  | .io_write => [.io_buffer, .io_ops]
  -- cobalt/join.hpp:11-12
  | .join_ => [.concepts, .d_join]
  -- cobalt/main.hpp:8-9
  | .main_ => [.concepts, .this_coro]
  -- cobalt/noop.hpp: none
  | .noop => []
  -- cobalt/op.hpp:11-13
  | .op => [.d_handler, .d_sbo_resource, .result]
  -- cobalt/promise.hpp:11-11
  | .promise => [.d_promise]
  -- cobalt/race.hpp:11-13
  | .race => [.concepts, .d_race, .d_wrapper]
  -- cobalt/result.hpp:8-8
  | .result => [.concepts]
  -- cobalt/run.hpp:8-9
  | .run => [.spawn, .task]
  -- cobalt/spawn.hpp:11-11
  | .spawn => [.d_spawn]
  -- cobalt/task.hpp:11-13
  | .task => [.d_handler, .d_task, .op]
  -- cobalt/this_coro.hpp:8-9
  | .this_coro => [.this_thread, .d_this_thread]
  -- cobalt/this_thread.hpp:11-11
  | .this_thread => [.config]
  -- cobalt/thread.hpp:11-13
  | .thread_ => [.d_thread, .d_exception, .d_await_result_helper]
  -- cobalt/unique_handle.hpp: none
  | .unique_handle => []
  -- cobalt/wait_group.hpp:8-8
  | .wait_group => [.d_wait_group]
  -- cobalt/with.hpp:13-15
  | .with_ => [.d_util, .d_await_result_helper, .d_with]

/-- The headers of the library a header includes after what it declares (`channel.hpp:343`,
`main.hpp:43`). -/
def after : Hdr → List Hdr
  | .channel => [.impl_channel]
  | .main_ => [.d_main]
  | _ => []

/-- The headers whose declarations a header uses: those it includes before them. The two headers
that only include others, `cobalt.hpp` and `cobalt/io.hpp`, use none. -/
def uses : Hdr → List Hdr
  | .all => []
  | .io_ => []
  | h => before h

/-- How high a header stands above the headers that include none: used in the proofs only. -/
def rank : Hdr → Nat
  | .all => 12
  | .async_for => 0
  | .channel => 3
  | .composition => 6
  | .concepts => 0
  | .config => 0
  | .detached => 7
  | .d_await_result_helper => 1
  | .d_detached => 6
  | .d_exception => 1
  | .d_fork => 3
  | .d_forward_cancellation => 1
  | .d_gather => 8
  | .d_generator => 6
  | .d_handler => 4
  | .d_join => 8
  | .d_main => 7
  | .d_monotonic_resource => 1
  | .d_promise => 6
  | .d_race => 5
  | .d_sbo_resource => 1
  | .d_spawn => 8
  | .d_task => 6
  | .d_this_thread => 2
  | .d_thread => 6
  | .d_util => 2
  | .d_wait_group => 10
  | .d_with => 4
  | .d_wrapper => 4
  | .error => 1
  | .x_context => 1
  | .x_frame => 0
  | .x_yield_context => 1
  | .gather => 9
  | .generator => 7
  | .impl_channel => 4
  | .io_ => 10
  | .io_acceptor => 9
  | .io_buffer => 1
  | .io_datagram_socket => 8
  | .io_endpoint => 2
  | .io_file => 1
  | .io_ops => 6
  | .io_pipe => 8
  | .io_random_access_device => 7
  | .io_random_access_file => 8
  | .io_read => 7
  | .io_resolver => 8
  | .io_seq_packet_socket => 8
  | .io_serial_port => 8
  | .io_signal_set => 6
  | .io_sleep => 8
  | .io_socket => 7
  | .io_ssl => 8
  | .io_steady_timer => 7
  | .io_stream => 7
  | .io_stream_file => 8
  | .io_stream_socket => 8
  | .io_system_timer => 7
  | .io_write => 7
  | .join_ => 9
  | .main_ => 6
  | .noop => 0
  | .op => 5
  | .promise => 7
  | .race => 6
  | .result => 1
  | .run => 10
  | .spawn => 9
  | .task => 7
  | .this_coro => 3
  | .this_thread => 1
  | .thread_ => 7
  | .unique_handle => 0
  | .wait_group => 11
  | .with_ => 5

/-- The first header with the guard: used in the proofs only. -/
def pick : Guard → Hdr
  | .BOOST_COBALT_HPP => .all
  | .BOOST_COBALT_COBALT_FOR_HPP => .async_for
  | .BOOST_COBALT_CHANNEL_HPP => .channel
  | .BOOST_COBALT_EXPERIMENTAL_COMPOSITION_HPP => .composition
  | .BOOST_COBALT_CONCEPTS_HPP => .concepts
  | .BOOST_COBALT_CONFIG_HPP => .config
  | .BOOST_COBALT_DETACHED_HPP => .detached
  | .BOOST_COBALT_DETAIL_AWAIT_RESULT_HELPER_HPP => .d_await_result_helper
  | .BOOST_COBALT_DETAIL_DETACHED_HPP => .d_detached
  | .BOOST_COBALT_DETAIL_EXCEPTION_HPP => .d_exception
  | .BOOST_COBALT_DETAIL_FORK_HPP => .d_fork
  | .BOOST_COBALT_DETAIL_FORWARD_CANCELLATION_HPP => .d_forward_cancellation
  | .BOOST_COBALT_DETAIL_GATHER_HPP => .d_gather
  | .BOOST_COBALT_DETAIL_GENERATOR_HPP => .d_generator
  | .BOOST_COBALT_HANDLER_HPP => .d_handler
  | .BOOST_COBALT_DETAIL_JOIN_HPP => .d_join
  | .BOOST_DETAIL_COBALT_MAIN_HPP => .d_main
  | .BOOST_COBALT_DETAIL_MONOTONIC_BUFFER_RESOURCE_HPP => .d_monotonic_resource
  | .BOOST_COBALT_DETAIL_PROMISE_HPP => .d_promise
  | .BOOST_COBALT_DETAIL_RACE_HPP => .d_race
  | .BOOST_COBALT_DETAIL_SBO_BUFFER_RESOURCE_HPP => .d_sbo_resource
  | .BOOST_COBALT_DETAIL_SPAWN_HPP => .d_spawn
  | .BOOST_COBALT_DETAIL_TASK_HPP => .d_task
  | .BOOST_COBALT_DETAIL_THIS_THREAD_HPP => .d_this_thread
  | .BOOST_COBALT_DETAIL_THREAD_HPP => .d_thread
  | .BOOST_COBALT_UTIL_HPP => .d_util
  | .BOOST_COBALT_DETAIL_WAIT_GROUP_HPP => .d_wait_group
  | .BOOST_COBALT_DETAIL_WITH_HPP => .d_with
  | .BOOST_COBALT_WRAPPER_HPP => .d_wrapper
  | .BOOST_COBALT_ERROR_HPP => .error
  | .BOOST_COBALT_EXPERIMENTAL_CONTEXT_HPP => .x_context
  | .BOOST_COBALT_EXPERIMENTAL_FRAME_HPP => .x_frame
  | .BOOST_COBALT_EXPERIMENTAL_YIELD_CONTEXT_HPP => .x_yield_context
  | .BOOST_COBALT_GATHER_HPP => .gather
  | .BOOST_COBALT_GENERATOR_HPP => .generator
  | .BOOST_COBALT_IMPL_CHANNEL_HPP => .impl_channel
  | .BOOST_COBALT_IO_HPP => .io_
  | .BOOST_COBALT_EXPERIMENTAL_IO_ACCEPTOR_HPP => .io_acceptor
  | .BOOST_COBALT_IO_BUFFER_HPP => .io_buffer
  | .BOOST_COBALT_IODATAGRAM_SOCKET_HPP => .io_datagram_socket
  | .BOOST_COBALT_IO_ENDPOINT_HPP => .io_endpoint
  | .BOOST_COBALT_IO_FILE_HPP => .io_file
  | .BOOST_COBALT_OPS_HPP => .io_ops
  | .BOOST_COBALT_IO_PIPE_HPP => .io_pipe
  | .BOOST_COBALT_IO_STREAM_HPP => .io_random_access_device
  | .BOOST_COBALT_IO_RANDOM_ACCESS_FILE_HPP => .io_random_access_file
  | .BOOST_COBALT_IO_READ_HPP => .io_read
  | .BOOST_COBALT_RESOLVER_HPP => .io_resolver
  | .BOOST_COBALT_IOSEQ_PACKET_SOCKET_HPP => .io_seq_packet_socket
  | .BOOST_COBALT_IO_SERIAL_PORT_HPP => .io_serial_port
  | .BOOST_COBALT_IO_SIGNAL_SET_HPP => .io_signal_set
  | .BOOST_COBALT_IO_SLEEP_HPP => .io_sleep
  | .BOOST_COBALT_IOSOCKET_HPP => .io_socket
  | .BOOST_COBALT_SSL_HPP => .io_ssl
  | .BOOST_COBALT_IO_STEADY_TIMER_HPP => .io_steady_timer
  | .BOOST_COBALT_IO_STREAM_FILE_HPP => .io_stream_file
  | .BOOST_COBALT_IO_STREAM_SOCKET_HPP => .io_stream_socket
  | .BOOST_COBALT_IO_SYSTEM_TIMER_HPP => .io_system_timer
  | .BOOST_COBALT_IO_WRITE_HPP => .io_write
  | .BOOST_COBALT_JOIN_HPP => .join_
  | .BOOST_COBALT_MAIN_HPP => .main_
  | .BOOST_COBALT_NOOP_HPP => .noop
  | .BOOST_COBALT_OP_HPP => .op
  | .BOOST_COBALT_PROMISE_HPP => .promise
  | .BOOST_COBALT_RACE_HPP => .race
  | .BOOST_COBALT_RESULT_HPP => .result
  | .BOOST_COBALT_RUN_HPP => .run
  | .BOOST_COBALT_SPAWN_HPP => .spawn
  | .BOOST_COBALT_TASK_HPP => .task
  | .BOOST_COBALT_THIS_CORO_HPP => .this_coro
  | .BOOST_COBALT_THIS_THREAD_HPP => .this_thread
  | .BOOST_COBALT_THREAD_HPP => .thread_
  | .BOOST_COBALT_HANDLE_HPP => .unique_handle
  | .BOOST_COBALT_WAIT_GROUP_HPP => .wait_group
  | .BOOST_COBALT_WITH_HPP => .with_

end Cobalt.Inc
