# Formal model of deepmind/reverb in Lean 4

This file is the plan and the trusted base. It was written before the proofs and is kept current.
Properties are listed in `properties.jsonl`, results in `MANIFEST.json`, mutation tests in `seeded/LOG.jsonl`.

## Layout

| path | content |
|------|---------|
| `lean/Verif/Basic.lean` | keys, status codes, outcome type with a distinct `died` case |
| `lean/Verif/Model/*.lean` | executable model of the C++ code; every definition cites the lines it models |
| `lean/Verif/Spec/*.lean` | small specifications, independent of the model's helpers |
| `lean/Verif/Proofs/*.lean` | helper lemmas and invariants |
| `lean/Verif/Props/*.lean` | property theorems only, each with an `example` that meets its hypotheses |

## Modelling conventions

* **Fatal checks.** `REVERB_CHECK*`, out-of-range vector access and dereference of `end()` are a separate
  outcome (`died`), never merged with an error status.
* **Errors.** `absl::Status` is modelled by its code. Message texts are dropped.
* **Numbers.** `double` is modelled by exact rationals (every finite double is one), plus an explicit NaN for
  priorities because the code tests for it. Rounding, infinities and overflow are modelled for the prioritized
  selector (`Dbl`, `DPrio`, C106) and the rate limiter (`DLimiter`, C107) only.
  `int64`/`uint64` counters are `Int`/`Nat` without overflow, except in delta encoding, where wrap-around matters and
  `BitVec` is used.
* **Randomness.** Every random draw is an explicit argument, so theorems quantify over all draws.
* **Time.** Timestamps and clock readings are explicit arguments. Deadlines are modelled as nondeterministic expiry events.
* **Locks.** A critical section that holds the mutex throughout is one atomic step of the model. Points where the code
  releases the mutex (condition waits) are step boundaries. Concurrency theorems quantify over all step sequences.
* **Hash maps** are association lists or functions; iteration order never matters in the modelled code, and where it
  does the order is an explicit argument.
* **Protobuf, gRPC, TensorFlow, file system, threads** are trusted and appear only through their contracts
  (ordered reliable stream until failure, atomic file creation/removal, mutual exclusion).

## Plan per property

| id | model | proof |
|----|-------|-------|
| C01, C02 | `keys_` list plus key→iterator map, as in fifo.cc/lifo.cc | refinement: simulation to "filter the insertion log" spec, induction on the call list |
| C03 | key vector and key→index map with swap-with-last | bijection invariant by induction; each draw index hits exactly one key |
| C04 | `IntrusiveHeap` as an array of nodes with explicit sift up/down | heap-order invariant through both sifts, root is minimum; ties through unique increasing update numbers |
| C05 | sum tree over index functions, `SetNode`, walk | invariant sum = own value + child sums; interval decomposition of [0,total) |
| C06 | all five selectors behind one `Selector` type | case analysis, plus success characterisation in terms of the key set |
| C07, C08 | `RateLimiter` counters | step theorem plus invariant by induction over histories |
| C09 | Python constructors as validating functions | linear arithmetic over all counters |
| C10, C11 | the table model instantiated as in `Table.queue`/`Table.stack` | simulation to a list queue/stack |
| C12–C14, C16–C21 | `Table` with any selectors | invariants by induction over operation lists |
| C15 | as above with ghost counters in the trace | induction on traces |
| C22 | Reset and a fresh table | bisimulation |
| C23 | Checkpoint / InsertCheckpointItem | round trip; behavioural equality for insertion-ordered selectors; the heap tie-break is refuted |
| C24 | table with arbitrary priorities | partial: no death if priorities are accepted by both selectors; refutation by concrete trace otherwise |
| C25–C29 | `TableWorkerLoop` as a transition system with queues | invariants over all step sequences; refutations for the parts that fail |
| C30, C31 | trajectory_util.cc | list induction |
| C32 | `DeltaEncode` over `BitVec w` rows | induction on rows |
| C33 | `MergeAdjacent` | partial for contiguous references, refutation for gaps and reordering |
| C34–C37 | `Chunker`, options | invariants by induction over call sequences |
| C38–C41 | writer thread, stream and server cache as one transition system | invariants; C41 refuted by a trace |
| C42, C43 | the old `Writer`: all its calls, with the answers of the stream | invariants of runs, simulation by the server's cache; refutations |
| C71–C74 | the same | invariant of runs that holds also within calls (C71); C72 refuted in two cases; iff with the signature; equality of functions |
| C77, C78 | the same | invariant of runs that relates the index within the episode to the steps appended, and every request to it (C77); case analysis of all calls and induction over the failing streams (C78; `C78_until_partial`: while streams end with Unavailable a call goes on until all is sent, without a limit on the items in flight; `C78_again_*`: after any number of failures it succeeds. With a limit the claim is false, `C78_limit_false`) |
| C44 | split function and client reassembly | round trip for all sizes |
| C45, C68, C69 | the client sampler: workers, queue, callers and `Close`, all schedules | invariants of runs; refutations of the request total and of timesteps after `Close` |
| C46 | cursor over chunks | induction |
| C47, C48 | queue with producers/consumers | refinement to a list; PopBatch clause refuted |
| C49 | store map, reference counts, cleaner queue | invariant and refutation of the race |
| C50, C51 | file system as finite map, Save as list of atomic operations | all crash prefixes |
| C52 | nested signature as tree; leaves with paths as specification | structural induction: the result is the list of all leaves in the order of their paths |
| C53 | stats ring buffer | partial and refutation (last completed event is withheld) |
| C54 | extension log in the table model; the extension worker with its requests | invariant: replayed log equals table; asynchronous extensions are told the same in the same order unless calls come while another one waits (refuted then) |
| C55, C66, C67 | the sample streams of both servers with their tables, all schedules and requests | invariants of runs, refutations of C66 and C67 |
| C56, C57, C64, C65 | the insert streams of both servers with their tables, all schedules and requests | invariants of runs, refutations |
| C58 | the sample streams of both servers; conversion functions of the client; the workers of a local sampler, and what the sampler does with a timeout that a server reports | invariants of runs, arithmetic, refutations |
| C59 | executor over the unbounded queue | invariant |
| C60 | `Extensions`: the functions of the table as programs that stop at each `ExtensionOperation`, any number of threads, the extension worker | simulation: the program of a call, run without interruption, is the step of the table model; invariant over interleavings gives the order of the calls. Refuted when calls come while another one waits |
| C75, C76 | as C60, with signals, stop flag and the phases of the extension worker | invariant (one caller waits); refutations with a lost signal, with a worker that sleeps after the last signal, with a caller left behind |
| C79–C83 | the Python `TrajectoryWriter` on top of the model of the C++ one; dm-tree | a journal that a user could keep is the specification; invariant over all runs that relates the history, the columns and the clock of the C++ writer to it (C79, C80, C82); neighbours in the history that share a chunk follow each other in it, composed with C33 (C81); structural induction over two trees (C83); refutations |
| C84–C88 | the three dataset ops on top of the model of the client sampler; TensorFlow's cancellation manager | the sampler under an iterator is a run of the client sampler (invariant), so C58, C61, C69 and C70 apply to it; the results are related call by call (C84); the counter is the number of timesteps since the last complete sample (C85); invariants from the moment of cancellation on (C86); composition with the checks of `NewSampler` (C87); algebra of the attributes (C88) |
| C89 | `Service`: the synchronous server with insert streams, sample streams and the calls answered at once over the same tables; the models of the trajectory writer and of the client sampler are connected to it by what was written to and read from streams (`Linked`, prefixes of `insertRequests`) | invariant: every item of a table was sent for it on some stream with its chunks (`Prov`); invariant of the connected sampler: what came from a stream are the samples collected from what was read; C33 and C44 for the ends. Contents of chunks are a function of their key, which exists when writers draw different keys (`contents_exist`). What the ends need from the server is a structure `Flow`, which is proved for both servers; for the asynchronous one (`AsyncService`: reactors of both kinds, table workers, callbacks) by a simulation by the models of C55 and C81 and by following samples through the worker (`WorkerOrigin`) |
| C90 | `Service` as for C89; `OpsOf n evs ops` says that the critical sections `ops` are due to the requests for table `n` | invariant over events (`Life`): each table is its own run from the start, with operations that come from requests for it, on data sent over the same stream. `C90_reachable` makes all theorems about reachable tables hold for the tables of a server |
| C91 | `Table.mutateItems`, which deletes first | from `C18_mutate`: the same items, priorities and counts as with the updates first if priorities are admitted; deletes happen in any case; false for refused priorities and for what extensions see |
| C92 | `updateOp` (ops/client.cc) over `Service`: attempts with what other clients do in between | induction over attempts; every attempt that gets there is a step of the server, so C90 and C18 apply; false if another client updates in between |
| C93 | `insertOp` (ops/client.cc) and `clientInsert` (client.py) as sequences of calls of the model of the old writer with chunks of one step | exact list of the items sent by induction over the tables; `C42_written_partial` for what a server gets from the streams; false for what a server refuses, which `Close` only logs |
| C61, C70 | validation functions, the checks of `NewSampler` | iff; invariant of runs; refutations |
| C62 | waiting sets and signals | invariant over all schedules |
| C94 | `Handshake`: client, handler, the two directions of the stream and the pointer on the heap as a transition system; a cut of the stream is an event | all states of an uncut call listed and closed under steps; an invariant for cut ones; a measure for the end. False for a cut between the response and the copy |
| C95 | `Status`: codes and messages, the four conversions, `IsRateLimiterTimeout` with real text search, the exceptions of Python and the three calls with timeouts | round trips; exact condition for the end of a dataset; for each call what is waited and raised. False for "Stream removed" and for timeouts of 0 |
| C96 | `Periodic`: the thread, the clock and the log of the runs as a transition system | invariants over the log of the runs; false that it can be started again |
| C97 | `Process`: the servers of a process, the calls of `Wait`, the one handler and `stop_server_fn` as a transition system | invariants over schedules; SIGINT for one server; false for two servers and for the handler of the program |
| C98 | `ServerCkpt.Job`: a server (`Service`), the call of `Checkpoint` under way (one table after the other, requests between them), the checkpoint on disk, restarts at any moment | invariant over all histories (`JInv`): each table is reachable from its configuration or from a table restored from a reachable one; `C23` for each record; false for the server as a whole |
| C99 | `SigCache.Client`: the cache of a client, its calls in several threads (ask, answer, take the mutex), servers that are replaced, the cache of the Python client | invariant over schedules (`Inv`); false for new writers after a restart, for two threads, and for the Python client |
| C100 | `Writer`, `Service` and `ClientSampler`, connected as for C89; `Writer.Use` are the calls somebody has made on a writer | C42 gives what an item shows, with all columns cut at the same places; C44 and C46 unpack it; C69 and C89_sampler give the order of what the sampler returns. For both servers, over `Flow` as for C89 |
| C101 | `Objects`: tables refer to selectors and limiters, as the shared pointers of the code do; `World` has all objects of a program, and servers with their maps from names to tables | The functions of table.cc through pointers refine `Model/Table.lean` if a table has its selectors for itself (`View.step_sim`); invariants over programs show that this is so for programs that hand everything over once |
| C102 | `PySample`: what `Client.sample` makes of the tensors that `GetNextTrajectory` returns, with Python's `len`, indexing and truth values; the generator over the results of the calls | The arrays are stacks of rows by `C44_data`, so that indexing gives the rows; `unflatten_as` by the lemmas of `Proofs/PyUnion.lean`; the way from the writer by C100 |
| C103 | `PyDataset`: nested structures of Python with named tuples, what `tree` and TensorFlow's `StructureCoder` do with them, the constructors and `from_table_signature` of the three classes, down to the attributes of the ops of `Dataset` | Both flattenings list the same leaves in the order of their paths, so they are equal (C52); the rest of the way by the models of NewSampler and of the iterators (C61, C84) |
| C104 | `Compression`: both sinks with the memory they write to, the bytes of tensors, `CompressTensorAsProto` and `DecompressTensorFromProto`; snappy is a parameter | Invariants over the list of calls the library makes to a sink: what a string and what the memory of a tensor hold after each call; the rest is reading back little-endian numbers. That damage is reported is false |
| C105 | `Table`, `Limiter`, `PyLimiters`: the limiter that the constructors make, in the table that uses it | One insert of a new item either waits and changes nothing or counts one; the deficit of the limiter shrinks by the ratio with each, and evictions keep the size above `min_size_to_sample`; likewise for samples. False for a ratio of 0 and for tables that are too small, both of which the constructors accept |
| C106 | `Dbl`, `DPrio`: doubles as rationals with infinities and NaN, round to nearest even with subnormals and overflow; the sum tree with every operation rounded | The bookkeeping is that of the exact model (C05); no sum is ever negative, so the walk ends at an element. On multiples of a power of two below 2^53 of it rounding does nothing: the tree is that of the exact model, call by call, and so is the walk. For any finite weights (`Moderate`), every node whose sum is touched passes the check of the code or the tree is built anew, so each sum differs from that of its children and its weight by at most `drift`, in all histories (`C106_close`, from `Near.step`). Zero priorities and infinities go wrong, by concrete histories |
| C107 | `DLimiter`: `CanSample`, `CanInsert` and the constructors with every operation rounded | Multiples of a power of two below 2^53 of it are not rounded; otherwise the error of each operation is bounded and added up, and compared with the slack that the constructor demands. False for NaN, and for large counters when the ratio is close to 1 |
| C108 | `Info` over `Waiters` and `Stats`: the events that each critical section and each caller keeps, `Table::info`, the loop of the handler interleaved with steps of the tables, the dictionary | Invariant: the events are the questions read off the states of the callers, and the open ones are those of the waiting callers; then the numbers follow from the invariant of C63. False with a table worker, which never reports that a request waits |
| C109 | `TFClient` over `ClientSampler`: options of the op, the one call of `GetNextTimestep`, number and types of the outputs, `tree.unflatten_as` | Invariant of runs with one call; C45 for the number of samples, C100 for what the item was made of (both servers). False for items of more than one step: only the first is returned |
| C110 | `AutoTuned`: the two buffers, the score, the decision | Refinement: the buffers hold the statistics of the current round, defined on the history of items alone; then the decision in all cases. False that the comparison is with the score before: a score that does not change the length is forgotten |
| C111 | `TrajWriter.createItem`, `validateColumn`, `validateItem`, `columnSpec` | Invariant of the writer: keys tell columns apart and held rows have the type of their column; the merged slices have as many rows as the column has references. False for a trajectory with some empty columns |
| C112 | `Service` (synchronous server) and `AsyncService` (asynchronous server) with tables of `Py.tableQueue` and `Py.tableStack` | Synchronous: ledger of what was inserted and given, with the stream, kept by induction over schedules: the refinement of C10/C11 for the sections of the streams, and for each insert stream what it has sent and inserted. Asynchronous: the same ledger for the worker of the table (inserted = applied, given = taken for requests), with three invariants beside it: what each insert stream has sent and the table has accepted, that accepted items are applied or wait, and that what the table has answered to a sample stream is what the stream has got |
| C113 | `TFInsert.build`, `TFInsert.insert` on top of `insertOp` | Case analysis of the static shapes, and the theorems of C93 for the kernel |
| C114 | `TrajWriter.append`, `Chunker.append`, `PyWriter.append` | Exact description of `Append` column by column, on the invariant of C34; acceptance as an equivalence; stuck columns stay stuck by induction over events |
| C115 | `TrajWriter.createItem`, `Writer.createItem`, `Service`, `AsyncService`, `ClientSampler` | C111 and the signature check of the old writer for what is accepted, C33/C42 for what is read back, C61 for the check of the sampler, and an invariant of the sampler by which each error comes from a sample or from the closed queue |
| C116 | `TrajWriter.append`, `Chunker.append`, with words for which calls belong to the present step (from replies only) | invariant over all events: the newest row of an unfinished chunk is of the present episode, and of the present step exactly if the column was given in it; each event leaves unfinished chunks as they are, finishes them or appends to them |
| C117 | `Table.run`, `Table.checkpoint`, `restore`; `Config.Life` lets requests and loads alternate and records the notifications of the requests | invariant over lives: the one of the table, the correspondence between notifications and counters, sample counts, rate bounds, order by timestamp; elementary steps do not depend on earlier notifications (`MStep.withLog`), a load keeps all fields the invariant mentions |
| C118 | `Model/Wiring.lean`: a world of rate limiters, extensions and tables with `table_`, `sync_extensions_`, `async_extensions_`, `has_async_extensions_` and `extension_requests_`; constructor, destructor, `EnableTableWorker`, `UnsafeAddExtension`, `UnsafeClearExtensions`, notification, loading | ownership invariant over all events; what each extension has heard, with the requests not handled yet, is the log of its table since it was added (log only grows: `Table.step_log`) |
| C119 | `Model/ClientSampler.lean` (as for C45, C69) | a closed queue stays as it is and calls return only errors (induction over schedules with `Flow` and `Eff`); bound by the capacity; the rest from C69 |
| C120 | `Model/TaskWorker.lean`: the pool of C59 (`Model/Executor.lean`) with the stages of every thread, the statistics and the checker | refinement of the pool to C59's; invariant relating stage, statistics and calls (`Proofs/TaskWorker.lean`); `LastThreadId` finds the last start, what the checker has read was true when read (`Proofs/TaskWorkerCheck.lean`) |
| C121 | `Model/SharedStore.lean`: the streams of the synchronous server with pointers into `Model/ChunkStore.lean` | invariant: the number of pointers to a chunk is the number of entries of maps and items that hold it; what is held has the right key; the map of a stream has the keys that its own requests tell (`Proofs/SharedStore.lean`) |
| C122 | `Model/NdArray.lean`: arrays with strides, the type tables, `memcpy` with buffer sizes, the loops over strings | index arithmetic of strides against row-major order, loop lemmas (`Proofs/NdArray.lean`) |
| C123 | `Model/Gil.lean`: the table of all methods as sequences of calls, releases, acquisitions and raises; any number of threads | a discipline checked for each method is an invariant of all threads (`Proofs/Gil.lean`) |
| C124 | `Model/OptsEq.lean`: `__eq__` of the two classes, over the options of `Model/Chunker.lean` | induction over the items; a run with two weights as witness |

Nothing is declared inexpressible. Real-time bounds, fairness of the OS scheduler, floating-point rounding (except C106, C107) and the
behaviour of gRPC/TensorFlow are outside the model; liveness statements are therefore given as "an enabled step exists"
or as bounded-measure arguments.

## What is modelled

| model file | code | left out |
|---|---|---|
| `Fifo`, `Uniform`, `Heap`, `Prioritized`, `Selector` | the five item selectors and `intrusive_heap.h` | `Clear`/`options` beyond their effect; rounding in the sum tree is in `DPrio` |
| `Limiter`, `PyLimiters` | `rate_limiter.cc` counters and decisions, the Python constructors | statistics are in `Stats` and `Info` |
| `Trajectory` | `trajectory_util.cc` | compression of slices |
| `Table` | `table.cc` except the two worker loops | signatures, deadlines as numbers |
| `Checkpoint` | table checkpoint and restoration | file format |
| `Worker` | `TableWorkerLoop`, the two enqueue functions, `Close`, destructor order | expiry of the weak callbacks of `InsertOrAssignAsync`; asynchronous extensions |
| `Waiters` | callers blocked in `AwaitCanInsert`/`AwaitAndFinalizeSample`, signals | fairness |
| `Stats` | `RateLimiterEventHistory`, the call counters and `GetEventHistory` | durations are exact, the clock is given |
| `Queues` | `queue.h`, `unbounded_queue.h` | `PopBatch` with a negative size |
| `Executor` | `task_executor.cc`: the threads, `Schedule`, `Close` | concurrent calls of `Close` |
| `Tensor` | `tensor_compression.cc` `DeltaEncode`, `DeltaEncodeList` | floating tensors are passed through |
| `ChunkStore` | `chunk_store.cc`: the map, weak references, the cleaner thread | capacity of the delete queue |
| `CkptFiles` | `tfrecord_checkpointer.cc`: the file operations of `Save`, `Load`, `LoadLatest`, the fallback, start of the server | groups; the record format; a record is a number |
| `ChunkData` | `trajectory_util.cc` `UnpackChunkColumn…`, the TensorFlow operations used on batches | compression, overflow of offsets |
| `Chunker` | `chunker.cc`: both kinds of options, `CellRef`, `Chunker` | locks; unknown dimensions of the spec (the writer uses the shape of the first tensor) |
| `Sample` | `sampler.cc`: both `AsSample`, `Sample`; the splitting of samples into responses in both servers; the collecting of entries in `FetchSamples` | byte sizes (arbitrary functions), deprecated fields |
| `TensorSpec`, `TrajWriter` | `trajectory_writer.cc`: user calls, the stream worker cut at its critical sections and gRPC calls, the reader; `TensorSpec` compatibility | the data race between `AppendInternal`, which adds to `chunkers_` without the mutex, and the worker; blocking and the local-server variant of `Close`; names in signatures |
| `InsertStream` | the chunk caches of both servers for one insert stream | failing tables, the chunk store |
| `InsertReq`, `InsertSync` | `reverb_service_impl.cc` `InsertStreamInternal`: any number of streams over the tables of the server, cut at the calls that can block | the bounded queue between the reading thread and the handler; the chunk store |
| `InsertAsync` | `reverb_service_async_impl.cc` `WorkerlessInsertReactor` and `reverb_server_table_reactor.h`, the workers of the tables, the callback executor | gRPC: at most one read, write and finish at a time, completions are reported in any order; a second operation of a kind, a failed check and the use of a deleted reactor are the death of the process |
| `SampleReq`, `SampleSync` | `reverb_service_impl.cc` `SampleStreamInternal`: any number of streams over the tables of the server, cut at the calls that can block; `DefaultFlexibleBatchSize` | overflow of the default batch size; the log messages |
| `SampleAsync` | `reverb_service_async_impl.cc` `WorkerlessSampleReactor` and `reverb_server_table_reactor.h`, the workers of the tables, the callback executor, any number of streams | gRPC as for `InsertAsync`; callbacks handed over together are independent of each other here |
| `AsyncService` | `reverb_service_async_impl.cc` as a whole: insert and sample reactors, `MutatePriorities` and `Reset` over the same tables and workers | as for `InsertAsync` and `SampleAsync`; `Checkpoint` and `InitializeConnection` are not part of it |
| `Timeout` | `sampler.h` conversions between durations and milliseconds, the fields of the request of a client | 64-bit saturation, fractions of nanoseconds |
| `ClientSampler` | `sampler.cc`: options, both kinds of workers with `RunWorker` and `FetchSamples`, the queue, the three calls, validation against the output spec, `Close` | what the server or the table answers is an event (any answer, or one that C55 and C20 allow); overflow; the destructor |
| `NewSampler` | `client.cc`: the signature cache, `NewSampler` with its checks of requested types and shapes | the locks of the cache; names of columns |
| `Writer` | `writer.cc`: the constructor, `Append`, `AppendSequence`, `CreateItem`, `Flush`, `Close` and what they call; the thread that reads confirmations, by what it has done when a call waits for it | `DebugString`; the destructor (`Close` with its result ignored); compression; overflow; negative `chunk_length` or `max_timesteps` |
| `Signature` | `signature.cc`: the flattening of signatures; `client.cc` the map of flat signatures | bounds of bounded specs, which are ignored by the code; dimensions below -1; `StructuredValueFromChunkData` and `StructuredValueFromItem`, which nothing but tests uses |
| `Extensions` | `table.cc` with an extension worker: `ExtensionOperation` with its wait, `ExtensionsWorkerLoop`, `Reset`, the stop and the signals of the destructor; all calls of `Table` as programs | references into the map that become invalid when it grows; requests that only release memory; the table worker is a thread that makes calls |
| `PyTree` | the functions of dm-tree that are used, `_tree_union` of `trajectory_writer.py` | named tuples, keys that are not strings, `None` as a key; the union of a list with a dictionary is an exception |
| `PyWriter` | `trajectory_writer.py`: `TrajectoryWriter` with `history`, `episode_steps`, `configure`, `append`, `create_item`, `flush`, `end_episode`, `close`; `_ColumnHistory` and the constructor of `TrajectoryColumn` | the conversion of data to tensors; the flattening of the trajectory in `create_item` (columns are given as a list); column labels; `partition`, context manager |
| `Service` | `reverb_service_impl.cc` as a whole: the steps of `InsertSync` and `SampleSync`, `MutatePriorities`, `Reset`, `Close` over common tables | `ServerInfo`, `InitializeConnection`; `Checkpoint` is in `CkptFiles` |
| `Dataset` | `ops/dataset.cc`, `ops/timestep_dataset.cc`, `ops/trajectory_dataset.cc`: attributes, checks, `Initialize`, `GetNextInternal`, `AsGraphDefInternal`; `errors.cc` | `InputDatasets`, `CheckExternalState`, saving and restoring of iterators (not implemented in the code either), the cancellation manager beyond its interface; concurrent calls of one iterator |
| `ClientOps` | the kernels of `ops/client.cc` and `insert` of `client.py` as calls of writers and services | TensorFlow itself |
| `Handshake` | `Client::GetLocalTablePtr`, `InitializeConnection` of both servers, the choice in `NewSampler` | how gRPC names peers |
| `Status` | `grpc_util.h`, `tf_util.h`, `errors.cc`, `MaybeRaiseFromStatus`, the `try` statements around `Flush`, `EndEpisode` and `ServerInfo` | gRPC's own messages |
| `ServerLife` | `PeriodicClosure`; `Stop`, `Wait`, the worker and the signal handler of `platform/default/server.cc` | gRPC's shutdown, which is one step |
| `ServerCkpt` | `Save` and `Load` of `tfrecord_checkpointer.cc` for several tables, `Initialize` and `Checkpoint` of `reverb_service_impl.cc`, restarts | two calls of `Checkpoint` at the same time; the asynchronous server |
| `SigCache` | `MaybeUpdateServerInfoCache`, `ServerInfo`, `LockedUpdateServerInfoCache` of `client.cc`; `_signature_cache` of `client.py` | timeouts, except minus infinity: a request may fail at any time |
| `Objects` | the pointers of a table to its selectors and its limiter, `RegisterTable`/`UnregisterTable`, `~Table`, `reverb.Table`, `reverb.Server`, `Server.stop`, `Load` with new objects | extensions, signatures, ports, the garbage collector of Python (a statement says when a last reference goes) |
| `PySample` | `Client.sample` from the results of `GetNextTrajectory` on: splitting, unpacking, the generator | conversion between tensors and NumPy arrays, making the sampler (see `NewSampler`) |
| `PyDataset` | dataset.py, timestep_dataset.py, trajectory_dataset.py: constructors, `from_table_signature`, attributes of the ops, `element_spec`; the signature in server.py and reverb_types.py | `dtypes` and `shapes` of different structure, keys that are not strings, the waiting for `server_info`, tensors as addresses, TensorFlow 1 |
| `Compression` | `platform/default/snappy.cc`; `tensor_compression.cc` `CompressTensorAsProto`, `DecompressTensorFromProto` | snappy itself (its results are a parameter, that it is lossless a hypothesis); how TensorFlow puts strings into protos; big-endian machines; the number of bytes that `SnappyCompressFromString` returns |
| `Dbl` | the arithmetic of `double` used by `prioritized.cc`: rounding to nearest even, subnormals, overflow, infinities, NaN | the sign of zero; `std::pow` is any function to doubles that are not negative; excess precision of the compiler |
| `DPrio` | `prioritized.cc` in the arithmetic of `double` | `options`, `DebugString` |
| `DLimiter` | the decisions of `rate_limiter.cc` and the constructors of `rate_limiters.py` in the arithmetic of `double` | overflow of the counters; Python integers as arguments are converted to `float` first |
| `Info` | `Table::info`, `RateLimiter::Info`, the events of the callers, `ServerInfo`, the dictionary of `server_info` | the text of the proto; table worker information; the clock does not move inside a critical section |
| `TFClient` | `SampleOp::Compute`, `TFClient.sample` | lookup of the resource; the check of the output types is code of TensorFlow |
| `TFInsert` | `tf_client.py` `TFClient.insert` | static types and shapes are given; `is_compatible_with` of Python is taken to be that of C++ |
| `TaskWorker` | `TaskWorker` (task_worker.h), `LastThreadId` (thread_stats.cc) | the log messages (`FormatThreadStats`, time in the queue) |
| `SharedStore` | `InsertStreamInternal` of the synchronous server with pointers into the chunk store (`ChunkStore`) | tables: inserts succeed, an item is removed at any time; the asynchronous server, which does not use the chunk store for inserts |
| `NdArray` | `NdArrayToTensor`, `TensorToNdArray`, their type tables and `type_caster<Tensor>` in pybind.cc | numpy, Python and TensorFlow functions (from their documentation); failing allocations; reference counts |
| `Gil` | all methods of pybind.cc and the destructors of objects with threads, with respect to the interpreter lock | what the C++ calls do (C++ calls end, with any status); which C++ calls wait is read from the code by hand |
| `OptsEq` | the constructors and `__eq__` of chunker options in pybind.cc | hashing (Python makes these classes unhashable) |

## Disagreements between code and property

Each is proved as a theorem with a concrete run of the model.

| property | what happens | theorem |
|---|---|---|
| C10 | explicit deletes let a queue hold more inserts than its size | see `C10_C11_Queue` |
| C12, C24 | an insert that the remover refuses leaves the item in the table or the sampler | see `C24_Errors`, `C12_C13_C14_Contents` |
| C22 | `Reset` does not undo `Close` | see `C22_Reset` |
| C23 | restoring changes the order of equal priorities in the heap selectors | see `C23_Checkpoint` |
| C25 | a mutation between the critical sections of the worker is not noticed; an error ends the worker | `C25_lost_wakeup`, `C25_worker_ends` |
| C28 | requests are served after `Close` | `C28_served_after_close` |
| C29 | with the worker, samples of a timed-out batch are lost, an insert answered by a timeout is applied later, an insert answered OK is dropped | `C29_lost_samples`, `C29_late_insert`, `C29_dropped_ok` |
| C32 | an integral tensor with a first dimension of 0 is read out of bounds | `C32_no_rows` |
| C33 | `MergeAdjacent` looks only at the chunk keys: steps 0 and 2 of a chunk are read back as 0 and 1; in another order wrong steps are read or the sample cannot be unpacked | `TrajWriter.TrajDemo.C33_gap`, `TrajWriter.TrajDemo.C33_order` |
| C35 | an auto-tuned chunk length lowered while rows are buffered makes the next chunk longer than it | `Chunker.C35_autotuned` |
| C37 | `Clone` drops `delta_encode`: no chunk of a trajectory writer is ever delta encoded | `TrajWriter.C37_never_delta`, `TrajWriter.TrajDemo.C37_delta_dropped` |
| C41 | an item that was written but not confirmed when the stream breaks has left the queue: it is never sent again, and `Flush(0)` never succeeds | `TrajWriter.C41_lost`, `TrajWriter.TrajDemo.C41_item_lost` |
| C45 | a stream that ends with a timeout while nobody waits is opened again, and asks again for samples that were already asked for | `C45_requests_false` |
| C45 | a sample that the output spec rejects counts as requested and not as returned: the last call waits forever | `C45_reject_hang` |
| C45 | after a partly read sample, calls of `GetNextSample` wait forever | `C45_mixed_false` |
| C46 | a sample whose columns are cut into chunks at different places is composed of timesteps at first, but `GetNextTimestep` fails with `InvalidArgument` as soon as one column has finished a chunk before the others; it works exactly if all columns are cut at the same places | `C46_differently_cut`, `C46_exact` |
| C47 | `PopBatch` refuses after `SetLastItemPushed` although enough items are there | `C47_popBatch_after_last` |
| C49 | a chunk inserted between the death of its predecessor and the cleaner is dropped from the map | `C49_lost` |
| C50 | when the clock is set back `Save` deletes the checkpoint it has just written | `C50_clock` |
| C51 | a directory with `DONE` but without data hides older complete ones and counts as not found | `C51_missing_file` |
| C53 | the last completed call is left out of the history until another one completes | `C53_last_withheld` |
| C56 | unknown keys in a keep list kill the process (on the synchronous server after the item has been inserted and confirmed); on the asynchronous one so do repeated keys and empty requests, which the synchronous server accepts | `SyncServer.C56_sync_keep_false`, `SyncServer.C56_sync_accepts_false`, `AsyncServer.C56_async_keep_false` |
| C57 | the asynchronous server confirms items when they enter the queue of the table; an item still in it when the table is closed is never inserted | `AsyncServer.C57_async_false` |
| C42 | `CreateItem` takes chunks times `chunk_length` for the number of steps; after `Flush` it accepts items of more steps than were appended, with offset -1 | `Writer.C42_offset` |
| C42 | `CreateItem` with zero steps ends the process (the Python client refuses it) | `Writer.C42_zero` |
| C42 | the number of tensors may change from chunk to chunk; an item has as many columns as the oldest chunk | `Writer.C42_columns` |
| C42 | a stream that ends with OK while the writer still writes counts as success: the item stays pending and the next `Flush` ends the process | `Writer.C42_finish` |
| C43 | after DataLoss with items pending no `Append`, `Flush` or `Close` ever succeeds | `Writer.C43_stuck`, `Writer.C43_stuck_reached` |
| C43 | a failed `Append` may have sent its chunk; another step appended instead makes a chunk with the same key and other contents | `Writer.C43_same_key` |
| C78 | With `max_in_flight_items`, a call does not try again if an item is unconfirmed when the server becomes unavailable: it returns DataLoss | `Writer.C78_limit_false` |
| C78 | `Close` without retries returns OK although the server was unavailable and the pending items are lost (the code says so in a comment, the documentation does not) | `Writer.C78_lost` |
| C43 | a step of another shape is accepted and then every `Append` fails | `Writer.C43_poisoned` |
| C72 | `Flush` with items pending returns without waiting for confirmations; `Close` returns OK without them | `Writer.C72_flush`, `Writer.C72_close` |
| C58 | the synchronous server takes the timeout of the first request of a stream for all requests | `SyncSampler.C58_later_requests_false` |
| C58 | a timeout of zero, and any below a millisecond given to the client, is immediate on the synchronous server and infinite on the asynchronous one | `C58_zero_false`, `C58_short_false` |
| C54 | asynchronous extensions can be told of a sample of an item before they are told of its insertion | `Ext.C54_async_false` |
| C60 | a caller that waits for the extension worker in the middle of a deletion has released the lock: others see the item without its episode | `Ext.C60_read_false` |
| C60 | a second deletion of the same item in that moment kills the process | `Ext.C60_dies_false` |
| C75 | the extension worker wakes one caller only; a second one stays although there is room | `Ext.C75_false` |
| C76 | the extension worker can start to wait after the destructor has signalled | `Ext.C76_asleep_false` |
| C76 | the extension worker ends with requests pending, and the table worker waits for room for ever | `Ext.C76_waiting_false` |
| C79 | data that is a single tensor: the structure is forgotten, later fields are written but are not in the history | `PyWriter.PyDemo.C79_bare` |
| C79 | a first step without leaves is not counted | `PyWriter.PyDemo.C79_empty` |
| C81 | a slice with another step than 1 is read back as other steps | `PyWriter.PyDemo.C81_stride` |
| C82 | `end_episode` in an open step empties the history but leaves the step open: `append` raises `ValueError`, `episode_steps` is -1 | `PyWriter.PyDemo.C82_open` |
| C82 | `end_episode` that times out resets nothing, although its documentation says so | `PyWriter.PyDemo.C82_timeout` |
| C82 | `episode_steps` goes on counting after `end_episode(clear_buffers=False)` | `PyWriter.PyDemo.C82_kept` |
| C83 | a list with a new element that has fields, a field that becomes a dictionary, `None` for a dictionary: `append` raises an exception | `PyWriter.PyDemo.C83_misfits` |
| C84 | the old dataset with `emit_timesteps` and `sequence_length` 1: a timeout of the rate limiter is reported as `InvalidArgument` | `C84_counted_false` |
| C85 | without `emit_timesteps` the length is not checked: a batch of two timesteps is yielded where five are declared | `C85_batched_false` |
| C86 | a call that begins after the cancellation yields the next timestep of a sample that has been read partly | `C86_false` |
| C87 | the signatures come too late: nothing is checked, floats are declared and integers yielded | `C87_false` |
| C61 | when the signature cannot be fetched, errors are ignored and everything is accepted; the four info declarations are never looked at | `C61_error_ignored`, `C61_info_false` |
| C68 | `GetNextTimestep` goes on returning a partly read sample after `Close` | `C68_close_false` |
| C70 | a requested shape is compared with the signature and forgotten; data that does not have it is returned | `C70_shapes_false` |
| C62 | a signal can go to a caller that times out or whose priority is refused, and is then lost | `C62_timeout_loses_signal`, `C62_error_loses_signal` |
| C64 | a stream that is cancelled while a table has it waiting is never finished: the callback of the table does nothing | `AsyncServer.C64_false` |
| C65 | a thread of the callback executor that has locked the callback of a stream can call it after the stream has been deleted | `AsyncServer.C65_false` |
| C66 | after a failed write the stream is finished, but it goes on to take samples from the table, which reach nobody | `AsyncSampler.C66_false` |
| C67 | a stream cancelled after the write of its last response and before the next read is started is never finished: no read is started and nothing else is under way | `AsyncSampler.C67_false` |
| C91 | `MutateItems` deletes before it updates although the request and the Python client say the order of the arguments: a call with a refused priority has deleted, and a key in both lists is reported to extensions only as deleted | `C91_order_is_false` |
| C92 | an update whose answer was lost is sent again and undoes one that another client has made in between | `Service.C92_once_is_false` |
| C93 | `Client.insert` and the insert op return without an error when the server has refused the item: `Writer::Close` logs the status of the stream and returns OK | `Writer.C93_insert_is_false` |
| C94 | a stream that is cut (a server that is shut down) after the client has read the address lets the server free the pointer that the client then copies | `Handshake.C94_safe_is_false` |
| C94 | the server with callbacks calls `Finish` twice for a second request that is not a confirmation; the client of the library sends none | `Handshake.C94_unconfirmed` |
| C95 | `flush(timeout_ms=0)` and `server_info(timeout=0)` wait without a limit; `end_episode(timeout_ms=0)` does not wait | `PyError.C95_wait_is_false` |
| C95 | an unknown error with the message "Stream removed" arrives as unavailable (intended) | `Status.C95_code_is_false` |
| C96 | a `PeriodicClosure` that was stopped cannot be started again, although documented | `Periodic.C96_again_is_false` |
| C97 | two servers are waited for: SIGINT stops only the one waited for last, and later signals are ignored | `Process.C97_two_is_false` |
| C97 | after a `Wait` has returned the program does not get SIGINT any more: the handler is not put back | `Process.C97_ignored_is_false` |
| C98 | the tables are saved one after the other while requests go on: what is loaded may be a state in which the server never was | `ServerCkpt.C98_snapshot_is_false` |
| C50 | two calls of `Checkpoint` at the same time: the first to finish keeps the unfinished directory of the other and deletes its own checkpoint | `C50_overlap_is_false` |
| C99 | the server is replaced: new writers and samplers are made with the signatures of the old server until `ServerInfo` is called | `SigCache.C99_stale_is_false` |
| C99 | a thread that still has an old answer overwrites new signatures (a comment in client.cc knows it) | `SigCache.C99_race_is_false` |
| C99 | the Python client keeps the first signatures for good, also after `server_info` has returned others | `SigCache.C99_python_is_false` |
| C101 | Two tables may be given the same selector object. Nothing checks it: an insertion into one table lets sampling from the other dereference a null pointer | `C101_use_is_false`, `ObjectsDemo.shared_dies` |
| C101 | `reverb.Table(sampler=s, remover=s, ...)` with one object makes a table in which every insertion of a new item fails with `InvalidArgument` and leaves the item behind; its deletion ends the process | `C101_one_selector`, `ObjectsDemo.demo_twice` |
| C101 | A limiter that is used again after its table was destroyed is accepted but stays cancelled: the new table takes no items (`C101_used_limiter`). One that is still used ends the process instead of raising an exception | `C101_table` |
| C101 | After a restore, `Table.info` and `Table.can_sample` of the Python object show the table as it was given to the server, not the restored one that clients use | `C101_restored_handle`, `C101_handle_is_false` |
| C102 | `Client.sample` documents a `ValueError` for trajectories that are not made of timesteps. It splits what `GetNextTrajectory` returns, where squeezed columns have lost their first dimension: one step with a squeezed scalar raises `TypeError` (`C102_squeezed_scalar`, `C102_timesteps_is_false`), and one step of squeezed vectors of length n comes as n steps | `C102_squeezed_axis` |
| C103 | `ReplayDataset` with `emit_timesteps=False` and a `sequence_length` n declares n steps in its `element_spec` and yields sequences of any length | `C103_sequence_is_false` |
| C104 | A tensor whose compressed content is damaged is not reported: the result of `SnappyUncompressToString` is ignored, and the tensor has what happened to be in the memory | `C104_damage_is_false` |
| C105 | `SampleToInsertRatio` accepts a `samples_per_insert` of 0: consumers that have used up the error buffer wait for ever, whatever is inserted | `C105_zero_is_false`, `C105_no_ratio` |
| C105 | A table with `max_size < min_size_to_sample` is accepted and never gives a sample | `C105_small_table` |
| C106 | Rounding leaves a residue in the sums: keys whose priorities are all zero are not drawn uniformly, one of them is always drawn, with probability 0 | `C106_zero_priorities_false` |
| C106 | With such a residue a key of priority zero is drawn although another key has priority 1 | `C106_zero_drawn_false` |
| C106 | An infinite priority is accepted and never forgotten: after its key is deleted and the selector cleared, every draw returns the first key, with probability NaN | `C106_infinity_false`, `C106_nan_total` |
| C107 | `SampleToInsertRatio` accepts NaN as the ratio; inserts and samples then wait for ever, both | `C107_nan_ratio_false` |
| C107 | An accepted ratio of 1.001 blocks inserts and samples at the same time at counters of some 2 * 10^13, by rounding | `C107_rounding_false` |
| C108 | With a table worker no insert and no sample is ever reported as pending or limited, and no waiting time either, although requests wait in the queues | `C108_worker_false` |
| C108 | `num_episodes + num_deleted_episodes` is not the total number of episodes as documented: an episode whose item is deleted before another one is inserted counts twice | `C108_episodes_false` |
| C108 | The entries of different tables are from different moments: an item that was always in the first table while it was in the second can be missing in the first and present in the second | `C108_snapshot_false` |
| C109 | `TFClient.sample` ("Samples an item from the replay") returns only the first step of an item of several steps, without an error | `C109_whole_item_false` |
| C110 | The documentation of `AutoTunedChunkerOptions` says a score is compared with the most recent score before it. A score that did not change the length is not remembered, so later scores are compared with an older one | `C110_compared_false` |
| C111 | A trajectory with an empty column besides a non-empty one is not refused: `TrajectoryColumn::Validate` reads `locked_refs[0]` of an empty vector | `C111_empty_column_false` |
| C112 | Asynchronous server: samples that the worker has taken for a request, whose items have left the queue, are dropped when the request then times out; three confirmed items reach no consumer | `AsyncService.C112_async_lost` |
| C113 | Documented: ValueError if `priorities` and `tables` do not have the same shape. If a length is not known when the graph is made, the op is made and fails with InvalidArgument when it is run. A vector of unknown rank is refused. | `C113_late_is_false`, `C113_rank_is_false` |
| C114 | The columns before the refused tensor have got theirs. If their chunk is not finished, every later call that gives these fields fails with FailedPrecondition until `Flush` or `EndEpisode`, also with right data. | `C114_is_false`, `C114_stuck` |
| C115 | A column with the steps 2 and 1 of one chunk passes the signature check, but the sample cannot be unpacked; the error closes the sampler. | `C115_order_false` |
| C116 | A column given twice in a step is not refused if its chunk was finished by the first call: always with `max_chunk_length` 1, else if the chunk got full or was flushed. Two rows have the same step then. (The Python writer checks for itself, see C83.) | `C116_is_false` |
| C117 | The counters cannot be had from the notifications of the present server alone, although loading announces the items as inserted: removed items and earlier samples are missing. | `C117_own_log_is_false` |
| C118 | An extension that can run asynchronously and is added after `EnableTableWorker` to a table without asynchronous extensions never hears of insertions, samples and updates: `UnsafeAddExtension` does not set `has_async_extensions_`. | `C118_late`, `C118_late_is_false` |
| C118 | A rate limiter whose table was destroyed can be registered again, but stays cancelled: a table made with it refuses every insertion and sample with `Cancelled`. | `C118_reuse_is_false` |
| C118 | Selectors are not registered: one object as sampler and remover makes every insertion of a new item fail although the item stays in the table; one object in two tables can kill the process. | `C118_one_selector_is_false`, `C118_shared_selector_is_false` |
| C119 | `RunWorker` closes the queue when it reports an error, and a closed queue gives nothing away: samples that wait there, which the server has counted as sampled, are never returned. | `C119_lost`, `C119_is_false` |
| C119 | The check that a timeout of the rate limiter is only reported when somebody waits does not prevent this: a call that is about to take a sample still counts as waiting. | `C119_timeout_is_false` |
| C120 | "pending tasks will run with a cancelled status": a thread may take a pending task before `Close` does and runs it with OK. | `C120_cancel_is_false` |
| C120 | `Schedule` is documented to return true if the queue exceeds the limit; it returns false then, true otherwise. After `Close` it drops the task and returns true. | `C120_schedule_is_false`, `C120_dropped` |
| C120 | The deadlock checker reads one thread after the other: it may warn that all are blocked when one has finished. | `C120_warning_is_false` |
| C120 | With no threads the deadlock checker indexes an empty vector. | `C120_no_threads` |
| C121 | `ChunkStore::Insert` compares only keys: a chunk with the key of another live chunk, from any client or sent again, is dropped without an error and the item contains the other data. Keys are random 64 bit numbers or chosen by the client. | `C121_is_false`, `C121_again_is_false` |
| C122 | `NdArrayToTensor` asks numpy for a contiguous array but not for the byte order of the machine: an array with dtype `>u4` is stored without an error and 1 comes back as 16777216. | `C122_swapped`, `C122_swapped_is_false` |
| C122 | Strings come back as byte strings (their UTF-8 form). | `C122_text_is_false` |
| C122 | The loops over strings count with `int`: undefined for 2^31 or more elements. | `C122_large`, `C122_large_is_false` |
| C123 | `Table.info` builds a `py::bytes` while its guard has released the lock (574), in every call. | `C123_info_is_false` |
| C123 | `Writer.Flush`, `Client.NewWriter` and `Client.NewSampler` raise the exception for a failed call while the lock is released (588, 639, 655); comments in the same file say that this can crash. | `C123_raise_is_false` |
| C123 | `WeakCellRef.dtype` makes the numpy type while the lock is released (844-845). | `C123_dtype_is_false` |
| C123 | The constructor of `Server` keeps the lock while it loads a checkpoint: all Python threads stand still. So do the destructors of samplers, tables and servers, while they join their threads. | `C123_server_is_false`, `C123_del_is_false`, `C123_blocked` |
| C124 | `AutoTunedChunkerOptions.__eq__` ignores `throughput_weight`: equal options choose chunk lengths 5 and 2 for the same items. The test of `configure` with automatic chunk lengths cannot see a wrong weight. | `C124_auto_is_false` |

## Trusted base

* Lean 4.33.0 kernel. No axioms beyond `propext`, `Classical.choice`, `Quot.sound`; no `sorry`, `native_decide` or `bv_decide`.
* The correspondence between the cited C++/Python lines and the Lean definitions, which was done by reading.
* The conventions above.
