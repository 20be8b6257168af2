{"id": "C01", "title": "FIFO selector returns the oldest key", "statement": "After any sequence of Insert, Update, Delete and Clear calls, Sample on a non-empty FIFO selector returns, with probability 1, the key that was inserted earliest among the keys that are currently present; updates never change the order and a re-inserted key counts as new.", "quantifier": "every finite sequence of selector calls with arbitrary keys and priorities", "why_tests_cant": "A test fixes one history; the claim ranges over all interleavings of inserts, updates, deletes and clears of any length.", "anchors": ["reverb/cc/selectors/fifo.cc: FifoSelector::Insert/Delete/Update/Sample/Clear"]}
{"id": "C02", "title": "LIFO selector returns the newest key", "statement": "After any sequence of Insert, Update, Delete and Clear calls, Sample on a non-empty LIFO selector returns, with probability 1, the key that was inserted latest among the keys currently present.", "quantifier": "every finite sequence of selector calls with arbitrary keys and priorities", "why_tests_cant": "Unbounded histories; deletes from the middle followed by further inserts cannot be enumerated.", "anchors": ["reverb/cc/selectors/lifo.cc: LifoSelector::*"]}
{"id": "C03", "title": "Uniform selector draws every present key with the reported probability 1/n", "statement": "After any call sequence, the uniform selector holds exactly the inserted-and-not-deleted keys, each exactly once, so that each of the n keys is produced by exactly one of the n equally likely random draws, no absent key is ever produced, and the probability reported with the sample is 1/n.", "quantifier": "every finite call sequence and every possible random draw", "why_tests_cant": "Statistical tests only sample a few histories and draws; the swap-with-last deletion has to keep a bijection for every history.", "anchors": ["reverb/cc/selectors/uniform.cc: UniformSelector::*"]}
{"id": "C04", "title": "Heap selector returns the extreme priority, ties to the least recently written", "statement": "After any sequence of Insert, Update, Delete and Clear calls with ordinary (non-NaN) priorities, Sample on a non-empty max- (min-) heap selector returns the key whose current priority is largest (smallest); among equal priorities it returns the key whose last Insert or Update is the oldest.", "quantifier": "every finite call sequence, all keys, all finite priorities, both heap directions", "why_tests_cant": "The intrusive heap repairs itself by local swaps; only an invariant argument covers all shapes, sizes and repair paths.", "anchors": ["reverb/cc/selectors/heap.cc: HeapSelector::*", "reverb/cc/selectors/heap.h: HeapNodeCompare", "reverb/cc/support/intrusive_heap.h: Push/Adjust/Remove/FixHeapUp/FixHeapDown"]}
{"id": "C05", "title": "Prioritized selector samples in proportion to priority^exponent", "statement": "After any call sequence, the set of uniform draws in [0,1) for which the prioritized selector returns a given present key is an interval whose length is weight(key)/total weight, the reported probability is exactly that number, keys with priority zero are never returned while some weight is positive, and when all weights are zero every key gets an interval of length 1/n. No absent key is ever returned.", "quantifier": "every finite call sequence, every draw in [0,1), all non-negative priorities and exponents (exact arithmetic)", "why_tests_cant": "Probabilities can only be estimated by tests, and only for a few trees; the sum tree must stay consistent for all histories.", "anchors": ["reverb/cc/selectors/prioritized.cc: PrioritizedSelector::Insert/Update/Delete/Sample/SetNode/ReinitializeSumTree"]}
{"id": "C06", "title": "Rejected selector calls have no effect", "statement": "For every selector type, a call that returns an error (duplicate insert, update or delete of an absent key, NaN or negative priority for the prioritized selector) changes neither the set of keys nor anything observable by later calls, and a call succeeds exactly when the key is absent (Insert) or present (Update, Delete) and the priority is acceptable.", "quantifier": "all five selector types, every reachable selector state, every key and priority", "why_tests_cant": "Tests check a handful of error cases from a handful of states.", "anchors": ["reverb/cc/selectors/interface.h: ItemSelector", "reverb/cc/selectors/fifo.cc", "reverb/cc/selectors/lifo.cc", "reverb/cc/selectors/uniform.cc", "reverb/cc/selectors/heap.cc", "reverb/cc/selectors/prioritized.cc"]}
{"id": "C07", "title": "A sample is only granted when the table is big enough and the ratio allows it", "statement": "Whenever a sample is granted, at that moment the table's inserts minus deletes is at least min_size_to_sample and after it inserts*samples_per_insert - samples is still at least min_diff. Consequently, with samples_per_insert >= 0, in every history without Reset in which a sample has been granted the number of samples never exceeds inserts*samples_per_insert - min_diff.", "quantifier": "every history of insert, delete, sample and reset events and every limiter configuration", "why_tests_cant": "Inductive invariant over unbounded histories and real-valued parameters.", "anchors": ["reverb/cc/rate_limiter.cc: CanSample, MaybeCommitSample, AwaitAndFinalizeSample"]}
{"id": "C08", "title": "An insert is only granted while the ratio allows it", "statement": "Whenever a new item is inserted through the rate limiter, either the table (inserts minus deletes, counting this one) is not above min_size_to_sample or inserts*samples_per_insert - samples (counting this insert) is at most max_diff.", "quantifier": "every history of insert, delete, sample and reset events and every limiter configuration", "why_tests_cant": "Inductive invariant over unbounded histories and real-valued parameters.", "anchors": ["reverb/cc/rate_limiter.cc: CanInsert, AwaitCanInsert", "reverb/cc/table.cc: InsertOrAssign, TableWorkerLoop"]}
{"id": "C09", "title": "Validated rate limiters never block inserts and samples at the same time", "statement": "For every configuration accepted by the Python rate limiter constructors (MinSize, SampleToInsertRatio, Queue, Stack), in every state at least one of insert and sample is allowed; and a configuration for which both can block forever is rejected by SampleToInsertRatio.", "quantifier": "all accepted parameter values and all counter states", "why_tests_cant": "Deadlock freedom over a continuous parameter space and all counter values.", "anchors": ["reverb/rate_limiters.py: SampleToInsertRatio.__init__, MinSize, Queue, Stack", "reverb/cc/rate_limiter.cc: CanSample, CanInsert"]}
{"id": "C10", "title": "Table.queue is a bounded FIFO queue with exactly-once delivery", "statement": "A table built by Table.queue(max_size) whose items are inserted with distinct keys and never explicitly deleted delivers the items in exactly the order they were inserted, each exactly once and then gone, never holds more than max_size items, never evicts an unsampled item, blocks inserts exactly when it holds max_size items and blocks samples exactly when it is empty.", "quantifier": "all interleavings of inserts and samples, all max_size > 0", "why_tests_cant": "It is a joint property of rate limiter, FIFO sampler, FIFO remover and max_times_sampled over all interleavings.", "anchors": ["reverb/server.py: Table.queue", "reverb/rate_limiters.py: Queue", "reverb/cc/table.cc: InsertOrAssign, SampleInternal, DeleteItem"]}
{"id": "C11", "title": "Table.stack is a bounded stack", "statement": "A table built by Table.stack(max_size), with distinct keys and no explicit deletes, always delivers the most recently inserted item not yet delivered, each at most once, never holds more than max_size items, and blocks inserts exactly when full and samples exactly when empty.", "quantifier": "all interleavings of inserts and samples, all max_size > 0", "why_tests_cant": "Joint property of several components over all interleavings.", "anchors": ["reverb/server.py: Table.stack", "reverb/rate_limiters.py: Stack", "reverb/cc/table.cc"]}
{"id": "C12", "title": "A table never holds more than max_size items", "statement": "After every completed operation the number of items in the table is at most max_size.", "quantifier": "every sequence of insert, update, delete, sample, reset and restore operations with any arguments, every selector choice, max_size > 0", "why_tests_cant": "Unbounded histories and all selector combinations.", "anchors": ["reverb/cc/table.cc: InsertOrAssign, InsertOrAssignInternal, InsertCheckpointItem"]}
{"id": "C13", "title": "Table, sampler and remover always agree on the set of items", "statement": "After every operation the set of keys in the table equals the set of keys the sampler can draw and the set of keys the remover can draw, so every sampled or evicted key refers to a live item.", "quantifier": "every operation sequence in which the selectors accept the given priorities, all selector combinations", "why_tests_cant": "A missed update on any error or eviction path breaks it only after particular histories.", "anchors": ["reverb/cc/table.cc: InsertOrAssign, DeleteItem, UpdateItem, SampleInternal, Reset"]}
{"id": "C14", "title": "Eviction removes exactly one item, the remover's choice, and only when full", "statement": "An insert of a new key into a table with fewer than max_size items removes nothing. An insert into a full table removes exactly one item, the one the remover selects after the new item was added (possibly the new item itself), and leaves every other item unchanged.", "quantifier": "every reachable table state, every new item, every remover and every random draw", "why_tests_cant": "Ranges over all states and removers.", "anchors": ["reverb/cc/table.cc: InsertOrAssign 516-540, InsertOrAssignInternal 586-607"]}
{"id": "C15", "title": "max_times_sampled is a hard limit", "statement": "With max_times_sampled = m > 0 an item whose counter starts at zero is returned by at most m samples in total while it stays in the table, it is removed by its m-th sample, and the sample counter reported with the k-th sample of an item is k.", "quantifier": "every operation sequence, every m, every item", "why_tests_cant": "Counts events over unbounded histories with interleaved updates, evictions and deletes.", "anchors": ["reverb/cc/table.cc: SampleInternal"]}
{"id": "C16", "title": "Sample metadata is truthful", "statement": "Every sampled item comes with the data and priority currently stored for it, the table size at the moment of sampling, the probability reported by the sampler and times_sampled equal to the number of times it has been sampled including this one.", "quantifier": "every reachable state and random draw", "why_tests_cant": "All states and draws.", "anchors": ["reverb/cc/table.cc: SampleInternal"]}
{"id": "C17", "title": "Inserting an existing key only updates its priority", "statement": "InsertOrAssign with a key already in the table changes that item's priority and nothing else: not its data, insertion time, sample count, position in FIFO/LIFO order, table size, insert counters; it never evicts and is not rate limited (synchronous path).", "quantifier": "every reachable state, every existing key and every acceptable priority", "why_tests_cant": "All reachable states.", "anchors": ["reverb/cc/table.cc: InsertOrAssign 486-512, InsertOrAssignInternal 577-580, UpdateItem"]}
{"id": "C18", "title": "MutateItems applies exactly the requested deletes and updates", "statement": "MutateItems(updates, deletes) that returns OK leaves the table with every key in deletes removed, every other key in updates carrying the last priority given for it, and everything else untouched; keys that are not present are ignored without error and it never blocks.", "quantifier": "all update and delete lists (with repeats, unknown keys, keys in both lists) and all states", "why_tests_cant": "Quantifies over all argument lists and states.", "anchors": ["reverb/cc/table.cc: MutateItems, DeleteItem, UpdateItem", "reverb/cc/table.h: 206-212"]}
{"id": "C19", "title": "Episode accounting is exact", "statement": "num_episodes equals the number of distinct episodes referenced by the items in the table, and num_deleted_episodes increases by one exactly when the last item referencing an episode leaves.", "quantifier": "every operation sequence", "why_tests_cant": "Reference counts can be wrong only after particular overlap and deletion patterns.", "anchors": ["reverb/cc/table.cc: InsertOrAssign 531-534, DeleteItem 836-846, Reset, num_episodes"]}
{"id": "C20", "title": "num_unique_samples counts distinct sampled items", "statement": "num_unique_samples equals the number of items (per residence in the table) that have been sampled at least once since creation or the last reset.", "quantifier": "every operation sequence with fresh items", "why_tests_cant": "Counting property over unbounded histories.", "anchors": ["reverb/cc/table.cc: SampleInternal 765-768"]}
{"id": "C21", "title": "Rate limiter counters match the table", "statement": "In every reachable state inserts - deletes as seen by the rate limiter equals the current number of items, inserts equals the number of completed new-item inserts and samples the number of granted samples since the last reset.", "quantifier": "every operation sequence in which the selectors accept the given priorities", "why_tests_cant": "Inductive property over unbounded histories.", "anchors": ["reverb/cc/table.cc: InsertOrAssign, DeleteItem, Reset", "reverb/cc/rate_limiter.cc: Insert, Delete, Reset"]}
{"id": "C22", "title": "Reset returns the table to its initial behaviour", "statement": "After Reset the table is empty, all counters are zero, and it behaves in response to any further operations exactly like a newly created table with the same configuration (up to random draws and timestamps).", "quantifier": "every reachable state before Reset and every operation sequence after", "why_tests_cant": "Behavioural equivalence over all futures.", "anchors": ["reverb/cc/table.cc: Reset", "reverb/cc/rate_limiter.cc: Reset", "reverb/cc/selectors/*: Clear"]}
{"id": "C23", "title": "Checkpoint followed by restore preserves the table", "statement": "Saving a table and restoring it into a table with the same configuration gives the same set of items with the same data, priority, times_sampled and order of insertion, the same rate limiter counters and the same num_deleted_episodes/num_unique_samples; FIFO, LIFO, uniform and prioritized selection behave identically afterwards (for FIFO and LIFO if no two items were inserted at the same clock reading).", "quantifier": "every reachable table state", "why_tests_cant": "All states, including those where insertion time and selector order could disagree.", "anchors": ["reverb/cc/table.cc: Checkpoint, InsertCheckpointItem, set_num_deleted_episodes_from_checkpoint", "reverb/cc/rate_limiter.cc: CheckpointReader, RateLimiter(checkpoint)", "reverb/cc/platform/tfrecord_checkpointer.cc: Load"]}
{"id": "C24", "title": "No client request can kill the table", "statement": "No sequence of insert, sample, mutate and reset requests with arbitrary client-supplied keys and priorities makes the table hit a fatal internal check or corrupts its bookkeeping; a request that returns an error leaves the table as it was.", "quantifier": "every operation sequence with arbitrary arguments, including NaN and negative priorities", "why_tests_cant": "Crash freedom over all inputs and histories.", "anchors": ["reverb/cc/table.cc: REVERB_CHECK in DeleteItem, InsertCheckpointItem; InsertOrAssign 516-519"]}
{"id": "C25", "title": "Asynchronous inserts are applied exactly once and in order", "statement": "With the table worker enabled, items accepted by InsertOrAssignAsync are applied to the table in the order in which they were accepted, each at most once, and each one is eventually applied if the rate limiter lets it; the resulting table state equals that of applying the same operations sequentially.", "quantifier": "every schedule of enqueue, worker steps, samples and mutations", "why_tests_cant": "Schedules are unbounded and nondeterministic.", "anchors": ["reverb/cc/table.cc: InsertOrAssignAsync, TableWorkerLoop, InsertOrAssignInternal"]}
{"id": "C26", "title": "Each asynchronous sample request is answered exactly once and in order", "statement": "With the table worker enabled every enqueued sample request is finalized at most once, with OK exactly when its full batch was collected, otherwise with timeout or cancellation; requests are served in arrival order.", "quantifier": "every schedule of enqueue, worker steps, deadline expiries and cancellation", "why_tests_cant": "Schedules are unbounded and nondeterministic.", "anchors": ["reverb/cc/table.cc: EnqueSampleRequest, TableWorkerLoop, GetExpiredRequests, FinalizeSampleRequest"]}
{"id": "C27", "title": "Async insert backpressure bounds the queue and always resumes", "statement": "When InsertOrAssignAsync reports that no more inserts can be accepted its callback is called exactly once later, when the pending queue has been taken over by the worker; with k streams that stop inserting until called back, at most max_enqueued_inserts + k inserts are pending.", "quantifier": "every schedule and number of streams", "why_tests_cant": "Liveness and bounds over all schedules.", "anchors": ["reverb/cc/table.cc: InsertOrAssignAsync, TableWorkerLoop 272-291"]}
{"id": "C28", "title": "Closing a table releases every waiter", "statement": "After Close (rate limiter cancellation) no synchronous insert or sample stays blocked by the rate limiter: each returns Cancelled, and every queued asynchronous sample request is finalized with Cancelled.", "quantifier": "every state at the moment of Close and every schedule", "why_tests_cant": "All states and schedules.", "anchors": ["reverb/cc/table.cc: Close, TableWorkerLoop 300-318", "reverb/cc/rate_limiter.cc: Cancel, AwaitCanInsert, AwaitAndFinalizeSample"]}
{"id": "C29", "title": "A timed-out or failed request has no effect", "statement": "An insert or sample request that is answered with a timeout (or cancellation) leaves the table unchanged: the item is not inserted later and no item is counted as sampled without being delivered.", "quantifier": "every schedule, batch size and deadline", "why_tests_cant": "All schedules.", "anchors": ["reverb/cc/table.cc: InsertOrAssign, SampleFlexibleBatch, TableWorkerLoop, EnqueSampleRequest", "reverb/cc/rate_limiter.cc: AwaitCanInsert, AwaitAndFinalizeSample"]}
{"id": "C30", "title": "Chunk keys of a trajectory are complete and without duplicates", "statement": "GetChunkKeys returns exactly the keys of the chunks referenced by the trajectory, each once, in order of first use; the table accepts an item only if its chunks are exactly those, in that order.", "quantifier": "every trajectory", "why_tests_cant": "All inputs.", "anchors": ["reverb/cc/support/trajectory_util.cc: GetChunkKeys", "reverb/cc/table.cc: CheckItemValidity"]}
{"id": "C31", "title": "A timestep trajectory covers exactly the requested steps", "statement": "FlatTimestepTrajectory(chunks, lengths, columns, offset, length) yields a trajectory in which every column selects, in order, exactly the rows offset..offset+length-1 of the concatenated chunks, it is recognised by IsTimestepTrajectory, and its length and offset are reported as given.", "quantifier": "all chunk lists, offsets and lengths within range, all column counts", "why_tests_cant": "All inputs.", "anchors": ["reverb/cc/support/trajectory_util.cc: FlatTimestepTrajectory, IsTimestepTrajectory, TimestepTrajectoryLength, TimestepTrajectoryOffset"]}
{"id": "C32", "title": "Delta encoding is lossless", "statement": "Decoding a delta-encoded tensor yields the original tensor for every integer type width, including wrap-around, and leaves non-integer tensors and tensors with fewer than two dimensions unchanged.", "quantifier": "all tensor shapes and contents, all integer widths", "why_tests_cant": "Wrap-around arithmetic over all values and shapes.", "anchors": ["reverb/cc/tensor_compression.cc: DeltaEncode"]}
{"id": "C33", "title": "A trajectory column written by create_item selects exactly the referenced steps", "statement": "For every column given to CreateItem, the data later read back for that column is exactly the sequence of referenced steps in the given order.", "quantifier": "all columns (any choice and order of live step references)", "why_tests_cant": "All inputs; the merging of adjacent references must be right for every pattern.", "anchors": ["reverb/cc/trajectory_writer.cc: MergeAdjacent, TrajectoryColumn::ToProto"]}
{"id": "C34", "title": "Step references stay readable and point at the appended data", "statement": "A reference returned by Append stays alive for at least the next num_keep_alive_refs - 1 appends to that column and, while alive, yields exactly the appended tensor, both before and after its chunk is finalized; the chunk and offset it names contain that tensor.", "quantifier": "all append/flush/configure sequences and chunk lengths", "why_tests_cant": "All sequences; buffer indices and chunk boundaries interact.", "anchors": ["reverb/cc/chunker.cc: Append, FlushLocked, CopyDataForCell, ApplyConfig, Reset"]}
{"id": "C35", "title": "Chunk sequence ranges describe the chunk's steps", "statement": "Every finalized chunk carries the episode id of its steps, start and end equal to its first and last step, and the sparse flag exactly when the steps are not consecutive; all steps in one chunk belong to one episode with increasing step numbers and chunk lengths never exceed max_chunk_length.", "quantifier": "all append/flush sequences", "why_tests_cant": "All sequences.", "anchors": ["reverb/cc/chunker.cc: Append, FlushLocked"]}
{"id": "C36", "title": "Auto-tuned chunk length stays within bounds", "statement": "The auto-tuned chunk length is always between 1 and num_keep_alive_refs, and changes by at most the fixed step per adjustment, whatever items are observed.", "quantifier": "all item histories", "why_tests_cant": "Unbounded feedback histories.", "anchors": ["reverb/cc/chunker.cc: AutoTunedChunkerOptions::OnItemFinalized, ReduceAndClearBuffers"]}
{"id": "C37", "title": "Writer options survive being applied", "statement": "Chunker options passed to the writer (max chunk length, number of kept references, delta encoding) are the ones used by its columns.", "quantifier": "all option values", "why_tests_cant": "All configurations.", "anchors": ["reverb/cc/chunker.cc: ConstantChunkerOptions::Clone, AutoTunedChunkerOptions::Clone", "reverb/cc/trajectory_writer.cc: AppendInternal, ConfigureChunker"]}
{"id": "C38", "title": "Writer and server agree on which chunks are cached", "statement": "On one stream the server always still holds every chunk referenced by the item the writer sends next, whether it was sent just now or earlier, and the list of chunks to keep is exactly the set the server ends up with, so the server never rejects an item for missing chunks and its consistency check never fails.", "quantifier": "all sequences of appends, items and flushes, all chunkings and interleavings of the writer thread", "why_tests_cant": "Distributed protocol invariant over all schedules.", "anchors": ["reverb/cc/trajectory_writer.cc: SendNotAlreadySentChunks, GetKeepKeys, RunStreamWorker", "reverb/cc/reverb_service_impl.cc: InsertStreamInternal", "reverb/cc/reverb_service_async_impl.cc: InsertReactor"]}
{"id": "C39", "title": "Flush returning OK means the items are confirmed", "statement": "If TrajectoryWriter::Flush(ignore_last_num_items = k) returns OK then all but at most k of the items created so far have been confirmed by the server.", "quantifier": "all schedules of the stream worker and reader, stream failures, all k", "why_tests_cant": "All schedules and failure points.", "anchors": ["reverb/cc/trajectory_writer.cc: FlushLocked, RunStreamWorker"]}
{"id": "C40", "title": "Items reach the server in creation order, complete, and at most once per stream", "statement": "Items are written to a stream in the order of CreateItem, each after all chunks it references, and no item is written twice to the same stream.", "quantifier": "all schedules of appends, item creation, flushes and worker steps", "why_tests_cant": "All schedules.", "anchors": ["reverb/cc/trajectory_writer.cc: GetNextPendingItem, RunStreamWorker, SendItem"]}
{"id": "C41", "title": "No created item is lost by a transient stream failure", "statement": "After a recoverable stream error every item created and not yet confirmed is still going to be sent on the next stream, so a later Flush can succeed.", "quantifier": "all failure points", "why_tests_cant": "All crash points.", "anchors": ["reverb/cc/trajectory_writer.cc: RunStreamWorker, constructor loop"]}
{"id": "C42", "title": "Legacy writer items cover the last n steps", "statement": "Writer::CreateItem(table, n, priority) that returns OK produces an item whose data is exactly the last n appended timesteps.", "quantifier": "all chunk lengths, max_timesteps, n and append/create/flush sequences", "why_tests_cant": "All sequences.", "anchors": ["reverb/cc/writer.cc: Append, CreateItem, Finish"]}
{"id": "C43", "title": "Failed writer operations can be retried", "statement": "If Writer::Append fails all internal state is reverted, so that retrying is equivalent to the failure not having happened.", "quantifier": "all states", "why_tests_cant": "All states.", "anchors": ["reverb/cc/writer.cc: Append, Finish, WritePendingData", "reverb/cc/writer.h: 63-66"]}
{"id": "C44", "title": "Sample responses reassemble to the sampled item", "statement": "However a sampled item's chunks are split over response messages, the client rebuilds exactly the item's trajectory data, and consecutive samples on the same stream are never mixed.", "quantifier": "all chunk sizes, counts and split points", "why_tests_cant": "All inputs.", "anchors": ["reverb/cc/reverb_service_impl.cc: SampleStreamInternal", "reverb/cc/reverb_service_async_impl.cc: ProcessSample", "reverb/cc/sampler.cc: AsSample, FetchSamples"]}
{"id": "C45", "title": "A sampler delivers at most and, without errors, exactly max_samples", "statement": "A Sampler with max_samples = m never delivers more than m samples, never requests more than m from the server in total, and reports end of sequence exactly after m were delivered (absent errors), for any number of workers.", "quantifier": "all schedules of workers, batch sizes and short reads", "why_tests_cant": "All schedules.", "anchors": ["reverb/cc/sampler.cc: RunWorker, PopNextSample, GetNumWorkers, Sampler::Sampler"]}
{"id": "C46", "title": "Timestep-wise and batched delivery agree", "statement": "For a sample composed of timesteps, iterating GetNextTimestep yields, in order, exactly the rows of AsBatchedTimesteps, marks exactly the last one as end of sequence and then stops.", "quantifier": "all chunkings and lengths", "why_tests_cant": "All shapes.", "anchors": ["reverb/cc/sampler.cc: Sample::GetNextTimestep, AsBatchedTimesteps, is_end_of_sample"]}
{"id": "C47", "title": "Bounded queue is a FIFO with drain-after-last semantics", "statement": "internal::Queue delivers pushed items in order, exactly once, never holds more than its capacity, refuses pushes after Close or SetLastItemPushed, delivers all remaining items after SetLastItemPushed and nothing after Close; PopBatch returns the next batch_size items whenever that many are available.", "quantifier": "all interleavings of producers and consumers", "why_tests_cant": "All schedules.", "anchors": ["reverb/cc/support/queue.h: Queue"]}
{"id": "C48", "title": "Unbounded queue is a FIFO with drain-after-last semantics", "statement": "internal::UnboundedQueue delivers pushed items in order exactly once, refuses pushes after Close or SetLastItemPushed and pops fail exactly after Close or when drained after SetLastItemPushed.", "quantifier": "all interleavings", "why_tests_cant": "All schedules.", "anchors": ["reverb/cc/support/unbounded_queue.h"]}
{"id": "C49", "title": "Chunk store shares live chunks and never resurrects dead ones", "statement": "Inserting a key whose chunk is alive returns that same chunk, Get returns exactly the live chunk for a key or NotFound, and a chunk that is still referenced can always be found.", "quantifier": "all interleavings of Insert, Get, release of references and the cleaner thread", "why_tests_cant": "Depends on races with the cleaner thread.", "anchors": ["reverb/cc/chunk_store.cc: Insert, Get, CleanupInternal"]}
{"id": "C50", "title": "A checkpoint interrupted by a crash never becomes the restored state", "statement": "If the process crashes at any point during Save, LoadLatest restores the newest completely written checkpoint, never a partial one, and a checkpoint that was complete before the Save started is still available until the new one is complete.", "quantifier": "every crash point of Save and every pre-existing directory content", "why_tests_cant": "Every crash point.", "anchors": ["reverb/cc/platform/tfrecord_checkpointer.cc: Save, LoadLatest, HasDone"]}
{"id": "C51", "title": "LoadLatest picks the newest complete checkpoint", "statement": "LoadLatest loads the lexicographically largest checkpoint directory that is complete, returns NotFound only if there is none, and server start-up uses the fallback only then.", "quantifier": "every directory content", "why_tests_cant": "All contents.", "anchors": ["reverb/cc/platform/tfrecord_checkpointer.cc: LoadLatest, LoadFallbackCheckpoint", "reverb/cc/reverb_service_impl.cc: Initialize"]}
{"id": "C52", "title": "Signature flattening is order-stable and complete", "statement": "Flattening a nested signature yields its leaves exactly once, dictionary entries in key order and sequences in position order, with path names joined by '/'.", "quantifier": "all nested signatures", "why_tests_cant": "Recursive structure of any depth.", "anchors": ["reverb/cc/support/signature.cc: FlatSignatureFromStructuredValue"]}
{"id": "C53", "title": "Event history reports every completed event exactly once", "statement": "Polling the rate limiter event history with the first not-yet-seen id returns exactly the completed events from that id up to the oldest still running one, in order, without gaps or repeats, as long as the ring buffer was not overrun.", "quantifier": "all event histories and polling schedules", "why_tests_cant": "All schedules.", "anchors": ["reverb/cc/rate_limiter.cc: StatsManager::GetEventHistory, CreateEvent, CompleteEvent", "reverb/cc/table.h: 320-330"]}
{"id": "C54", "title": "Table extensions see every change exactly once and in order", "statement": "Each synchronous extension is notified exactly once for every insert, update, sample and delete of an item, in the order the changes take effect, so the set of items reconstructed from notifications always equals the table.", "quantifier": "every operation sequence", "why_tests_cant": "All histories.", "anchors": ["reverb/cc/table.cc: ExtensionOperation, InsertOrAssign, DeleteItem, UpdateItem, SampleInternal, Reset", "reverb/cc/table_extensions/"]}
{"id": "C55", "title": "SampleStream returns exactly the number of samples requested", "statement": "A SampleStream request for n samples that ends OK has delivered exactly n samples, in batches no larger than the flexible batch size, and a request with n <= 0 is rejected.", "quantifier": "all n, batch sizes and partial batches", "why_tests_cant": "All batch outcomes.", "anchors": ["reverb/cc/reverb_service_impl.cc: SampleStreamInternal", "reverb/cc/reverb_service_async_impl.cc: SampleReactor", "reverb/cc/task_worker.h: SampleTaskInfo::NextSampleSize"]}
{"id": "C56", "title": "Malformed insert requests are rejected without harm", "statement": "An InsertStream request that is empty, references unknown chunks, names an unknown table or asks to keep unknown or repeated chunk keys ends that stream with an error and affects neither the server process nor other streams.", "quantifier": "all request sequences", "why_tests_cant": "All inputs.", "anchors": ["reverb/cc/reverb_service_impl.cc: InsertStreamInternal", "reverb/cc/reverb_service_async_impl.cc: InsertReactor::ProcessIncomingRequest, ReleaseOutOfRangeChunks"]}
{"id": "C57", "title": "Insert confirmations follow insertion", "statement": "The server confirms an item only after it has been inserted into (or updated in) the table.", "quantifier": "all schedules", "why_tests_cant": "All schedules.", "anchors": ["reverb/cc/reverb_service_impl.cc: 205-225", "reverb/cc/reverb_service_async_impl.cc: 220-240", "reverb/cc/reverb_service.proto: 103-105"]}
{"id": "C58", "title": "Rate limiter timeouts mean the same thing on every path", "statement": "A rate_limiter_timeout of t milliseconds bounds the wait on the synchronous service, asynchronous service and local sampler alike; negative means forever and the client conversion between durations and milliseconds preserves every finite and infinite timeout it can represent.", "quantifier": "all timeout values", "why_tests_cant": "All values, boundary cases.", "anchors": ["reverb/cc/sampler.h: 41-51", "reverb/cc/reverb_service_impl.cc: SampleStreamInternal", "reverb/cc/reverb_service_async_impl.cc: ProcessIncomingRequest"]}
{"id": "C59", "title": "Scheduled tasks run exactly once, in order, before shutdown completes", "statement": "Every task accepted by a TaskExecutor before Close is started exactly once, in schedule order, and has been started by the time Close returns; nothing scheduled after Close runs.", "quantifier": "all schedules", "why_tests_cant": "All schedules.", "anchors": ["reverb/cc/support/task_executor.cc"]}
{"id": "C60", "title": "Concurrent table operations are atomic", "statement": "With any number of concurrent callers, every table operation takes effect atomically between its call and return: no caller observes or acts on a half-applied operation.", "quantifier": "all interleavings of operations, including blocking in rate limiter and extension back-pressure", "why_tests_cant": "All schedules.", "anchors": ["reverb/cc/table.cc: InsertOrAssign, ExtensionOperation 896-899, DeleteItem, SampleFlexibleBatch"]}
{"id": "C61", "title": "Served sampler output matches the declared table signature", "statement": "A sample accepted by the sampler's output-spec validation has, for every column, the declared dtype and a compatible shape, and the number of columns matches; otherwise the sample is rejected with InvalidArgument.", "quantifier": "all samples and specs", "why_tests_cant": "All inputs.", "anchors": ["reverb/cc/sampler.cc: ValidateAgainstOutputSpec", "reverb/cc/client.cc: GetDtypesAndShapesForSampler"]}
{"id": "C62", "title": "Blocked callers are woken when they can proceed", "statement": "If a caller waits for the rate limiter and a later operation makes its condition true and it stays true, some waiting caller of that kind is signalled (no lost wake-up).", "quantifier": "all schedules of waiting callers and operations", "why_tests_cant": "All schedules.", "anchors": ["reverb/cc/rate_limiter.cc: MaybeSignalCondVars, AwaitCanInsert, AwaitAndFinalizeSample, Insert, Delete, Reset", "reverb/cc/table.cc: InsertOrAssign 505-511"]}
{"id": "C63", "title": "Rate limiter statistics describe the calls", "statement": "The reported numbers of pending, completed and limited calls and the completed and pending wait times are those of the calls made so far, as long as the event buffer was not overrun by blocked calls.", "quantifier": "for all sequences of calls and all times", "why_tests_cant": "Counters are updated by destructors of interleaved calls; tests cover a few fixed interleavings.", "anchors": ["reverb/cc/rate_limiter.cc:252-286", "reverb/cc/rate_limiter.cc:325-330"]}
{"id": "C64", "title": "No insert stream is forgotten", "statement": "Every insert stream of the asynchronous server that has not been finished has an operation under way (a read, a write or a callback of a table) whose completion will be reported to it, so that it is finished and released in the end.", "quantifier": "all schedules, requests, cancellations and failed writes", "why_tests_cant": "A leak needs a particular order of cancellation, table callback and completion of writes; a test sees one order.", "anchors": ["reverb/cc/reverb_server_table_reactor.h: OnReadDone, OnWriteDone, OnCancel, MaybeStartRead", "reverb/cc/reverb_service_async_impl.cc: WorkerlessInsertReactor"]}
{"id": "C65", "title": "Tables call only existing insert streams", "statement": "The callback by which a table tells an insert stream of the asynchronous server that it can go on is never run on a stream that has been deleted.", "quantifier": "all schedules of the callback executor, the gRPC threads and the table workers", "why_tests_cant": "The window is between locking a weak pointer and the call.", "anchors": ["reverb/cc/table.cc: 218-229", "reverb/cc/reverb_service_async_impl.cc: 178-190", "reverb/cc/reverb_server_table_reactor.h: OnDone"]}
{"id": "C66", "title": "A sample stream that has ended takes no more samples", "statement": "After a sample stream of the asynchronous server has been finished, no request of it is left in or given to a table, so that no item is used up for a client that has gone.", "quantifier": "all schedules, requests, cancellations and failed writes", "why_tests_cant": "Samples taken for a dead stream are seen only as missing items of another client, and only in some orders of write failure and table callback.", "anchors": ["reverb/cc/reverb_service_async_impl.cc: WorkerlessSampleReactor::OnWriteDone, MaybeStartSampling", "reverb/cc/reverb_server_table_reactor.h: OnWriteDone"]}
{"id": "C67", "title": "No sample stream is forgotten", "statement": "Every sample stream of the asynchronous server that has not been finished has an operation under way (a read, a write, a request to a table or its callback) whose completion will be reported to it, so that it is finished and released in the end.", "quantifier": "all schedules, requests, cancellations and failed writes", "why_tests_cant": "A leak needs a particular order of cancellation, table callback and completion of writes; a test sees one order.", "anchors": ["reverb/cc/reverb_server_table_reactor.h: OnReadDone, OnWriteDone, OnCancel, MaybeStartRead", "reverb/cc/reverb_service_async_impl.cc: WorkerlessSampleReactor"]}
{"id": "C68", "title": "Close of a sampler cancels everything", "statement": "Close of a Sampler cancels all workers and joins their threads; calls that are blocked and all future calls return Cancelled without blocking.", "quantifier": "all schedules of callers, workers and Close, any number of each", "why_tests_cant": "The order of Close, a blocked Pop, a blocked Push and a call to the server is chosen by the scheduler.", "anchors": ["reverb/cc/sampler.h: 330-333", "reverb/cc/sampler.cc: 629-642, 652-702"]}
{"id": "C69", "title": "A sampler returns samples in order, each once", "statement": "The samples that the workers of a sampler put into its queue are returned by GetNextTimestep, GetNextSample and GetNextTrajectory in the order in which they arrived; no sample is returned twice and none is skipped. GetNextTimestep returns the timesteps of one sample from first to last before the next sample begins.", "quantifier": "all schedules, any number of workers and callers, errors included", "why_tests_cant": "A loss or repetition needs a particular interleaving of callers, workers and errors.", "anchors": ["reverb/cc/sampler.cc: 507-568, 644-663", "reverb/cc/support/queue.h"]}
{"id": "C70", "title": "Requested types and shapes are delivered", "statement": "A sampler that was created with a request for types and shapes returns only data that is compatible with that request.", "quantifier": "all signatures of the table, all requests, all data", "why_tests_cant": "Partially known shapes are not transitive: the signature, the request and the data are compared in pairs, and tests try a few shapes.", "anchors": ["reverb/cc/client.cc: 248-301", "reverb/cc/sampler.cc: 570-623"]}
{"id": "C71", "title": "The old writer never has more items in flight than allowed", "statement": "With max_in_flight_items = k, at no moment are more than k items written to the current stream whose confirmation has not been read.", "quantifier": "all sequences of calls, all answers and failures of the server, every moment also within a call", "why_tests_cant": "The counter is changed by the calling thread and by the thread that reads confirmations, and survives streams that fail and are opened again.", "anchors": ["reverb/cc/writer.cc: 307-353", "reverb/cc/writer.cc: 464-556", "reverb/cc/writer.cc: 583-609"]}
{"id": "C72", "title": "Flush and Close of the old writer wait for confirmations", "statement": "If max_in_flight_items is set, then when Flush or Close returns OK the server has confirmed every item that was written.", "quantifier": "all sequences of calls, all answers and failures of the server", "why_tests_cant": "Whether a confirmation is awaited depends on what is pending and on failures of the stream at that moment.", "anchors": ["reverb/cc/writer.h: 77-96", "reverb/cc/writer.cc: 276-290", "reverb/cc/writer.cc: 355-390"]}
{"id": "C73", "title": "The old writer checks signatures", "statement": "CreateItem of Writer returns OK only if the table is known and each of the last n steps agrees with its signature; otherwise it returns InvalidArgument and changes nothing.", "quantifier": "all signatures, all steps, all sequences of calls before it, also with failed calls", "why_tests_cant": "The types and shapes are kept in a ring that is indexed modulo max_timesteps and is wound back when Append fails.", "anchors": ["reverb/cc/writer.cc: 81-118", "reverb/cc/writer.cc: 153-226", "reverb/cc/writer.cc: 558-581"]}
{"id": "C74", "title": "AppendSequence is Append of each row", "statement": "AppendSequence with columns of T rows has the same effect as T calls of Append with the i-th rows, until one fails; without columns, with a scalar or with different T it returns InvalidArgument and appends nothing.", "quantifier": "all columns, all states of the writer, all answers of the server", "why_tests_cant": "The equivalence is about every number of rows, every position in a chunk and every failure.", "anchors": ["reverb/cc/writer.h: 67-70", "reverb/cc/writer.cc: 120-151"]}
{"id": "C75", "title": "Callers that wait for the extension worker are woken", "statement": "A caller that has to wait because too many requests for asynchronous extensions are pending goes on once the extension worker has taken these requests.", "quantifier": "any number of callers, all interleavings with the extension worker", "why_tests_cant": "Lost wake-ups depend on the order in which several callers and the worker run.", "anchors": ["reverb/cc/table.cc: 376-382, 896-906"]}
{"id": "C76", "title": "Destroying a table ends", "statement": "The destructor of a table returns: the extension worker and the table worker end after they have been told to stop.", "quantifier": "every moment at which the destructor is called, all interleavings with the workers", "why_tests_cant": "The outcome depends on which of a few instructions the workers have reached.", "anchors": ["reverb/cc/table.cc: 158-180, 345-417, 856-906"]}
{"id": "C77", "title": "The range of a chunk tells where its steps are", "statement": "Every chunk that the old Writer sends carries the id of the episode and the positions of its first and last step, counted from zero over all steps appended so far, and holds exactly these steps.", "quantifier": "all sequences of calls of Append, CreateItem, Flush and Close, all behaviours of the server, all chunk lengths and step contents", "why_tests_cant": "The positions depend on all earlier flushes, failures and evictions.", "anchors": ["reverb/cc/writer.cc: 392-449", "reverb/cc/schema.proto: SequenceRange"]}
{"id": "C78", "title": "The old writer and an unavailable server", "statement": "While the server answers Unavailable, the calls of the old Writer try again and do not return this error; Close(retry_on_unavailable=false) tries only once and then closes the writer.", "quantifier": "any number of failing streams, all states of the writer", "why_tests_cant": "The number of failures is not bounded, and they can happen at every request.", "anchors": ["reverb/cc/writer.h: 80-86", "reverb/cc/writer.cc: 355-390, 451-462", "reverb/client.py: 187-206"]}
{"id": "C79", "title": "The history of the Python writer shows what was appended", "statement": "TrajectoryWriter.history has an entry for every step since the history was cleared, for every field that was ever given to a successful append: None if the field was not given in that step, and else a reference to exactly the tensor that was given; fields that appear later are filled up with None, partial steps are merged, and episode_steps counts the complete steps.", "quantifier": "all sequences of calls of append (also partial), configure, create_item, flush, end_episode and close, all nested structures of data, all interleavings with the worker of the C++ writer and all answers of the server", "why_tests_cant": "Structures of any depth that grow over time, partial steps, failing appends and background writing have to be combined.", "anchors": ["reverb/trajectory_writer.py: 146-191, 237-321, 443-512, 516-572, 668-687"]}
{"id": "C80", "title": "configure of the Python writer applies to the column of the path", "statement": "The column of a path works with the chunk length and the number of kept references of the last successful configure for that path, whether it was called before or after the path was first seen; columns that were not configured use the options of the writer.", "quantifier": "all sequences of calls, all paths and options, all orders in which fields appear", "why_tests_cant": "The assignment of columns to paths depends on all structures seen so far.", "anchors": ["reverb/trajectory_writer.py: 193-235, 481-491"]}
{"id": "C81", "title": "Slices of the history are read back as the steps that were appended", "statement": "An item made of columns history[path][i] and history[path][start:stop] is read back, when it reaches a server, as exactly the tensors that were appended for the path in these steps.", "quantifier": "all runs, all items made of integer and slice accesses (also negative and out of range ends), all chunk lengths, all streams", "why_tests_cant": "It needs the whole way from the Python history over chunks and requests to the sample, for all chunk boundaries.", "anchors": ["reverb/trajectory_writer.py: 146-178, 323-356, 551-593", "reverb/cc/trajectory_writer.cc: 266-340"]}
{"id": "C82", "title": "end_episode of the Python writer starts afresh", "statement": "After end_episode the history is empty, episode_steps is 0, a new episode id is used and appending works as in the beginning; if the timeout passes, the buffers and the episode id are reset all the same.", "quantifier": "all runs, all timeouts, with and without clear_buffers, also within a partial step", "why_tests_cant": "It depends on the state (open step, pending items) in which the call is made and on timing.", "anchors": ["reverb/trajectory_writer.py: 180-191, 409-438", "reverb/cc/trajectory_writer.cc: 566-650"]}
{"id": "C83", "title": "append of the Python writer accepts new fields and sub structures", "statement": "append never fails because of the structure of the data, except that giving a field again within a step raises ValueError.", "quantifier": "all sequences of nested structures", "why_tests_cant": "The union of structures is defined by recursion over two trees of any shape and the history of all earlier structures.", "anchors": ["reverb/trajectory_writer.py: 237-321, 443-512, 668-687"]}
{"id": "C84", "title": "An iterator of a dataset yields the samples of its sampler and ends on a timeout of the rate limiter", "statement": "The calls of GetNext of a dataset iterator return, one by one, what its sampler returns, in the order in which the sampler got the samples and with the timesteps of a sample together. The sequence ends only if rate_limiter_timeout_ms is set and the rate limiter timed out; then it ends for good; and a timeout that is reported to the sampler while GetNext waits makes GetNext end the sequence.", "quantifier": "all datasets (timestep, trajectory and the old one), all interleavings of workers, server answers, GetNext and cancellation", "why_tests_cant": "The status travels from a worker thread over the sampler to the iterator, racing with other workers, samples in the queue and cancellation.", "anchors": ["reverb/cc/ops/timestep_dataset.cc: 277-311", "reverb/cc/ops/trajectory_dataset.cc: 274-307", "reverb/cc/ops/dataset.cc: 338-392", "reverb/cc/errors.cc: 26-37"]}
{"id": "C85", "title": "A dataset with sequence_length checks the length of the samples", "statement": "If sequence_length is set then the length of the received samples is checked against it: a sample of another length gives InvalidArgument and is never yielded completely.", "quantifier": "all samples, all lengths, all runs", "why_tests_cant": "The count is kept across calls of GetNext and mixes with errors and cancellation.", "anchors": ["reverb/cc/ops/dataset.cc: 67-75, 136-158, 348-374"]}
{"id": "C86", "title": "A dataset iterator stops when its context is cancelled", "statement": "After the context of an iterator has been cancelled, a call of GetNext that is in progress and all later ones return Cancelled and no element.", "quantifier": "all runs and all moments of cancellation", "why_tests_cant": "It depends on the race between the cancellation callbacks, the workers and the caller.", "anchors": ["reverb/cc/ops/timestep_dataset.cc: 283-299", "reverb/cc/sampler.cc: 628-662"]}
{"id": "C87", "title": "The elements of a dataset have the declared dtypes", "statement": "Every element that a dataset iterator yields has as many columns as were declared and the declared dtype in each.", "quantifier": "all declared dtypes and shapes, all signatures of the table (or none), all samples", "why_tests_cant": "Dtypes are checked when the iterator is made and again for each sample, depending on which signatures are known.", "anchors": ["reverb/cc/ops/dataset.cc: 300-336", "reverb/cc/client.cc: 155-230", "reverb/cc/sampler.cc: 574-626"]}
{"id": "C88", "title": "The graph of a dataset makes the same dataset", "statement": "A dataset that is made from the graph definition of a dataset has the same options, passes the same checks and behaves in the same way.", "quantifier": "all attributes of the ops", "why_tests_cant": "It is about all attribute values, including those that are converted (timeouts).", "anchors": ["reverb/cc/ops/dataset.cc: 209-262", "reverb/cc/ops/timestep_dataset.cc: 187-235", "reverb/cc/ops/trajectory_dataset.cc: 185-232"]}
{"id": "C89", "title": "What a sampler returns is what a writer was given", "statement": "Let trajectory writers insert into a server and let a sampler sample from it over the network. Every trajectory that the sampler returns is that of an item of the table it samples from, which a client sent for this table with its chunks; if the client is a trajectory writer, the item was made by a call of CreateItem that returned OK, and the columns of the trajectory are the tensors that were given to Append, in the order of the references. Per stream, samples come in the order in which the table gave them and none comes twice.", "quantifier": "any number of writers, insert streams, sample streams, other calls and tables; all schedules; all splittings of samples into messages; streams cut off at any point", "why_tests_cant": "It is about the composition of all parts under all interleavings.", "anchors": ["reverb/cc/trajectory_writer.cc: 330-640", "reverb/cc/reverb_service_impl.cc: 119-386", "reverb/cc/sampler.cc: 60-330", "reverb/cc/table.cc: 380-640"]}
{"id": "C90", "title": "The tables of a server do not influence each other", "statement": "Whatever clients do on a server with several tables, each table is in a state that it reaches by itself with the requests for this table only: the calls that name it, in order, the items that were sent for it and the samples that were asked of it. A table for which no request comes does not change, no table appears or disappears, and a call that names an unknown table is answered with NotFound and changes nothing.", "quantifier": "any number of tables, insert streams, sample streams and calls; all interleavings", "why_tests_cant": "It is about all interleavings of requests for all tables.", "anchors": ["reverb/cc/reverb_service_impl.cc: 119-268", "reverb/cc/reverb_service_impl.cc: 270-398"]}
{"id": "C91", "title": "MutatePriorities applies its parts in the order that is documented", "statement": "One call of MutatePriorities with updates and deletes has the effect of the updates followed by the deletes, the order in which the request and the Python client list them.", "quantifier": "all tables, updates and deletes", "why_tests_cant": "It is about all combinations of keys in both lists, absent keys and priorities that are refused.", "anchors": ["reverb/cc/table.cc: 612-633", "reverb/cc/reverb_service.proto: 124-137", "reverb/client.py: 447-469"]}
{"id": "C92", "title": "Updating priorities again after a connection error does no harm", "statement": "When the op that updates priorities returns without an error, the table has the priorities that were asked for; attempts whose answer was lost leave nothing but what one update does. Unavailable and DeadlineExceeded do not come out of it, and tensors of wrong shape are refused before anything is sent.", "quantifier": "any number of attempts, each lost on the way there, on the way back or answered; any activity of other clients", "why_tests_cant": "It is about all ways in which attempts can fail, interleaved with other clients.", "anchors": ["reverb/cc/ops/client.cc: 174-218", "reverb/cc/client.cc: 136-152"]}
{"id": "C93", "title": "Inserting one piece of data into several tables", "statement": "When the op or the method of the Python client that inserts data into several tables returns without an error, every one of the tables has got one item with the priority that was given and exactly this data, which was stored once; nothing else was inserted. An insert without tables and tensors of wrong shape are refused.", "quantifier": "all data, tables, priorities and signatures; all ways in which streams fail and are opened again", "why_tests_cant": "It is about all failures of streams between the calls.", "anchors": ["reverb/cc/ops/client.cc: 222-276", "reverb/client.py: 240-263", "reverb/cc/writer.cc: 355-390"]}
{"id": "C94", "title": "Access to a table without gRPC", "statement": "A sampler made in the process of the server reads the table of the requested name directly; any other sampler, also one for a name the server does not know, goes through gRPC. The exchange by which this is found out ends, uses no object after it is freed, and leaks none.", "quantifier": "all schedules of client and server, both servers, all tables, names and process ids, streams cut at any time", "why_tests_cant": "It is about all interleavings of the two sides and about lifetimes.", "anchors": ["reverb/cc/client.cc: 154-173, 381-413", "reverb/cc/reverb_service_impl.cc: 429-481", "reverb/cc/reverb_service_async_impl.cc: 310-398"]}
{"id": "C95", "title": "Errors and timeouts reach the user as what they are", "statement": "An error of the server reaches the user with its code and message, in Python as the exception for its code. A timeout of the rate limiter, and nothing else, ends a dataset that has a timeout. A Python call with a timeout (flush, end_episode, server_info) waits at most that long and then raises DeadlineExceededError.", "quantifier": "all codes and messages, all timeouts", "why_tests_cant": "It is about all messages, codes and timeouts, over four representations of a status.", "anchors": ["reverb/cc/support/grpc_util.h: 30-58", "reverb/cc/support/tf_util.h: 25-45", "reverb/cc/errors.cc: 26-37", "reverb/pybind.cc: 59-84, 702-720, 950-977", "reverb/trajectory_writer.py: 358-438", "reverb/client.py: 479-503"]}
{"id": "C96", "title": "A periodic closure runs once per period until it is stopped", "statement": "A PeriodicClosure runs its closure one run after the other, as soon as the last run has ended and a period has passed since it began; once Stop has returned the closure does not run any more, and Stop waits for at most the run that is under way. Start and Stop may be called more than once.", "quantifier": "all periods, durations of runs and schedules of calls", "why_tests_cant": "It is about all schedules.", "anchors": ["reverb/cc/support/periodic_closure.cc: 29-77", "reverb/cc/support/periodic_closure.h: 31-45"]}
{"id": "C97", "title": "Stopping a server and waiting for it", "statement": "Stop of a server, called any number of times, closes its service once and the server stays stopped. Wait returns once the server has stopped and not before, and returns true exactly if SIGINT has stopped it. SIGINT stops every server that is waited for, and reaches the program again when nobody waits.", "quantifier": "all numbers of servers and threads, all schedules", "why_tests_cant": "It is about all interleavings of threads and signals.", "anchors": ["reverb/cc/platform/default/server.cc: 35-150", "reverb/cc/platform/server.h: 31-42", "reverb/server.py: 305-323"]}
{"id": "C98", "title": "A server that is saved and started again", "statement": "A server that is started again with the tables it had starts, and every table is as it was during the last completed call of Checkpoint: the same items, data, priorities, sample counts, counters and configuration. This holds for any number of checkpoints, crashes and restarts, while clients use the server. What the server is started from is a state the server was in.", "quantifier": "all sets of tables, all histories of requests, checkpoints, failures and restarts", "why_tests_cant": "Tests save and load one table that nobody uses; the claim is about all interleavings of saving with requests and about repeated restarts.", "anchors": ["reverb/cc/platform/tfrecord_checkpointer.cc: 133-142, 159-376", "reverb/cc/reverb_service_impl.cc: 86-143", "reverb/cc/table.cc: 940-1001"]}
{"id": "C99", "title": "The signatures that a client keeps", "statement": "New writers and samplers of a client are made with the signatures of the tables of the server. They are pulled once: after the first success no new writer or sampler asks the server again. ServerInfo brings the signatures up to date if the server has been replaced by another one, in C++ and in Python.", "quantifier": "all servers that follow one another at an address, all schedules of any number of threads that share a client", "why_tests_cant": "It is about all interleavings of threads and restarts of the server.", "anchors": ["reverb/cc/client.cc: 60-108, 310-359, 415-426", "reverb/client.py: 479-517, 568-577"]}
{"id": "C100", "title": "Steps that were appended come back from the sampler", "statement": "Let users append steps to writers (client.writer, client.insert) and ask for items of the last n steps, and let a sampler sample from the server over the network. What GetNextTimestep returns are the last n steps that had been appended to a writer when it was asked for an item in the table of the sampler, one call after the other, from the first to the last with the end of the sequence marked at the last, then the steps of the next item. Trajectories and batches are these steps one on the other.", "quantifier": "any number of writers, insert streams, sample streams, other calls and tables; all schedules; all streams that fail and are opened again; all splittings of samples into messages", "why_tests_cant": "It is about the composition of writers, server and sampler under all interleavings.", "anchors": ["reverb/cc/writer.cc: 81-118, 153-274, 392-543", "reverb/cc/reverb_service_impl.cc: 120-379", "reverb/cc/sampler.cc: 72-129, 511-568, 704-880"]}
{"id": "C101", "title": "Tables do not influence each other", "statement": "A table of a program is what calls on that table alone have made of it, whatever the program does with other tables, selectors, limiters and servers. A table object shows the table that clients of its server reach under its name. Stopping a server closes its tables and no others.", "quantifier": "all programs that make selectors, limiters, tables and servers in any order, hand them to each other, drop them and use the tables; all calls; servers that find a checkpoint and servers that do not", "why_tests_cant": "Aliasing of shared pointers among any number of objects; tests make every table with objects of its own.", "anchors": ["reverb/server.py: 98-157, 238-330", "reverb/cc/table.cc: 131-187, 460-960", "reverb/cc/table.h: 495-560", "reverb/cc/rate_limiter.cc: 76-103", "reverb/cc/platform/tfrecord_checkpointer.cc: 277-370", "reverb/pybind.cc: 500-565"]}
{"id": "C102", "title": "What the sample generator of the Python client yields", "statement": "client.sample(table, n) yields n elements, one for each sampled trajectory in the order of the sampler, unless the sampler reports an error, which is raised. With emit_timesteps an element is the list of the steps of the trajectory: the k-th has the k-th row of every column and the information about the item; a trajectory whose columns differ in length raises ValueError. Data written by a writer come back as the steps that were appended, those of client.insert as a list of length 1. With unpack_as_table_signature the arrays stand at the leaves of the signature.", "quantifier": "all sampled items with any columns, chunks and types; all signatures; all sequences of results of the sampler; all use of old writers and all schedules of server and sampler", "why_tests_cant": "Any number of columns, rows and chunks, structures of any depth, and any interleaving behind the generator; tests use a few fixed shapes.", "anchors": ["reverb/client.py: 345-440, 568-577", "reverb/cc/sampler.cc: 552-568, 822-880", "reverb/pybind.cc: 613-629", "reverb/replay_sample.py: 24-59"]}
{"id": "C103", "title": "Datasets made from the signature of a table fit the table and their element_spec", "statement": "TimestepDataset, TrajectoryDataset and ReplayDataset.from_table_signature raise ValueError exactly if the table does not exist or has no signature or an argument is out of the documented range; otherwise the element_spec is a ReplaySample with the four info entries and data with the structure of the signature given to Table (lists become tuples), the op accepts the attributes, the sampler is accepted by the check against the signature of the table, and every element yielded agrees, leaf by leaf, with the element_spec.", "quantifier": "all signatures made of dictionaries, lists, tuples and named tuples of any depth, in any order of keys; all arguments; all schedules of server, sampler and iterator", "why_tests_cant": "The agreement rests on two independent flattenings, by the Python tree library and by C++ code, giving the same order for all nested structures; tests try a few.", "anchors": ["reverb/dataset.py: 124-299", "reverb/timestep_dataset.py: 123-267", "reverb/trajectory_dataset.py: 102-246", "reverb/server.py: 143-162", "reverb/reverb_types.py: 77-97", "reverb/cc/support/signature.cc: 36-133", "reverb/cc/client.cc: 195-301", "reverb/cc/ops/dataset.cc: 95-160, 307-336"]}
{"id": "C104", "title": "Compression of tensors is lossless and stays within the memory of the tensor", "statement": "A tensor that is put into a chunk is compressed (tensor_compression.cc) and later decompressed into a new tensor. For every type, shape and content the tensor that comes out is, bit for bit, the one that went in, also together with delta encoding, in whatever pieces the compression library delivers its output and whatever the memory held before. Decompression never writes beyond the memory of the new tensor, whatever the content of the chunk. Content that cannot be decompressed is reported.", "quantifier": "For all tensors, all contents of chunks, all compression libraries that keep to the interface of sinks (and, for the round trip, get back what they compressed), all contents of memory.", "why_tests_cant": "Tests compress a handful of tensors of a few kilobytes; the sinks have several paths (buffer inside the string or not, buffer inside the tensor or not, capacity exceeded) that depend on sizes, on the C++ library and on what the compression library asks for.", "anchors": ["reverb/cc/tensor_compression.cc:81-110", "reverb/cc/tensor_compression.h:33-41", "reverb/cc/platform/default/snappy.cc:57-160"]}
{"id": "C105", "title": "Producers and consumers of a table release each other", "statement": "With any limiter that the Python constructors give, in every state an open table can be in, an insert of a new item and a call for samples never both wait. A call for samples that waits is released by inserts: there is a number such that after that many inserts of new items it gets samples, if the table has room for min_size_to_sample items. An insert that waits is released by sampling: there is a number of calls for samples after which it goes through. What the rate limiter counts and what the table holds do not drift apart so far that one of the two sides waits for ever although the other works on.", "quantifier": "For all tables, all reachable states (after any inserts, updates, deletes, samples, evictions, resets), all continuations made of inserts or of calls for samples, all draws.", "why_tests_cant": "Waiting for ever is not observable in a test; whether a table can come into a state from which one side never goes on depends on the interplay of the counters of the limiter with evictions, max_times_sampled and deletions.", "anchors": ["reverb/rate_limiters.py:40-200", "reverb/cc/rate_limiter.cc:96-190", "reverb/cc/table.cc:460-640", "reverb/cc/table.cc:671-760"]}
{"id": "C106", "title": "The prioritized selector in the arithmetic of double", "statement": "With the arithmetic of double, in which every operation rounds and priorities may be zero, tiny, huge or infinite, the prioritized selector stays safe and fair. Whatever priorities are given, calls are accepted or refused by the same rules, and every draw returns a key that is there. As long as the weights are numbers of few digits (integers, for example, with a total of up to 2^52), nothing is lost by rounding in any number of calls: each key has an interval of the drawn number as long as its weight, keys of priority zero are not drawn beside others, and the reported probability is the double next to weight/total. For weights that are any finite numbers the errors do not grow with the number of calls: each key has an interval as long as its weight up to a fixed tolerance, and the total is right up to this tolerance for each key. In general a key of priority zero is not drawn beside others, and keys that are all of priority zero are drawn uniformly.", "quantifier": "For all histories of Insert, Update, Delete and Clear with any doubles as priorities, any priority exponent, any number of keys up to 2^53 and all draws.", "why_tests_cant": "Rounding errors build up over histories of calls that no test repeats; which histories are harmless is a statement about all of them.", "anchors": ["reverb/cc/selectors/prioritized.cc:33-228", "reverb/cc/selectors/prioritized.h:40-121"]}
{"id": "C107", "title": "The rate limiter in the arithmetic of double", "statement": "The decisions of the rate limiter, which multiplies counters with a double and compares doubles, are those of exact arithmetic for ratios and bounds of few digits while counters are not astronomical, and for any ratio they are right up to the rounding of the quantities involved. MinSize, Queue and Stack decide exactly. A limiter that SampleToInsertRatio accepts never blocks inserts and samples at the same time.", "quantifier": "For all counters within the stated bounds, all finite ratios and bounds, all error buffers.", "why_tests_cant": "Rounding matters only for counters that no test reaches; that it does not matter below is a statement about all counters and ratios.", "anchors": ["reverb/cc/rate_limiter.cc:150-180", "reverb/rate_limiters.py:36-187"]}
{"id": "C108", "title": "server_info describes the tables", "statement": "A call of server_info returns one entry for every table of the server, under its name. Each entry describes its table as it was at some moment during the call: settings as given to the constructor, number of items, of episodes and of different items sampled, and for inserts and for samples how many calls wait for the rate limiter, how many are over, how many of those had to wait, and the time spent waiting. Asking changes nothing.", "quantifier": "For all configurations, all schedules of any number of callers with any times, all interleavings of the call with the steps of the tables.", "why_tests_cant": "The numbers are kept by the callers themselves while others run; that they agree with what happened is a statement about all interleavings and all times.", "anchors": ["reverb/cc/table.cc:796-817", "reverb/cc/rate_limiter.cc:96-184", "reverb/cc/rate_limiter.cc:215-286", "reverb/cc/reverb_service_impl.cc:414-422", "reverb/client.py:495-517", "reverb/cc/schema.proto:157-235"]}
{"id": "C109", "title": "Sampling from a TensorFlow graph", "statement": "TFClient.sample returns one item of the table: its key, probability, priority and the size of the table, and its data in the structure of data_dtypes with the types given there. It takes one sample and no more, waits until there is one, and if the data does not have this number of arrays or these types it is an error.", "quantifier": "For all tables on a server or in the same process, with or without a signature, all items, all structures of types, all schedules and answers of the server.", "why_tests_cant": "The op makes a sampler with threads of its own, which retries and validates on its own; that exactly one sample comes and that it is this one which is returned is a statement about all schedules.", "anchors": ["reverb/cc/ops/client.cc:51-66", "reverb/cc/ops/client.cc:131-171", "reverb/tf_client.py:52-77", "reverb/cc/sampler.cc:507-534", "reverb/cc/client.cc:154-193"]}
{"id": "C110", "title": "The automatic chunk length goes by the cost of the last two rounds", "statement": "AutoTunedChunkerOptions collects the finalized items and their chunks. When ten items and five chunks have been seen since the last scoring, the cost is bytes per step in items times the throughput weight plus bytes per step in chunks, each averaged over the newest ten items and five chunks, a chunk referenced several times counted once. Scores with an average chunk length more than 1/4 from the current length are ignored. Otherwise the score is compared with the most recent score before: if it is lower the length moves in the direction of the new average length, if not in the other direction.", "quantifier": "For all histories of items, chunk lengths and sizes, weights and values of num_keep_alive_refs.", "why_tests_cant": "The decision depends on the whole history of items through two sliding buffers and a remembered score; tests look at a few hand-made histories.", "anchors": ["reverb/cc/chunker.h:303-345", "reverb/cc/chunker.cc:409-482", "reverb/cc/chunker.cc:484-536"]}
{"id": "C111", "title": "CreateItem of the trajectory writer checks the trajectory and the signature", "statement": "As long as the writer has not failed, CreateItem of TrajectoryWriter returns OK if and only if no column is empty, no reference has expired, squeezed columns have one reference, the tensors of each column have the same type and shape, and, if the client knows signatures, the table is known and the columns agree with its signature in number, type and shape (with the length of the column as first dimension unless squeezed). Otherwise it returns InvalidArgument and no item is created.", "quantifier": "For all signatures, all trajectories made of references from earlier Append calls, and all histories of calls, worker steps and server answers before.", "why_tests_cant": "The check finds the type of a column through the key of its first chunk, in a list of the references of all columns, and counts merged slices; that this gives the type and length of the data that was appended depends on all chunkers, their keys and what was dropped.", "anchors": ["reverb/cc/trajectory_writer.cc:114-137", "reverb/cc/trajectory_writer.cc:266-370", "reverb/cc/trajectory_writer.cc:667-700"]}
{"id": "C112", "title": "Every item of a queue on a server goes to exactly one consumer, in order", "statement": "Let producers insert items into a table made by Table.queue (or Table.stack), and consumers sample from it, over any number of streams of one server, without calls that delete items. Then every item that was inserted was given to exactly one sample stream or is still in the table, never both and never twice; the table never holds more than max_size items. For a queue the items leave in the order in which they were inserted, the items of one producer are inserted in the order in which they were sent, and each consumer gets the items of one producer in that order. All items that were confirmed, and all items of a stream that ended with OK, are among those inserted.", "quantifier": "For all numbers of producers and consumers, all queue sizes, all other tables, all requests and all interleavings of the critical sections of the streams.", "why_tests_cant": "Whether an item is lost, duplicated or overtaken depends on how the sections of all streams interleave, with producers waiting for room and consumers for items; tests see a few schedules.", "anchors": ["reverb/server.py:164-216", "reverb/rate_limiters.py:145-189", "reverb/cc/reverb_service_impl.cc:150-386", "reverb/cc/table.cc:462-541", "reverb/cc/table.cc:671-767", "reverb/cc/reverb_service_async_impl.cc:166-308", "reverb/cc/reverb_service_async_impl.cc:438-591", "reverb/cc/table.cc:183-344"]}
{"id": "C113", "title": "TFClient.insert refuses wrong tables and priorities and has no effect then", "statement": "TFClient.insert raises ValueError if tables is not a string tensor of rank 1, if priorities is not a float64 tensor of rank 1, or if the two do not have the same shape; nothing is inserted in these cases. Otherwise one item is made for each i, in tables[i] with priority priorities[i], and all of them show the data.", "quantifier": "For all types and all (partly known) static shapes of the two tensors, all values that such tensors can have when the graph is run, all data and all answers of the connection.", "why_tests_cant": "The checks are made on what is known when the graph is built, the kernel sees the values when it is run; whether together they cover every combination of known and unknown dimensions is not settled by trying some of them.", "anchors": ["reverb/tf_client.py:79-114", "reverb/cc/ops/client.cc:225-273"]}
{"id": "C114", "title": "A failed append leaves no trace and can be repeated", "statement": "If TrajectoryWriter.append (or Append/AppendPartial) fails because of the type or the shape of a tensor, the step is not appended: the history, the items, the episode and the columns are as before, and a call with right data that would have been accepted before is accepted afterwards.", "quantifier": "For all writers with valid options, all earlier calls and all interleavings with the stream worker, all numbers of columns, all data of the failed call and of the later ones.", "why_tests_cant": "A test tries a wrong tensor in one column of a fresh writer; what the failed call has left behind in the other columns depends on how full their chunks were and shows only in later calls.", "anchors": ["reverb/cc/trajectory_writer.cc:200-264", "reverb/cc/chunker.cc:110-169", "reverb/trajectory_writer.py:237-321"]}
{"id": "C115", "title": "What the signature check lets into a table is not refused when it is sampled", "statement": "If all items of a table were made by writers that know the signature of the table, then a sampler or dataset with this signature never refuses a sample: whatever CreateItem accepted can be unpacked and passes the check of the sampler, so that calls return errors only after all samples have been returned, Close was called, or a stream failed.", "quantifier": "For all signatures, all writers and calls on them, all schedules of the server (synchronous or asynchronous) with any number of streams and tables, all samplers and interleavings of their workers and callers.", "why_tests_cant": "The check of the writer works on references to steps, the one of the sampler on tensors that were cut out of chunks and put together again. A test compares both for a few shapes; that they agree for all depends on how items are made, sent and decoded.", "anchors": ["reverb/cc/trajectory_writer.cc:266-360", "reverb/cc/writer.cc:153-226", "reverb/cc/sampler.cc:507-625"]}
{"id": "C116", "title": "A column is given at most once in a step", "statement": "The parts of a step can be given in any number of AppendPartial calls and a final Append. As long as no column appears more than once they are all accepted; if a column appears again in the same step, the call returns FailedPrecondition.", "quantifier": "For all writers, options, schedules of calls (Append, AppendPartial, CreateItem, Flush, EndEpisode, ConfigureChunker) and of the stream worker, and all data.", "why_tests_cant": "The writer has no record of what was given in a step; it only looks at the last row of an unfinished chunk. Whether this finds all repetitions depends on chunk lengths, flushes and configurations between the calls; the unit tests use one chunk length.", "anchors": ["reverb/cc/trajectory_writer.h:120-129", "reverb/cc/chunker.cc:126-138", "reverb/cc/trajectory_writer.cc:203-262"]}
{"id": "C117", "title": "The guarantees of a table hold through checkpoints and restarts", "statement": "A table that is used, saved to a checkpoint and loaded by another server, any number of times, keeps its guarantees for all its servers together: its checkpoint can always be loaded; it never holds more than max_size items; its selectors know exactly its items; no item is sampled more than max_times_sampled times in total; the reported counters, the number of different items sampled, and the numbers of episodes count what happened on all servers; the rate limiter keeps its bounds for these totals; FIFO and LIFO tables keep the order of insertion if the clock advances.", "quantifier": "For all configurations and all alternations of request sequences (admitted priorities, well-formed items with sample count 0 as writers send them, including Reset and Close) and checkpoints that are written and loaded, without bound on their number.", "why_tests_cant": "A unit test saves and loads a table once and compares a few fields. That the limits also hold for everything that follows, after any number of restarts, depends on every counter and the order of the items being restored together.", "anchors": ["reverb/cc/table.cc:962-1037", "reverb/cc/platform/tfrecord_checkpointer.cc:226-376", "reverb/cc/table.cc:756-800", "reverb/cc/table.cc:1107-1117"]}
{"id": "C118", "title": "The objects a table is made from belong to it alone, and its extensions hear all that happens to it", "statement": "A rate limiter or an extension belongs to at most one table at a time. Making a table from one that is in use is refused; when a table is gone its rate limiter, extensions and selectors can be used for another one. Every extension of a table is told everything that happens to the table from the time it was added, in order, whether or not it runs asynchronously, and a table loaded from a checkpoint takes over the extensions of the table it replaces.", "quantifier": "For all numbers of rate limiters, extensions and tables, and all sequences in which tables are made, destroyed, replaced by checkpoints, given workers and extensions, and used.", "why_tests_cant": "A test makes one table and looks at one extension. Sharing, reuse after destruction and extensions added at various times need several objects and orders of calls, and the lists of extensions change in five functions.", "anchors": ["reverb/cc/table.cc:131-181", "reverb/cc/table.cc:419-447", "reverb/cc/table.cc:856-960", "reverb/cc/table.cc:1039-1050", "reverb/cc/table.cc:1082-1100", "reverb/cc/rate_limiter.cc:76-94", "reverb/cc/table_extensions/base.cc:25-61", "reverb/cc/platform/tfrecord_checkpointer.cc:306-370"]}
{"id": "C119", "title": "An error of one stream does not lose samples that have arrived", "statement": "Samples that workers have fetched before a stream fails, or before the rate limiter times out, are returned by the sampler before the error. In particular a dataset with a rate limiter timeout ends only after all samples that have arrived have been returned.", "quantifier": "For all configurations of the sampler, numbers of workers and callers, answers of servers and tables, and schedules of threads.", "why_tests_cant": "Tests fail a stream while nothing is queued. That samples are queued when an error is reported depends on the order in which workers and callers run.", "anchors": ["reverb/cc/sampler.cc:229-240", "reverb/cc/sampler.cc:350-371", "reverb/cc/sampler.cc:643-702", "reverb/cc/support/queue.h:157-170"]}
{"id": "C120", "title": "TaskWorker runs every task once, cancels the pending ones, and its statistics and deadlock warnings are right", "statement": "`TaskWorker` takes tasks in the order of `Schedule`, calls every callback scheduled before `Close` exactly once by the time `Close` returns, and cancels those pending when `Close` is called. `Schedule` tells whether the queue exceeds the limit. `GetThreadStats` tells which thread works on which task, since when, and how many it has processed. The deadlock checker warns exactly if all threads have been working on their tasks for at least a minute. `Close` returns once the callbacks do.", "quantifier": "For all numbers of threads, limits, sequences of calls, times and schedules of the threads, `Close` and the checker.", "why_tests_cant": "The order in which threads, `Close` and the checker take tasks and read statistics is not under the control of tests, and the checker has none (a TODO in the code says so).", "anchors": ["reverb/cc/task_worker.h:87-154", "reverb/cc/task_worker.h:191-290", "reverb/cc/thread_stats.h:25-44", "reverb/cc/thread_stats.cc:23-47"]}
{"id": "C121", "title": "Insert streams that share the chunk store do not disturb each other", "statement": "The chunks of an item are those that its own stream has sent, whatever other streams send, whichever items are removed and whenever the chunk store is cleaned; they stay the same afterwards. Whether an item is accepted depends on the requests of its stream alone. A chunk is kept exactly as long as a stream or an item needs it.", "quantifier": "For all numbers of insert streams, all requests, and all interleavings of the streams with removals of items, deleters and the cleaner of the chunk store.", "why_tests_cant": "Tests use one stream at a time and keys that do not collide; lifetimes of shared chunks depend on the order of streams, removals and the cleaner thread.", "anchors": ["reverb/cc/reverb_service_impl.cc:150-240", "reverb/cc/chunk_store.cc:82-130"]}
{"id": "C122", "title": "Arrays that a Python client writes come back with the same contents", "statement": "An array of any supported type, shape and memory layout (transposed, sliced, reversed, broadcast) that a Python client writes and reads again has the same shape, kind and width of numbers and the same value at each index. Arrays that cannot be stored faithfully are refused. No buffer is overrun.", "quantifier": "For all numpy arrays: all types, shapes, strides, byte orders and contents; and for all tensors in the other direction.", "why_tests_cant": "Tests write scalars and small contiguous arrays of each type; layouts, byte orders and sizes are unbounded.", "anchors": ["reverb/pybind.cc:127-389", "reverb/pybind.cc:437-471"]}
{"id": "C123", "title": "The Python module obeys the rules of the global interpreter lock", "statement": "Whatever methods the threads of a Python process call, and whatever these calls return, no thread uses Python without the interpreter lock. A thread that waits for a server, another thread or a file does not keep the lock, so that other threads go on.", "quantifier": "For all numbers of threads, all methods of the module, all interleavings and all results of the C++ calls.", "why_tests_cant": "A violation is a data race that shows only with several threads, or only on the error path of a call; tests are single threaded and mostly take the path without errors.", "anchors": ["reverb/pybind.cc:498-979", "reverb/pybind.cc:59-84"]}
{"id": "C124", "title": "Chunker options that are equal in Python do the same", "statement": "If two chunker options compare equal in Python then a trajectory writer that is given the one chunks its data as if it were given the other, whatever items are written. Comparison is an equivalence relation.", "quantifier": "For all options of both kinds and all sequences of items.", "why_tests_cant": "The tests of `configure` compare options with `==` and so rely on this property; they cannot see a difference that the comparison ignores.", "anchors": ["reverb/pybind.cc:859-878", "reverb/cc/chunker.cc:363-541"]}
