{"claims": [
 {"property": "C01", "status": "proved", "theorems": ["Verif.C01_fifo_sample", "Verif.C01_fifo_sample_total"], "note": "all call histories"},
 {"property": "C02", "status": "proved", "theorems": ["Verif.C02_lifo_sample", "Verif.C02_lifo_sample_total"], "note": "all call histories"},
 {"property": "C03", "status": "proved", "theorems": ["Verif.C03_uniform_sample", "Verif.C03_uniform_size"], "note": "all call histories"},
 {"property": "C04", "status": "proved", "theorems": ["Verif.C04_heap_sample", "Verif.C04_heap_sample_total"], "note": "all histories without NaN priorities, both directions"},
 {"property": "C05", "status": "proved", "theorems": ["Verif.C05_prioritized_interval", "Verif.C05_prioritized_uniform", "Verif.C05_prioritized_zero_never", "Verif.C05_prioritized_total", "Verif.C05_walk_robust"], "note": "exact arithmetic; the power function is an arbitrary non-negative function"},
 {"property": "C06", "status": "proved", "theorems": ["Verif.C06_call_result", "Verif.C06_rejected_invisible", "Verif.C06_sample_total"], "note": "all five selector kinds"},
 {"property": "C07", "status": "proved", "theorems": ["Verif.C07_sample_granted", "Verif.C07_ratio_bound"], "note": "Every reachable table state and every operation; the bound needs samples_per_insert >= 0 and at least one granted sample."},
 {"property": "C08", "status": "proved", "theorems": ["Verif.C08_insert_granted", "Verif.C08_ratio_bound", "Verif.C08_error_buffer"], "note": "Every operation that adds an item, from every reachable state; as a bound that holds in every reachable state; and in terms of error_buffer of SampleToInsertRatio."},
 {"property": "C09", "status": "proved", "theorems": ["Verif.C09_ratio_never_stuck", "Verif.C09_minSize_never_stuck", "Verif.C09_queue_never_stuck", "Verif.C09_stack_never_stuck", "Verif.C09_stuck_rejected", "Verif.C105_never_both", "Verif.C09_constructible", "Verif.C09_minSize_accepts", "Verif.C09_ratio_accepts"], "note": "Queue and Stack need size >= 1; rate_limiters.Queue(0) is accepted and stuck (shown by example), Table.queue rejects it. C105_never_both is the statement for tables in operation. C09_constructible/_accepts: exactly which arguments are accepted, and that what is accepted does not make the C++ constructor die."},
 {"property": "C10", "status": "proved", "theorems": ["Verif.C10_queue", "Verif.C10_exactly_once_in_order", "Verif.C10_deletes_reduce_capacity"], "note": "Refinement of the whole table to an abstract bounded queue for all request sequences without explicit deletes; the last theorem shows the exclusion is necessary."},
 {"property": "C100", "status": "partial", "theorems": ["Verif.Service.C100_sample_partial", "Verif.Service.C100_samples_partial", "Verif.Service.C100_timesteps_partial", "Verif.StepsDemo.demo", "Verif.AsyncService.C100_async_sample_partial", "Verif.AsyncService.C100_async_samples_partial", "Verif.AsyncService.C100_async_timesteps_partial", "Verif.AsyncService.Demo.step_demo"], "note": "Synchronous and asynchronous server. Needs what C42 needs (0 < n <= steps held, no failed stream that ends with OK; C42_offset, C42_zero and C42_finish are counterexamples), steps of one type and shape per column, and that all items come from such writers. For timesteps the server must not send more samples than asked for (Faithful), which C55 proves of the servers."},
 {"property": "C101", "status": "partial", "theorems": ["Verif.World.C101_table", "Verif.World.C101_own_limiter", "Verif.World.C101_served", "Verif.World.C101_use_partial", "Verif.World.C101_use_is_false", "Verif.World.C101_history_partial", "Verif.World.C101_one_selector", "Verif.World.C101_used_limiter", "Verif.World.C101_server", "Verif.World.C101_handle_partial", "Verif.World.C101_handle_is_false", "Verif.World.C101_same_object", "Verif.World.C101_restored_handle", "Verif.World.C101_stop", "Verif.ObjectsDemo.demo_use", "Verif.ObjectsDemo.demo_twice", "Verif.ObjectsDemo.demo_used", "Verif.ObjectsDemo.demo_handle", "Verif.ObjectsDemo.demo_stop"], "note": "The full statement is false: selectors can be shared between tables, a table object is replaced by a restore. Proved for programs that hand every selector and limiter to one table, and for servers without a checkpoint; what happens otherwise is proved too."},
 {"property": "C102", "status": "partial", "theorems": ["Verif.C102_timesteps_partial", "Verif.C102_signature_partial", "Verif.C102_whole", "Verif.C102_squeezed_scalar", "Verif.C102_squeezed_axis", "Verif.C102_generator", "Verif.Service.C102_written_partial", "Verif.C102_insert", "Verif.C102_timesteps_is_false", "Verif.PySampleDemo.demo_steps", "Verif.PySampleDemo.demo_signature", "Verif.PySampleDemo.demo_squeezed", "Verif.PySampleDemo.demo_scalar", "Verif.PySampleDemo.demo_generator", "Verif.PySampleDemo.demo_written", "Verif.PySampleDemo.demo_insert"], "note": "The full statement is false for squeezed columns. Proved for all trajectories without them, with and without signature, and for whole trajectories of any kind; what happens with squeezed columns is proved too."},
 {"property": "C103", "status": "partial", "theorems": ["Verif.C103_same_order", "Verif.C103_errors", "Verif.C103_element_spec", "Verif.C103_accepted", "Verif.C103_elements", "Verif.C103_elements_partial", "Verif.C103_table", "Verif.C103_constructor", "Verif.C103_arguments", "Verif.C103_sequence_is_false", "Verif.PyDatasetDemo.demo_made", "Verif.PyDatasetDemo.demo_refused", "Verif.PyDatasetDemo.demo_steps", "Verif.PyDatasetDemo.demo_elements", "Verif.PyDatasetDemo.demo_order", "Verif.PyDatasetDemo.demo_constructor"], "note": "Everything is proved except that whole sequences have the declared length, which is false (C103_sequence_is_false); for these C103_elements gives types and inner dimensions. That the server answers in time is a hypothesis, see C87_false."},
 {"property": "C104", "status": "partial", "theorems": ["Verif.C104_round_trip", "Verif.C104_chunk_partial", "Verif.C104_in_bounds", "Verif.C104_memory", "Verif.C104_damage_is_false", "Verif.CompressionDemo.demo_polite", "Verif.CompressionDemo.demo_lossless", "Verif.CompressionDemo.demo_trip"], "note": "Everything is proved except that damaged contents are reported, which is false (C104_damage_is_false), and tensors of integral types without rows, for which delta encoding is undefined (C32_no_rows). That snappy gets back what it compressed is a hypothesis."},
 {"property": "C105", "status": "partial", "theorems": ["Verif.C105_constructors", "Verif.C105_never_both", "Verif.C105_consumers", "Verif.C105_producers", "Verif.C105_small_table", "Verif.C105_no_ratio", "Verif.C105_zero_is_false", "Verif.ReleaseDemo.cfg_uses", "Verif.ReleaseDemo.demo_run", "Verif.ReleaseDemo.demo_applies"], "note": "Proved for positive samples_per_insert and room for min_size_to_sample items, for the limiters of C09. The constructors also accept a ratio of 0 and tables that are too small, for which consumers wait for ever (C105_zero_is_false, C105_small_table)."},
 {"property": "C106", "status": "partial", "theorems": ["Verif.C106_draws", "Verif.C106_replies", "Verif.C106_exact", "Verif.C106_exact_uniform", "Verif.C106_integers", "Verif.C106_close", "Verif.C106_moderate", "Verif.C106_nan_total", "Verif.PrioDoubleBad.C106_zero_priorities_false", "Verif.PrioDoubleBad.C106_zero_drawn_false", "Verif.PrioDoubleBad.C106_infinity_false", "Verif.PrioDoubleDemo.fewDigits", "Verif.PrioDoubleDemo.leaves", "Verif.PrioDoubleDemo.total", "Verif.PrioDoubleDemo.half", "Verif.PrioDoubleDemo.top_draw", "Verif.PrioDoubleDemo.ties", "Verif.PrioCloseDemo.moderate", "Verif.PrioCloseDemo.leaves", "Verif.PrioCloseDemo.total"], "note": "Safety and replies are proved for all doubles. Fairness is exact for weights of few digits and right up to a fixed tolerance for any finite weights (C106_close), in histories of any length. What the statement says about priority zero and infinite priorities in general is false (the three theorems ending in _false). The largest draw is taken to be 1 - 2^(-53)."},
 {"property": "C107", "status": "partial", "theorems": ["Verif.C107_exact", "Verif.C107_error", "Verif.C107_constructor", "Verif.C107_never_both_digits", "Verif.C107_never_both", "Verif.C107_minSize", "Verif.C107_queue", "Verif.LimiterDoubleBad.C107_nan_ratio_false", "Verif.LimiterDoubleBad.C107_rounding_false", "Verif.LimiterDoubleDemo.accepted", "Verif.LimiterDoubleDemo.applies", "Verif.LimiterDoubleDemo.one_side", "Verif.LimiterDoubleDemo.applies_general"], "note": "That accepted limiters never block both sides is proved for arguments of few digits, and for other ratios while the quantities involved are below 2^49 times the distance of the ratio from 1. It is false for NaN and for larger counters."},
 {"property": "C108", "status": "partial", "theorems": ["Verif.C108_fields", "Verif.C108_unique", "Verif.C108_stats", "Verif.C108_pending", "Verif.C108_total", "Verif.C108_worker_partial", "Verif.C108_unchanged", "Verif.C108_entries", "Verif.info_seen", "Verif.C108_worker_false", "Verif.C108_episodes_false", "Verif.C108_snapshot_false"], "note": "Proved for tables without table worker while the buffer of events is large enough (never more than 1,000,000 calls from a waiting one to the latest). With a table worker the number of completed calls is right; waiting requests are not reported at all, which is what the code does."},
 {"property": "C109", "status": "partial", "theorems": ["Verif.TFSample.C109_sampler", "Verif.TFSample.C109_outputs", "Verif.TFSample.C109_errors", "Verif.TFSample.C109_waits", "Verif.TFSample.C109_item_partial", "Verif.TFSample.C109_whole_item_false", "Verif.AsyncService.C109_async_item_partial", "Verif.AsyncService.Demo.op_demo"], "note": "Partial because only the first step of an item is returned (this is what the code does). Everything else of the statement is proved; the end-to-end theorem is for items from old writers on servers (synchronous or asynchronous) that get their items from them."},
 {"property": "C11", "status": "proved", "theorems": ["Verif.C11_stack", "Verif.C11_exactly_once"], "note": "Refinement to an abstract bounded stack."},
 {"property": "C110", "status": "partial", "theorems": ["Verif.AutoTuned.C110_partial", "Verif.AutoTuned.C110_remembered", "Verif.AutoTuned.C110_compared_false"], "note": "Partial because the score compared with need not be the most recent one (this is what the code does). Rule, buffers and scores are proved for all histories; doubles are exact rationals."},
 {"property": "C111", "status": "partial", "theorems": ["Verif.TrajWriter.C111_partial", "Verif.TrajWriter.SigDemo.C111_empty_column_false"], "note": "Partial because a trajectory with some empty columns is undefined behaviour (this is what the code does). The rest is proved in both directions for all histories."},
 {"property": "C112", "status": "partial", "theorems": ["Verif.Service.C112_queue", "Verif.Service.C112_stack", "Verif.Service.C112_once", "Verif.Service.C112_order", "Verif.AsyncService.C112_async_queue_partial", "Verif.AsyncService.C112_async_stack_partial", "Verif.AsyncService.C112_async_once", "Verif.AsyncService.C112_async_order", "Verif.AsyncService.C112_async_lost"], "note": "Synchronous server: in full. Asynchronous server: order and at most once in full; that every item reaches a consumer fails when a request times out after samples were taken for it (C112_async_lost); proved for streams that go on."},
 {"property": "C113", "status": "partial", "theorems": ["Verif.TFInsert.C113_checks", "Verif.TFInsert.C113_insert_partial", "Verif.TFInsert.C113_eager", "Verif.TFInsert.C113_inserted_partial", "Verif.TFInsert.C113_late_is_false", "Verif.TFInsert.C113_rank_is_false"], "note": "Which calls are refused, and that they have no effect, is proved in full; ValueError as documented for programs that run eagerly. False otherwise: a length that is not known when the graph is made gives InvalidArgument when it is run. What is inserted: as C93."},
 {"property": "C114", "status": "partial", "theorems": ["Verif.TrajWriter.C114_accepts", "Verif.TrajWriter.C114_failed_partial", "Verif.TrajWriter.C114_again", "Verif.TrajWriter.C114_chunks_of_one_partial", "Verif.TrajWriter.C114_stuck", "Verif.TrajWriter.C114_episode", "Verif.PyWriter.C114_is_false"], "note": "What is accepted, what a failed call changes and when it can be repeated is proved exactly, for all histories. The full statement is false: the columns before the refused tensor keep theirs (C114_is_false), after which the writer can be stuck until the end of the episode (C114_stuck)."},
 {"property": "C115", "status": "partial", "theorems": ["Verif.Service.C115_trajectories_partial", "Verif.Service.C115_steps_partial", "Verif.AsyncService.C115_async_trajectories_partial", "Verif.AsyncService.C115_async_steps_partial", "Verif.RefusedDemo.C115_order_false"], "note": "Proved from writers through the synchronous and the asynchronous server to the sampler: for trajectory writers with GetNextTrajectory, for old writers with GetNextTimestep and GetNextSample. The full statement is false for references that are not in order within a chunk (C115_order_false); assumed besides: all items come from such writers, references are ones Append returned, and Writer.Sound (see C42) for old writers."},
 {"property": "C116", "status": "partial", "theorems": ["Verif.TrajWriter.C116_parts", "Verif.TrajWriter.C116_twice_partial", "Verif.TrajWriter.C116_finished", "Verif.TrajWriter.C116_chunks_of_one", "Verif.TrajWriter.TwiceDemo.C116_is_false"], "note": "C116_parts is the first half, in full. The second half is false if the chunk of the column is finished in between (C116_is_false; C116_chunks_of_one shows that with chunks of one row it is never refused); C116_twice_partial proves FailedPrecondition if the chunk is not finished, C116_finished that it is accepted otherwise."},
 {"property": "C117", "status": "proved", "theorems": ["Verif.C117_loads", "Verif.C117_size", "Verif.C117_items", "Verif.C117_selectors", "Verif.C117_max_times_sampled", "Verif.C117_counts", "Verif.C117_ratio", "Verif.C117_order", "Verif.LifeDemo.C117_own_log_is_false"], "note": "For tables without table worker queues in flight (requests that have not completed are not part of a checkpoint). Extends C07, C08, C12, C13, C15, C19, C20, C21 and C54 to all lives."},
 {"property": "C118", "status": "partial", "theorems": ["Verif.Wiring.C118_one_table", "Verif.Wiring.C118_construct", "Verif.Wiring.C118_destroy", "Verif.Wiring.C118_add", "Verif.Wiring.C118_told_partial", "Verif.Wiring.C118_told_all_partial", "Verif.Wiring.C118_late", "Verif.Wiring.Demo.C118_late_is_false", "Verif.Wiring.C118_load", "Verif.Wiring.C118_reuse_is_false", "Verif.Wiring.C118_one_selector_is_false", "Verif.Wiring.C118_shared_selector_is_false"], "note": "Ownership is proved in full. Extensions hear everything only if none is added to a table whose workers run (witness), a rate limiter cannot be used again (witness), selectors may be shared (witnesses). Waiting for room in extension_requests_ is not modelled here (C60, C75); requests not handled when a table is destroyed are lost."},
 {"property": "C119", "status": "partial", "theorems": ["Verif.ClientSampler.C119_lost", "Verif.ClientSampler.C119_errors", "Verif.ClientSampler.C119_at_once", "Verif.ClientSampler.C119_rest_partial", "Verif.ClientSampler.C119_is_false", "Verif.ClientSampler.C119_timeout_is_false"], "note": "The claim is false (two witnesses). Proved in full: the samples in the queue when the error is reported are lost for good, the error is returned at once, later calls return only errors; all other samples that have arrived are returned once, and no more are lost from the queue than it has room for (max(num_workers, 1))."},
 {"property": "C12", "status": "partial", "theorems": ["Verif.C12_size_le_max_partial", "Verif.C12_size_le_max_unprioritized", "Verif.C12_false_for_rejected_priorities"], "note": "Proved for all sequences whose priorities the selectors accept (all sequences, if neither selector is prioritized). The unrestricted claim is false: an insert whose priority is refused stays in the table; proved by a concrete trace. Restore from checkpoint is treated in C23."},
 {"property": "C120", "status": "partial", "theorems": ["Verif.TaskWorker.C120_once", "Verif.TaskWorker.C120_status_partial", "Verif.TaskWorker.C120_cancelled_after_close", "Verif.TaskWorker.C120_cancel_is_false", "Verif.TaskWorker.C120_room", "Verif.TaskWorker.C120_schedule_is_false", "Verif.TaskWorker.C120_dropped", "Verif.TaskWorker.C120_stats", "Verif.TaskWorker.C120_warning_partial", "Verif.TaskWorker.C120_decides", "Verif.TaskWorker.C120_warning_is_false", "Verif.TaskWorker.C120_alive", "Verif.TaskWorker.C120_no_threads", "Verif.TaskWorker.C120_progress", "Verif.TaskWorker.C120_noticed"], "note": "Proved in full: order, once each, all called when Close has returned; what Schedule returns; the statistics; when the checker decides to warn, and that a deadlock that lasts over a round is noticed; Close does not get stuck. False in the code, with witnesses: that pending tasks are cancelled, the documented return value of Schedule, that all threads are blocked at the same moment when it warns, and that zero threads are harmless."},
 {"property": "C121", "status": "partial", "theorems": ["Verif.SharedStore.C121_lifetime", "Verif.SharedStore.C121_total", "Verif.SharedStore.C121_independent", "Verif.SharedStore.C121_some_stream", "Verif.SharedStore.C121_own_partial", "Verif.SharedStore.C121_constant", "Verif.SharedStore.C121_is_false", "Verif.SharedStore.C121_again_is_false"], "note": "Proved in full: lifetimes, no dangling pointers, acceptance of items depends on the own stream alone, contents never change, and contents come from some stream with the right key. That they come from the own stream is proved if no two different chunks with the same key are sent, and false otherwise (two witnesses)."},
 {"property": "C122", "status": "partial", "theorems": ["Verif.NdArray.C122_numbers", "Verif.NdArray.C122_values_partial", "Verif.NdArray.C122_swapped", "Verif.NdArray.C122_accepts", "Verif.NdArray.C122_text", "Verif.NdArray.C122_text_unique", "Verif.NdArray.C122_load_defined", "Verif.NdArray.C122_large", "Verif.NdArray.C122_tensor", "Verif.NdArray.C122_tensor_other", "Verif.NdArray.C122_not_array", "Verif.NdArray.C122_swapped_is_false", "Verif.NdArray.C122_text_is_false", "Verif.NdArray.C122_large_is_false", "Verif.NdArray.C122_same_iff", "Verif.NdArray.C122_bytes"], "note": "Proved in full: shapes, types and bytes at each index for all layouts; which arrays are accepted; exactly which numbers come back with the same value; tensors come back unchanged; nothing is overrun below 2^31 strings. False in the code, with witnesses: values of arrays in the other byte order, strings come back as bytes, 2^31 or more strings are undefined."},
 {"property": "C123", "status": "partial", "theorems": ["Verif.Gil.C123_safe_partial", "Verif.Gil.C123_waits_partial", "Verif.Gil.C123_free_partial", "Verif.Gil.C123_returns", "Verif.Gil.C123_info_is_false", "Verif.Gil.C123_raise_is_false", "Verif.Gil.C123_dtype_is_false", "Verif.Gil.C123_server_is_false", "Verif.Gil.C123_blocked", "Verif.Gil.C123_del_is_false"], "note": "Proved for all methods but five: Python is used only with the lock; and for all but these, the constructor of Server and three destructors: nobody waits with the lock, and the lock becomes free. The exceptions are false in the code (witnesses); what waiting with the lock does to other threads is proved too."},
 {"property": "C124", "status": "partial", "theorems": ["Verif.OptsEq.C124_equivalence", "Verif.OptsEq.C124_kinds", "Verif.OptsEq.C124_constant", "Verif.OptsEq.C124_auto_partial", "Verif.OptsEq.C124_keep", "Verif.OptsEq.C124_auto_is_false"], "note": "Proved in full: equivalence, constant options (with the converse), the number of references kept. Automatic options: proved if the weights are the same, false otherwise (witness)."},
 {"property": "C13", "status": "proved", "theorems": ["Verif.C13_selectors_agree"], "note": "All selector combinations, all admissible sequences."},
 {"property": "C14", "status": "proved", "theorems": ["Verif.C14_eviction"], "note": "Every reachable state, new item, remover and draw."},
 {"property": "C15", "status": "proved", "theorems": ["Verif.C15_max_times_sampled"], "note": "Items handed over with times_sampled 0, as the library's writers do."},
 {"property": "C16", "status": "proved", "theorems": ["Verif.C16_single_sample", "Verif.C16_batch"], "note": "Every reachable state and draw."},
 {"property": "C17", "status": "proved", "theorems": ["Verif.C17_insert_existing", "Verif.C17_worker_insert_existing"], "note": "The worker path needs CanInsert first (second theorem)."},
 {"property": "C18", "status": "proved", "theorems": ["Verif.C18_mutate"], "note": "All lists, with repeats and overlaps."},
 {"property": "C19", "status": "proved", "theorems": ["Verif.C19_episodes"], "note": "All admissible sequences."},
 {"property": "C20", "status": "proved", "theorems": ["Verif.C20_unique_samples"], "note": "Fresh items."},
 {"property": "C21", "status": "proved", "theorems": ["Verif.C21_counters"], "note": "All admissible sequences."},
 {"property": "C22", "status": "proved", "theorems": ["Verif.C22_reset"], "note": "For every history (also with refused requests) the reset table answers every later request sequence as a new table does; a closed table stays closed."},
 {"property": "C23", "status": "proved", "theorems": ["Verif.C23_restore", "Verif.C23_selection", "Verif.C23_replies", "Verif.C23_heap_ties_not_preserved", "Verif.C23_equal_times_not_preserved"], "note": "Contents, counters and configuration for every history; choices of FIFO/LIFO/uniform/prioritized now and after any later calls; full reply equality with FIFO/LIFO. FIFO/LIFO need distinct insertion times, refuted otherwise; heap ties are not preserved (witness)."},
 {"property": "C24", "status": "partial", "theorems": ["Verif.C24_no_fatal_request_partial", "Verif.C24_no_fatal_sequence_unprioritized", "Verif.C24_false_fatal", "Verif.C24_false_failed_insert_stays", "Verif.C24_false_failed_update_stays"], "note": "Proved for requests with priorities accepted by the selectors. False in general: concrete traces kill the process or leave a half-applied insert/update."},
 {"property": "C25", "status": "partial", "theorems": ["Verif.C25_sequential", "Verif.C25_order", "Verif.C25_settles", "Verif.C25_survives", "Verif.C25_applied_partial", "Verif.C25_lost_wakeup", "Verif.C25_worker_ends"], "note": "Order, at-most-once and sequential equivalence hold for every schedule (items queued at Close may be dropped). Eventual application is proved for schedules without MutateItems/Reset in the gap between two critical sections of the worker and with admitted priorities; both restrictions are necessary, shown by C25_lost_wakeup and C25_worker_ends."},
 {"property": "C26", "status": "proved", "theorems": ["Verif.C26_once", "Verif.C26_status", "Verif.C26_order", "Verif.C26_samples", "Verif.C26_timeout", "Verif.C26_alarm", "Verif.C26_blocked_partial"], "note": "At most once, OK iff full batch (a request for 0 samples is one for 1), arrival order, for every schedule. C26_blocked_partial adds that a waiting worker leaves requests open only when the limiter blocks (same restriction as C25)."},
 {"property": "C27", "status": "proved", "theorems": ["Verif.C27_once", "Verif.C27_resumes_partial", "Verif.C27_taken_over", "Verif.C27_bound"], "note": "Callbacks are handed to the executor; whether the weak pointer is still alive is not modelled. C27_resumes_partial adds liveness with the restriction of C25."},
 {"property": "C28", "status": "partial", "theorems": ["Verif.C28_async", "Verif.C28_status", "Verif.C28_sync", "Verif.C28_sync_stays", "Verif.C28_served_after_close"], "note": "Synchronous callers: proved in full. Refuted literally with the table worker: it still serves requests with OK after Close when the limiter allows it (C28_served_after_close)."},
 {"property": "C29", "status": "partial", "theorems": ["Verif.C29_sync", "Verif.C29_attempt", "Verif.C29_single_partial", "Verif.C29_lost_samples", "Verif.C29_late_insert", "Verif.C29_dropped_ok"], "note": "Holds for every schedule without worker and for single samples with it; refuted with the worker for batches and for InsertOrAssign."},
 {"property": "C30", "status": "proved", "theorems": ["Verif.C30_chunk_keys", "Verif.C30_chunks_checked"], "note": "For every trajectory."},
 {"property": "C31", "status": "proved", "theorems": ["Verif.C31_timestep", "Verif.C31_recognised", "Verif.C31_offset_not_checked", "Verif.C31_gap_not_detected"], "note": "For every chunk list, number of columns, and rows that start in the first chunk and end in the last; IsTimestepTrajectory is characterised exactly. Witnesses: offsets beyond the first chunk and gaps at chunk ends are not detected by the code."},
 {"property": "C32", "status": "partial", "theorems": ["Verif.C32_lossless_partial", "Verif.C32_differences", "Verif.C32_unchanged", "Verif.C32_list_partial", "Verif.C32_no_rows"], "note": "Lossless for all shapes and contents except integral tensors with no rows but a non-empty row shape, where the code accesses memory out of bounds (C32_no_rows). Chunks always have a row."},
 {"property": "C33", "status": "partial", "theorems": ["Verif.TrajWriter.C33_contiguous_partial", "Verif.TrajWriter.TrajDemo.C33_gap", "Verif.TrajWriter.TrajDemo.C33_order"], "note": "Proved from CreateItem through the stream and either server to the unpacked sample, for columns in which neighbours from the same chunk are consecutive steps. For other columns the statement is false (C33_gap, C33_order)."},
 {"property": "C34", "status": "proved", "theorems": ["Verif.Chunker.C34_ref", "Verif.Chunker.C34_data", "Verif.Chunker.C34_alive", "Verif.Chunker.C34_accepts", "Verif.Chunker.C34_kept", "Verif.Chunker.C34_held", "Verif.Chunker.C34_chunk", "Verif.Chunker.C34_fixed"], "note": "all sequences of Append, Flush, Reset, ApplyConfig and OnItemFinalized of a chunker with valid options; a reference is its position among the appended rows"},
 {"property": "C35", "status": "partial", "theorems": ["Verif.Chunker.C35_partial", "Verif.Chunker.C35_length_partial", "Verif.Chunker.C35_length_constant", "Verif.Chunker.C35_autotuned"], "note": "ranges, order, data and offsets for all call sequences; lengths bounded by max_chunk_length for constant options and by the largest length that was in force otherwise; refuted for auto-tuned options whose length is lowered while rows are buffered"},
 {"property": "C36", "status": "proved", "theorems": ["Verif.AutoTuned.C36", "Verif.AutoTuned.C36_rarely"], "note": "all item histories; scores are exact rationals"},
 {"property": "C37", "status": "partial", "theorems": ["Verif.TrajWriter.C37_constant_partial", "Verif.TrajWriter.C37_auto_partial", "Verif.TrajWriter.C37_never_delta", "Verif.TrajWriter.TrajDemo.C37_delta_dropped"], "note": "Length, kept references and throughput weight asked for are the ones in use, after all event sequences. Delta encoding is always dropped (C37_never_delta), so the full statement is false."},
 {"property": "C38", "status": "proved", "theorems": ["Verif.TrajWriter.C38_agree"], "note": "All event sequences (user calls, worker steps, stream failures), both servers. Inserts into tables are taken to succeed."},
 {"property": "C39", "status": "proved", "theorems": ["Verif.TrajWriter.C39_flush", "Verif.TrajWriter.C39_ready"], "note": "All event sequences and all k. Liveness is given as: the needed chunks are ready after Flush has begun."},
 {"property": "C40", "status": "proved", "theorems": ["Verif.TrajWriter.C40_order", "Verif.TrajWriter.C40_complete"], "note": "All event sequences; streams include failed ones."},
 {"property": "C41", "status": "partial", "theorems": ["Verif.TrajWriter.C41_lost", "Verif.TrajWriter.TrajDemo.C41_item_lost", "Verif.TrajWriter.C41_unwritten_partial", "Verif.TrajWriter.C41_resend_partial"], "note": "The full statement is false: an item written but not confirmed when the stream breaks is never sent again (C41_lost for every such state, C41_item_lost a concrete run). Proved: items not successfully written stay in the queue, and all items of the queue are written in order on the next stream."},
 {"property": "C42", "status": "partial", "theorems": ["Verif.Writer.C42_partial", "Verif.Writer.C42_flush_partial", "Verif.Writer.C42_written_partial", "Verif.Writer.C42_plain_partial", "Verif.Writer.C42_available", "Verif.Writer.C42_offset", "Verif.Writer.C42_zero", "Verif.Writer.C42_columns", "Verif.Writer.C42_finish"], "note": "Every item that reaches a server was asked for by one CreateItem call, with its table and priority, and shows exactly the last n steps; after Flush returns OK it has been written. Needs 0 < n <= number of steps the writer holds (without Flush no upper bound is needed, C42_plain_partial), steps with the same number of tensors, and no failed stream that ends with OK. C42_offset, C42_zero, C42_columns, C42_finish are runs that show that the full statement is false without these."},
 {"property": "C43", "status": "partial", "theorems": ["Verif.Writer.C43_partial", "Verif.Writer.C43_retry", "Verif.Writer.C43_again", "Verif.Writer.C43_stuck", "Verif.Writer.C43_stuck_reached", "Verif.Writer.C43_same_key", "Verif.Writer.C43_poisoned"], "note": "After failed calls of Append all state of which later chunks and items are made is as before, no pending item is lost or sent twice on the record, and a later success has the same result as an immediate one; without a limit on items in flight a retry succeeds if the writes do. The full statement is false: DataLoss can leave a writer that never succeeds again (C43_stuck), and a failed Append may have sent its chunk, whose key is then reused for other contents (C43_same_key)."},
 {"property": "C44", "status": "proved", "theorems": ["Verif.C44_sync", "Verif.C44_async", "Verif.C44_async_drains", "Verif.C44_data"], "note": "Both servers' splitting, the client's reassembly and its reference counting. ByteSizeLong and the limits are arbitrary."},
 {"property": "C45", "status": "partial", "theorems": ["Verif.C45_options", "Verif.C45_at_most", "Verif.C45_requests_partial", "Verif.C45_request_size", "Verif.C45_end", "Verif.C45_end_always", "Verif.C45_end_not_before", "Verif.C45_progress", "Verif.C45_requests_false", "Verif.C45_reject_hang", "Verif.C45_mixed_false"], "note": "Delivery bound, end of sequence and progress for all schedules. Refuted: the total number of requested samples when a stream is given up, and two ways to wait forever."},
 {"property": "C46", "status": "partial", "theorems": ["Verif.C46_batched", "Verif.C46_partial", "Verif.C46_exact", "Verif.C46_differently_cut"], "note": "Holds exactly for samples whose columns are cut into chunks at the same places; refuted for others (C46_differently_cut)."},
 {"property": "C47", "status": "partial", "theorems": ["Verif.C47_fifo", "Verif.C47_push", "Verif.C47_pop", "Verif.C47_popBatch_partial", "Verif.C47_popBatch_after_last"], "note": "PopBatch refuses after SetLastItemPushed although enough items are there: proved as C47_popBatch_after_last; everything else holds."},
 {"property": "C48", "status": "proved", "theorems": ["Verif.C48_fifo", "Verif.C48_push", "Verif.C48_pop"], "note": "All interleavings of completed calls; a call waits exactly when the model gives none."},
 {"property": "C49", "status": "partial", "theorems": ["Verif.C49_get_sound", "Verif.C49_insert_sound", "Verif.C49_no_leak", "Verif.C49_find_partial", "Verif.C49_get_partial", "Verif.C49_no_reuse", "Verif.C49_lost"], "note": "Holds if no key is inserted while its dead predecessor awaits the cleaner; otherwise a live chunk can become unfindable (C49_lost)."},
 {"property": "C50", "status": "partial", "theorems": ["Verif.C50_crash_partial", "Verif.C50_untouched", "Verif.C50_keep", "Verif.C50_clock", "Verif.C50_overlap_is_false"], "note": "For all directories, all sequences of attempts, each cut off after any number of file operations. Missing: a name not later than those present (clock set back): C50_clock shows Save deletes what it wrote; two calls at the same time: C50_overlap_is_false."},
 {"property": "C51", "status": "partial", "theorems": ["Verif.C51_latest", "Verif.C51_start_partial", "Verif.C51_missing_file"], "note": "For all contents of root and fallback directory. Missing: a directory with DONE but without data, where LoadLatest gives NotFound and the server starts empty (C51_missing_file)."},
 {"property": "C52", "status": "proved", "theorems": ["Verif.C52", "Verif.C52_supported", "Verif.C52_stable", "Verif.C52_tables"], "note": "Names of leaves need not be distinct: a slash in a key is not marked (SigDemo.C52_ambiguous)."},
 {"property": "C53", "status": "partial", "theorems": ["Verif.C53_history_partial", "Verif.C53_overrun", "Verif.C53_poll_partial", "Verif.C53_last_withheld"], "note": "Exactly all but the last completed event are reported, in order, once, also to a polling client; the missing last event contradicts the documentation (C53_last_withheld)."},
 {"property": "C54", "status": "partial", "theorems": ["Verif.C54_notifications", "Verif.C54_complete", "Verif.Ext.C54_async_partial", "Verif.Ext.C54_async_asleep_partial", "Verif.Ext.C54_async_false"], "note": "Synchronous extensions: proved; replaying the notifications gives the table. Asynchronous ones: the same notifications in the same order as long as nobody comes to the table while a caller waits for the extension worker; refuted otherwise."},
 {"property": "C55", "status": "proved", "theorems": ["Verif.SyncSampler.C55_sync", "Verif.SyncSampler.C55_sync_batch", "Verif.SyncSampler.C55_sync_rejects", "Verif.AsyncSampler.C55_async", "Verif.AsyncSampler.C55_async_once", "Verif.AsyncSampler.C55_async_batch", "Verif.AsyncSampler.C55_async_asks", "Verif.AsyncSampler.C55_async_status", "Verif.AsyncSampler.C55_async_rejects"], "note": "Both servers, any number of streams and any schedule. The exact count is claimed for streams that end OK and were not cancelled by the client."},
 {"property": "C56", "status": "partial", "theorems": ["Verif.SyncServer.C56_sync_rejects_partial", "Verif.SyncServer.C56_sync_ended", "Verif.SyncServer.C56_sync_alive_partial", "Verif.SyncServer.C56_sync_keep_false", "Verif.SyncServer.C56_sync_accepts_false", "Verif.AsyncServer.C56_async_rejects_chunk", "Verif.AsyncServer.C56_async_rejects_table_partial", "Verif.AsyncServer.C56_async_ended", "Verif.AsyncServer.C56_async_alive_partial", "Verif.AsyncServer.C56_async_calm_partial", "Verif.AsyncServer.C56_async_keep_false"], "note": "Missing chunks and unknown tables end the stream with an error without harm on both servers; unknown keep keys kill both processes, repeated keys and empty requests kill the asynchronous one and are accepted by the synchronous one (refuted with concrete runs)."},
 {"property": "C57", "status": "partial", "theorems": ["Verif.SyncServer.C57_sync", "Verif.SyncServer.C57_sync_all", "Verif.AsyncServer.C57_async_partial", "Verif.AsyncServer.C57_async_false"], "note": "Proved for the synchronous server, with the other direction (a stream that ends OK has confirmed every item that asked for it, in order). On the asynchronous server confirmed items have only been taken into the queue of the table; refuted by a run in which a confirmed item is never inserted."},
 {"property": "C58", "status": "partial", "theorems": ["Verif.SyncSampler.C58_sync", "Verif.SyncSampler.C58_sync_never", "Verif.SyncSampler.C58_later_requests_false", "Verif.AsyncSampler.C58_async", "Verif.AsyncSampler.C58_async_never", "Verif.AsyncSampler.C58_async_alarm", "Verif.C58_client", "Verif.C58_end_to_end_partial", "Verif.C58_short_false", "Verif.C58_zero_false", "Verif.C58_local_not_early", "Verif.C58_local_infinite", "Verif.C58_local_deadline", "Verif.C58_local_report", "Verif.C58_remote_report", "Verif.C58_remote_quiet"], "note": "Both servers, the conversions of the client, the local sampler, and what the client makes of a stream ended by a timeout. Refuted: later requests of a stream on the synchronous server, zero and sub-millisecond timeouts on the asynchronous one."},
 {"property": "C59", "status": "proved", "theorems": ["Verif.C59_order", "Verif.C59_close", "Verif.C59_progress", "Verif.C59_bound"], "note": "Any number of threads, any schedule; Close may be called again after it has returned."},
 {"property": "C60", "status": "partial", "theorems": ["Verif.Ext.C60_partial", "Verif.Ext.C60_no_worker", "Verif.Ext.C60_one_thread", "Verif.Ext.C60_alive_partial", "Verif.Ext.C60_read_false", "Verif.Ext.C60_dies_false"], "note": "Any number of threads and every interleaving: each call takes effect at one moment, as long as nobody comes to the table while a caller waits for the extension worker (always so without an extension worker). Refuted otherwise with two concrete runs."},
 {"property": "C61", "status": "partial", "theorems": ["Verif.C61_validate", "Verif.C61_returned", "Verif.C61_signature", "Verif.C61_error_ignored", "Verif.C61_info_false"], "note": "Validation is proved exact and every returned value agrees with the spec. Refuted: errors while fetching the signature are ignored, the four info declarations are not checked."},
 {"property": "C62", "status": "partial", "theorems": ["Verif.C62_signal", "Verif.C62_no_loss_partial", "Verif.C62_timeout_loses_signal", "Verif.C62_error_loses_signal"], "note": "Every operation that makes the condition true signals a waiting caller (C62_signal). Over whole schedules the wake-up is kept unless a signalled caller times out or its priority is refused; both exceptions are shown to lose it."},
 {"property": "C63", "status": "proved", "theorems": ["Verif.C63_stats"], "note": "Under the same condition on the event buffer as C53."},
 {"property": "C64", "status": "partial", "theorems": ["Verif.AsyncServer.C64_outstanding_partial", "Verif.AsyncServer.C64_false"], "note": "Proved for streams that have not been cancelled; refuted for a stream cancelled while a table has it waiting."},
 {"property": "C65", "status": "partial", "theorems": ["Verif.AsyncServer.C65_calls_partial", "Verif.AsyncServer.C65_false"], "note": "Proved for streams without cancellation or failed write; refuted by a run in which a write fails between the locking of the callback and the call."},
 {"property": "C66", "status": "partial", "theorems": ["Verif.AsyncSampler.C66_ok_partial", "Verif.AsyncSampler.C66_false"], "note": "Proved for streams that ended OK without cancellation; refuted for a stream whose write failed."},
 {"property": "C67", "status": "partial", "theorems": ["Verif.AsyncSampler.C67_outstanding_partial", "Verif.AsyncSampler.C67_false"], "note": "Proved for streams that have not been cancelled; refuted for a stream cancelled after its last write and before the next read."},
 {"property": "C68", "status": "partial", "theorems": ["Verif.C68_close_partial", "Verif.C68_close_returns", "Verif.C68_close_false", "Verif.C58_local_deadline"], "note": "Proved except GetNextTimestep with a partly read sample, which is refuted. Close waits only for the server or the table, the latter for at most three seconds."},
 {"property": "C69", "status": "proved", "theorems": ["Verif.C69_once", "Verif.C69_in_order", "Verif.C69_timesteps"], "note": "Any number of callers without GetNextTimestep; serial callers; GetNextTimestep alone. Mixing GetNextTimestep with the others abandons a partly read sample (C45_mixed_false)."},
 {"property": "C70", "status": "partial", "theorems": ["Verif.C70_dtypes_partial", "Verif.C70_shapes_false"], "note": "Types are proved, shapes are refuted."},
 {"property": "C71", "status": "proved", "theorems": ["Verif.Writer.C71"], "note": "Counted are the items given to Write on the current stream against the keys read from it, in every state in which a call returns or waits."},
 {"property": "C72", "status": "partial", "theorems": ["Verif.Writer.C72_flush_partial", "Verif.Writer.C72_flush", "Verif.Writer.C72_close"], "note": "Flush with nothing pending waits for all confirmations of the current stream. The full statement is false: Flush with items pending does not wait, and Close ignores missing confirmations and the status of the stream."},
 {"property": "C73", "status": "proved", "theorems": ["Verif.Writer.C73", "Verif.Writer.C73_refused", "Verif.Writer.C42_available"], "note": "For n up to the number of steps appended; C42_offset shows that after Flush a greater n can be accepted."},
 {"property": "C74", "status": "proved", "theorems": ["Verif.Writer.C74", "Verif.Writer.C74_refused"], "note": ""},
 {"property": "C75", "status": "partial", "theorems": ["Verif.Ext.C75_partial", "Verif.Ext.C75_false"], "note": "Proved for one waiting caller; with two the second one is not woken."},
 {"property": "C76", "status": "partial", "theorems": ["Verif.Ext.C76_partial", "Verif.Ext.C76_asleep_false", "Verif.Ext.C76_waiting_false"], "note": "The extension worker ends in at most three steps unless it waits or is about to; two runs in which the destructor never returns."},
 {"property": "C77", "status": "proved", "theorems": ["Verif.Writer.C77"], "note": "All chunks on all streams, also within a call. The steps must have the same number of well-formed tensors."},
 {"property": "C78", "status": "partial", "theorems": ["Verif.Writer.C78_error", "Verif.Writer.C78_once", "Verif.Writer.C78_until_partial", "Verif.Writer.C78_again_append", "Verif.Writer.C78_again_flush", "Verif.Writer.C78_again_create", "Verif.Writer.C78_limit_false", "Verif.Writer.C78_lost"], "note": "No call returns Unavailable; Close without retries uses one stream. Without a limit on the items in flight a call goes on until everything is sent, and any number of failing streams is survived. With a limit this is false: witness C78_limit_false (DataLoss)."},
 {"property": "C79", "status": "partial", "theorems": ["Verif.PyWriter.C79_history_partial", "Verif.PyWriter.PyDemo.C79_bare", "Verif.PyWriter.PyDemo.C79_empty", "Verif.PyWriter.PyDemo.C82_open"], "note": "Proved for all runs in which data is a dictionary or a list with at least one leaf and in which the history is not cleared while a step is open. Refuted without these conditions: a bare tensor makes the writer lose later fields, a first step without leaves is not counted, and clearing in an open step leaves the step open. Named tuples, keys that are not strings and the conversion of data to tensors are not modelled."},
 {"property": "C80", "status": "partial", "theorems": ["Verif.PyWriter.C80_configured_partial", "Verif.TrajWriter.TrajDemo.C37_delta_dropped"], "note": "Proved for chunk length and kept references under the conditions of C79; delta encoding is dropped by the C++ writer (C37)."},
 {"property": "C81", "status": "partial", "theorems": ["Verif.PyWriter.C81_read_back_partial", "Verif.PyWriter.PyDemo.C81_stride"], "note": "Proved for integer accesses and slices with step 1, under the conditions of C79. Slices with another step are refuted: other steps are read back."},
 {"property": "C82", "status": "partial", "theorems": ["Verif.PyWriter.C82_fresh_partial", "Verif.PyWriter.PyDemo.C82_open", "Verif.PyWriter.PyDemo.C82_timeout", "Verif.PyWriter.PyDemo.C82_kept"], "note": "Proved if no step is open and the call returns. Refuted for an open step (append raises ValueError from then on, episode_steps is -1), for a timeout (nothing is reset) and for clear_buffers=False (episode_steps goes on counting)."},
 {"property": "C83", "status": "partial", "theorems": ["Verif.PyWriter.C83_fits_partial", "Verif.PyWriter.PyDemo.C83_misfits"], "note": "Proved for structures that agree wherever two of them have something. Refuted for lists that get an element with fields, for a field that becomes a dictionary and for a dictionary that is replaced by None."},
 {"property": "C84", "status": "partial", "theorems": ["Verif.C84_results", "Verif.C84_samples", "Verif.C84_timesteps", "Verif.C84_end", "Verif.C84_end_late", "Verif.C84_end_stays", "Verif.C84_end_run_partial", "Verif.C84_counted_false"], "note": "Results call by call, order, the cause of the end and that it stays are proved for all runs. That a reported timeout ends the sequence is proved except for datasets that count timesteps; there it is false (C84_counted_false)."},
 {"property": "C85", "status": "partial", "theorems": ["Verif.C85_length_partial", "Verif.C85_elements", "Verif.C85_unset", "Verif.C85_declared", "Verif.C85_batched_false"], "note": "Proved with emit_timesteps. False without it (C85_batched_false); then only the declared shapes are checked (C85_declared)."},
 {"property": "C86", "status": "partial", "theorems": ["Verif.C86_in_progress", "Verif.C86_after_partial", "Verif.C86_whole", "Verif.C86_false"], "note": "Calls in progress return Cancelled. Later calls do unless a sample has been read partly, where it is false (C86_false)."},
 {"property": "C87", "status": "partial", "theorems": ["Verif.C87_dtypes_partial", "Verif.C87_false"], "note": "Number of columns and dtypes, if the signatures came in time; otherwise false (C87_false)."},
 {"property": "C88", "status": "proved", "theorems": ["Verif.C88_graph"], "note": ""},
 {"property": "C89", "status": "partial", "theorems": ["Verif.Service.C89_origin", "Verif.Service.C89_written_partial", "Verif.Service.C89_sampler", "Verif.Service.C89_end_to_end_partial", "Verif.Service.contents_exist", "Verif.EndToEndDemo.demo", "Verif.AsyncService.C89_async_origin", "Verif.AsyncService.C89_async_written_partial", "Verif.AsyncService.C89_async_sampler", "Verif.AsyncService.C89_async_end_to_end_partial", "Verif.AsyncService.Demo.demo"], "note": "Synchronous and asynchronous server (for the latter the priorities must be ones that the selectors admit). The columns are those that were given if neighbours of a column from the same chunk follow each other; otherwise C33_gap and C33_order are counterexamples. Calls of GetNextTimestep are excluded in C89_end_to_end_partial (for them see C69_timesteps); C89_sampler covers them."},
 {"property": "C90", "status": "proved", "theorems": ["Verif.Service.C90_own_life", "Verif.Service.C90_untouched", "Verif.Service.C90_names", "Verif.Service.C90_unary", "Verif.Service.C90_reachable", "Verif.Service.C90_size"], "note": "For the synchronous server; a server that has died on a CHECK is excluded."},
 {"property": "C91", "status": "partial", "theorems": ["Verif.C91_order_partial", "Verif.C91_deletes", "Verif.C91_order_is_false"], "note": "False in full: the code deletes first. Same result as the documented order if priorities are admitted."},
 {"property": "C92", "status": "partial", "theorems": ["Verif.Service.C92_applied", "Verif.Service.C92_idempotent", "Verif.Service.C92_once_partial", "Verif.Service.C92_shapes", "Verif.Service.C92_errors", "Verif.Service.C92_once_is_false"], "note": "'Nothing but what one update does' holds if nobody else is active; false otherwise."},
 {"property": "C93", "status": "partial", "theorems": ["Verif.Writer.C93_op_partial", "Verif.Writer.C93_client_partial", "Verif.Writer.C93_empty", "Verif.Writer.C93_shapes", "Verif.Writer.C93_insert_is_false"], "note": "Proved up to the streams: the items were written. False in full: what the server refuses is only logged."},
 {"property": "C94", "status": "partial", "theorems": ["Verif.Handshake.C94_source_partial", "Verif.Handshake.C94_right_table", "Verif.Handshake.C94_freed", "Verif.Handshake.C94_ends", "Verif.Handshake.C94_safe_is_false", "Verif.Handshake.C94_safe_is_false_sync"], "note": "Right table, freeing and termination proved for all schedules, cut or not. Safety and completeness for streams that are not cut; false otherwise (C94_safe_is_false)."},
 {"property": "C95", "status": "partial", "theorems": ["Verif.Status.C95_code_partial", "Verif.Status.C95_ok", "Verif.Status.C95_code_is_false", "Verif.Status.C95_end", "Verif.Status.C95_end_limiter", "Verif.PyError.C95_flush_partial", "Verif.PyError.C95_endEpisode", "Verif.PyError.C95_serverInfo_partial", "Verif.PyError.C95_wait_is_false"], "note": "Codes except \"Stream removed\"; end of datasets exactly; flush and server_info for positive timeouts, false for 0."},
 {"property": "C96", "status": "partial", "theorems": ["Verif.Periodic.C96_serial", "Verif.Periodic.C96_due", "Verif.Periodic.C96_first", "Verif.Periodic.C96_stopped", "Verif.Periodic.C96_stop_returns", "Verif.Periodic.C96_again_is_false"], "note": "All but starting again, which is false."},
 {"property": "C97", "status": "partial", "theorems": ["Verif.Process.C97_stop", "Verif.Process.C97_wait", "Verif.Process.C97_unblocked", "Verif.Process.C97_sigint_partial", "Verif.Process.C97_two_is_false", "Verif.Process.C97_ignored_is_false"], "note": "SIGINT only for processes with one server; false otherwise."},
 {"property": "C98", "status": "partial", "theorems": ["Verif.ServerCkpt.C98_restart", "Verif.ServerCkpt.C98_tables", "Verif.ServerCkpt.C98_empty", "Verif.ServerCkpt.C98_start", "Verif.ServerCkpt.C98_unknown", "Verif.ServerCkpt.C98_snapshot_is_false"], "note": "Each table by itself: proved. The server as a whole: refuted, the tables are not saved at one moment. Servers that have died on a CHECK are excluded until they are started again; overlapping calls of Checkpoint are in C50."},
 {"property": "C99", "status": "partial", "theorems": ["Verif.SigCache.C99_true", "Verif.SigCache.C99_once", "Verif.SigCache.C99_refresh", "Verif.SigCache.C99_python", "Verif.SigCache.C99_stale_is_false", "Verif.SigCache.C99_race_is_false", "Verif.SigCache.C99_python_is_false"], "note": "Signatures are always those of a server the client has had, and are pulled once; that they are those of the present server is proved right after an answer and refuted otherwise."}
]}
