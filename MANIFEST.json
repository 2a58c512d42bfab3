{
 "claims": [
  {
   "property": "C01",
   "status": "proved",
   "theorems": [
    "Verif.Exact.C01_exactly_once",
    "Verif.Exact.C01_restored_state",
    "Verif.Exact.C01_local_state"
   ],
   "note": "World model: one partition, any number of incarnations, arbitrary other partitions in the pool. Assumed: handlers are synchronous and deterministic, no interjections on the partition, all state changes go through the change log, the client stores every record of a transaction that it commits (C84 shows what happens otherwise), a new incarnation starts after the old transactions are resolved (hand-over between live processes is C07)."
  },
  {
   "property": "C02",
   "status": "proved",
   "theorems": [
    "Verif.Eos.C02_commit_only_finished",
    "Verif.Eos.C02_records_in_their_transaction",
    "Verif.Eos.C02_nothing_after_the_end"
   ],
   "note": "Pool model of eos_producer.go, all interleavings, any pool size; the client is assumed to put every Produce call into the open transaction (for records that fail at the client see C84)."
  },
  {
   "property": "C03",
   "status": "proved",
   "theorems": [
    "Verif.Eos.C03_one_offset_record",
    "Verif.Eos.C03_no_offset_record",
    "Verif.Eos.C03_highest"
   ],
   "note": "Exactly one record o+1 for the newest real event, none for interjections only; highest if arrivals have increasing offsets."
  },
  {
   "property": "C04",
   "status": "proved",
   "theorems": [
    "Verif.Eos.C04_in_order",
    "Verif.Eos.C04_prefix",
    "Verif.Eos.C04_continue_skips"
   ],
   "note": "All interleavings, any pool size, error handler not answering Continue to a failed commit; C04_continue_skips shows what Continue does (documented data loss)."
  },
  {
   "property": "C05",
   "status": "proved",
   "theorems": [
    "Verif.Eos.C05_transaction_order",
    "Verif.Eos.C05_production_order"
   ],
   "note": "All interleavings, any pool size."
  },
  {
   "property": "C06",
   "status": "partial",
   "theorems": [
    "Verif.Eos.C06_violated",
    "Verif.Eos.C06_bounded_partial"
   ],
   "note": "False in general: shouldForceFlush compares with == and the record counter can step over the limit (violation theorem). Proved for runs where the record counter is at most MaxBatchSize when tryFlush looks."
  },
  {
   "property": "C07",
   "status": "partial",
   "theorems": [
    "Verif.Handover.C07_exactly_once_partial",
    "Verif.Handover.C07_resume_partial",
    "Verif.Handover.C07_violated",
    "Verif.Handover.C07_violated_watermark",
    "Verif.Handover.C07_start_partial"
   ],
   "note": "Exactly once across any number of hand-overs if the old consumer has produced its commit records before the new one sends its marker; the start offset is the last committed one before the marker. Violated: nothing waits for that, and nothing fences the old producers."
  },
  {
   "property": "C08",
   "status": "proved",
   "theorems": [
    "Verif.Worker.C08_initial_segment",
    "Verif.Worker.C08_order",
    "Verif.Worker.C08_all_offered",
    "Verif.Worker.C08_drains"
   ],
   "note": "Model of one worker with both goroutines, its channels and capacities. Assumed: the Kafka client delivers increasing offsets; for completeness, the pool keeps assigning producers (see C65), handlers return and asynchronous jobs complete. Completeness is termination of every schedule plus everything offered when no step is left."
  },
  {
   "property": "C09",
   "status": "partial",
   "theorems": [
    "Verif.Worker.C09_bound",
    "Verif.Worker.C09_release_once",
    "Verif.Worker.C09_release_enabled",
    "Verif.Worker.C09_released_partial",
    "Verif.Worker.C09_closed",
    "Verif.Worker.C09_revoked_finishes",
    "Verif.Worker.C09_violated",
    "Verif.Worker.C09_violated_forever"
   ],
   "note": "Bound, at-most-once release, non-blocking release and termination of a revoked worker are proved for all schedules. Exactly-once release is false: a worker can finish with refused events still in its queue (C09_violated, C09_violated_forever). Exactly-once is proved without revocation and, under revocation, for every event that got a producer."
  },
  {
   "property": "C10",
   "status": "partial",
   "theorems": [
    "Verif.CommitLog.C10_watermark_after_sync",
    "Verif.CommitLog.C10_watermark_exact",
    "Verif.CommitLog.C10_released_iff",
    "Verif.CommitLog.C10_two_topics_violated"
   ],
   "note": "Recovery of watermarks proved for a consumer of one topic. With two topics in one group the watermarks collide (C10_two_topics_violated): they are kept by partition only."
  },
  {
   "property": "C11",
   "status": "proved",
   "theorems": [
    "Verif.CommitLog.C11_commit_record_roundtrip",
    "Verif.CommitLog.C11_key_injective",
    "Verif.CommitLog.C11_log_partition_exists"
   ],
   "note": "Round trip, injectivity of keys, log partition exists."
  },
  {
   "property": "C12",
   "status": "partial",
   "theorems": [
    "Verif.Sync.C12_prefix_partial",
    "Verif.Sync.C12_activated_partial",
    "Verif.Sync.C12_prepared_partial",
    "Verif.Sync.C12_first_partial",
    "Verif.Sync.C12_completes_partial",
    "Verif.Sync.C12_violated_order",
    "Verif.Sync.C12_violated_stale",
    "Verif.Sync.C12_violated_twice",
    "Verif.Sync.C12_violated_blocked",
    "Verif.Sync.C12_violated_panic",
    "Verif.Sync.C12_panic_only_when_closed",
    "Verif.Sync.C12_buffer_open",
    "Verif.Sync.C12_kill_alone_partial",
    "Verif.Sync.C12_violated_double_close",
    "Verif.Sync.C12_violated_cleared",
    "Verif.Sync.C12_own_channel_partial",
    "Verif.Sync.C12_violated_nil_channel",
    "Verif.Sync.C12_violated_shared_channel",
    "Verif.Sync.C12_violated_lost"
   ],
   "note": "Exact, in order, frozen after activation and terminating for every synchronisation that starts with the partition at rest and whose markers are in order. A panic comes only from a closed channel, and kill never closes twice if executed alone. Violated in general: marker order, stale fetch, nil buffer, closed buffer, forgotten preparation, and kill interleaved with itself or with prep (double close; new channel cleared)."
  },
  {
   "property": "C13",
   "status": "partial",
   "theorems": [
    "Verif.Stores.C13_violated",
    "Verif.Stores.C13_replay_always_empty",
    "Verif.Stores.C13_replay_partial",
    "Verif.Stores.C13_repaired_partial"
   ],
   "note": "Violated: ReceiveChange tests the error the wrong way round, a replayed store is always empty. Proved: replay of deletes; full replay and compaction proved for the repaired test."
  },
  {
   "property": "C14",
   "status": "partial",
   "theorems": [
    "Verif.Lifecycle.C14_created_once",
    "Verif.Lifecycle.C14_own_store",
    "Verif.Lifecycle.C14_revoked_once",
    "Verif.Lifecycle.C14_revoked_called",
    "Verif.Lifecycle.C14_events",
    "Verif.Lifecycle.C14_changes_partial",
    "Verif.Lifecycle.C14_violated_split",
    "Verif.Lifecycle.C14_violated_refill",
    "Verif.Lifecycle.C14_violated_forgotten"
   ],
   "note": "For every sequence of operations: created once per service period, own store per partition, Revoked at most once and always at revocation, events go to the serving store. Change-log entries go to it for legal orders only; violated for a preparation pending at revocation, on an assigned partition, or forgotten."
  },
  {
   "property": "C15",
   "status": "proved",
   "theorems": [
    "Verif.Record.C15_marker_recognised",
    "Verif.Record.C15_marker_arrives",
    "Verif.Record.C15_marker_exact",
    "Verif.Sync.C15_never_applied",
    "Verif.Sync.C15_others_applied"
   ],
   "note": "Recognition for all header lists, and in every run of the store consumer no marker is applied and every other record taken is."
  },
  {
   "property": "C16",
   "status": "proved",
   "theorems": [
    "Verif.Scheduler.C16_one_job_per_key",
    "Verif.Scheduler.C16_history"
   ],
   "note": "Every interleaving, any number of callers and workers."
  },
  {
   "property": "C17",
   "status": "proved",
   "theorems": [
    "Verif.Scheduler.C17_fifo",
    "Verif.Scheduler.C17_no_loss"
   ],
   "note": "Per key FIFO over every interleaving; no job lost or duplicated."
  },
  {
   "property": "C18",
   "status": "proved",
   "theorems": [
    "Verif.Scheduler.C18_bounded",
    "Verif.Scheduler.C18_pool_empty",
    "Verif.Scheduler.C18_limit_in_force"
   ],
   "note": "Bound on the keys held, and on the pool; the limit in force is the last one set."
  },
  {
   "property": "C19",
   "status": "partial",
   "theorems": [
    "Verif.Scheduler.C19_no_lost_wakeup_partial",
    "Verif.Scheduler.C19_violated",
    "Verif.Scheduler.C19_completable_partial",
    "Verif.Scheduler.C19_bounded_partial",
    "Verif.Scheduler.C19_all_completed_partial",
    "Verif.Scheduler.C19_every_schedule_partial",
    "Verif.Scheduler.C19_full_only_partial",
    "Verif.Scheduler.C19_never_full_partial",
    "Verif.Scheduler.C19_violated_spins"
   ],
   "note": "Violated: a job that was put into a full queue after the worker drained it stays there, its queue has lost its head (peek does not backfill, C19_violated), and the worker goroutine goes round for ever without doing anything (C19_violated_spins). Proved: while no queue has lost its head and the key limit was only raised, every schedule of the goroutines inside ends after a bounded number of steps (C19_bounded_partial) with every accepted job completed (C19_all_completed_partial, C19_every_schedule_partial); heads are lost only after a Schedule call found its queue full (C19_full_only_partial, C19_never_full_partial). No fairness is assumed beyond: as long as some goroutine can go on, one does."
  },
  {
   "property": "C20",
   "status": "partial",
   "theorems": [
    "Verif.Scheduler.C20_violated",
    "Verif.Scheduler.C20_kept_partial",
    "Verif.Scheduler.C20_no_deadlock_partial"
   ],
   "note": "Violated: lowering and raising the limit leaves workers in a closed channel. Proved for limits that only grow."
  },
  {
   "property": "C21",
   "status": "proved",
   "theorems": [
    "Verif.Batcher.C21_batch_size",
    "Verif.Batcher.C21_concurrency"
   ],
   "note": "Every interleaving, maxBatchSize ≥ 1 (with 0 the limit is not effective: example)."
  },
  {
   "property": "C22",
   "status": "proved",
   "theorems": [
    "Verif.Batcher.C22_keys_disjoint",
    "Verif.Batcher.C22_call_in_progress"
   ],
   "note": "Every interleaving."
  },
  {
   "property": "C23",
   "status": "proved",
   "theorems": [
    "Verif.Batcher.C23_order",
    "Verif.Batcher.C23_once",
    "Verif.Batcher.C23_completed_executed"
   ],
   "note": "Order per key over all calls, no duplicates; with C25 nothing is lost."
  },
  {
   "property": "C24",
   "status": "proved",
   "theorems": [
    "Verif.Batcher.C24_callback"
   ],
   "note": "Every distribution over batches; empty batches included."
  },
  {
   "property": "C25",
   "status": "proved",
   "theorems": [
    "Verif.Batcher.C25_not_stranded",
    "Verif.Batcher.C25_terminates",
    "Verif.Batcher.C25_quiet"
   ],
   "note": "Whereabouts of every unfinished item; internal steps terminate; a quiet state has completed everything."
  },
  {
   "property": "C26",
   "status": "partial",
   "theorems": [
    "Verif.Batcher.C26_violated",
    "Verif.Batcher.C26_order_partial"
   ],
   "note": "Violated: an empty BatchItems followed by a non-empty one of the same key in one executor is called back second. All other mixtures proved."
  },
  {
   "property": "C27",
   "status": "partial",
   "theorems": [
    "Verif.Producer.C27_once_after_all_partial",
    "Verif.Producer.C27_completes_partial",
    "Verif.Producer.C27_topics",
    "Verif.Producer.C27_empty_violated",
    "Verif.Producer.C27_nil_callback_violated"
   ],
   "note": "Violated: an empty list, or a nil callback, never completes the event. Proved for non-empty lists with a callback."
  },
  {
   "property": "C28",
   "status": "proved",
   "theorems": [
    "Verif.Props.Rebalance.C28_each_partition_one_member",
    "Verif.Props.Rebalance.C28_nothing_invented"
   ],
   "note": "For every report list with distinct ids (including stale and contradictory claims), every map order and random number. Member topic interests are ignored by the code and by the model."
  },
  {
   "property": "C29",
   "status": "partial",
   "theorems": [
    "Verif.Props.Rebalance.C29_moved_only_when_ready",
    "Verif.Props.Rebalance.C29_prepare_sound_partial",
    "Verif.Props.Rebalance.C29_prepare_active_partial",
    "Verif.Props.Rebalance.C29_violated_defunct_prepares"
   ],
   "note": "Moves: full. Prepare: the recipient is never inactive, but a defunct member counts as active in the code (violation theorem); with only active and inactive members the full claim is proved."
  },
  {
   "property": "C30",
   "status": "proved",
   "theorems": [
    "Verif.Props.Rebalance.C30_at_most_one_prepare",
    "Verif.Props.Rebalance.C30_none_while_moving"
   ],
   "note": "Per topic, as in the code; the budget is not shared between topics."
  },
  {
   "property": "C31",
   "status": "partial",
   "theorems": [
    "Verif.Props.Leave.C31_violated_stale",
    "Verif.Props.Rebalance.C31_converges_partial",
    "Verif.Props.Rebalance.C31_cycle_moves_one",
    "Verif.Props.Rebalance.C31_unowned_assigned_first"
   ],
   "note": "Rounds, preparation and take-up composed as cycles of three rounds; start: complete assignment to active members (and one round earlier for groups with unowned partitions). Violated after a crash of the owner during a preparation: a ready entry for an own partition stops all moves (C31_violated_stale)."
  },
  {
   "property": "C32",
   "status": "partial",
   "theorems": [
    "Verif.Props.Rebalance.C32_leaving_gets_nothing_new",
    "Verif.Props.Rebalance.C32_leaving_prepares_nothing",
    "Verif.Props.Rebalance.C32_leaving_is_relieved",
    "Verif.Props.Rebalance.C32_violated_defunct_gets_partition"
   ],
   "note": "Inactive members: proved (nothing new, no preparation, relieved first). Members reporting defunct are treated as active: violation theorem."
  },
  {
   "property": "C33",
   "status": "proved",
   "theorems": [
    "Verif.Props.Rebalance.C33_closed_once_when_left_and_empty",
    "Verif.Props.Rebalance.C33_leave_again_harmless",
    "Verif.Props.Rebalance.C33_stays_left"
   ],
   "note": "All sequences of leave, sync, prepared, failed and assigned calls."
  },
  {
   "property": "C34",
   "status": "proved",
   "theorems": [
    "Verif.Props.Rebalance.C34_never_two_owners",
    "Verif.Props.Rebalance.C34_plan_waits_for_owner",
    "Verif.Props.Rebalance.C34_given_up_is_assigned"
   ],
   "note": "Protocol model with joins, crashes, arbitrary metadata changes, rounds and take-up in any order; the Kafka coordinator is assumed to start a round only when the last plan was taken up."
  },
  {
   "property": "C35",
   "status": "partial",
   "theorems": [
    "Verif.Props.Rebalance.C35_prepare_exactly_named",
    "Verif.Props.Rebalance.C35_forget_named_partial",
    "Verif.Props.Rebalance.C35_violated_forget_misses",
    "Verif.Rebalance.C35_reported_sets",
    "Verif.Rebalance.C35_change_forces_rebalance"
   ],
   "note": "Prepare half full. Forget half: goroutines share the loop variable (go 1.19), so with two or more partitions one can be missed: violation theorem; proved for a single partition and for goroutines that run at once."
  },
  {
   "property": "C36",
   "status": "proved",
   "theorems": [
    "Verif.Heap.C36_extremes"
   ],
   "note": "Every history of Push, Min, PopMin, PopMax from any contents, any strict weak order, followed by Max."
  },
  {
   "property": "C37",
   "status": "partial",
   "theorems": [
    "Verif.Heap.C37_violated",
    "Verif.Heap.C37_answers_partial",
    "Verif.Heap.C37_observation_partial"
   ],
   "note": "Violated: Push after Max. Proved for histories in which a pop separates Max and Push, both as correctness of answers and as equality with the execution without Max."
  },
  {
   "property": "C38",
   "status": "partial",
   "theorems": [
    "Verif.Heap.C38_violated_push_remove",
    "Verif.Heap.C38_violated_update",
    "Verif.Heap.C38_violated_remove",
    "Verif.Heap.C38_contents_partial",
    "Verif.Heap.C38_update_order_partial",
    "Verif.Heap.C38_update_min_partial",
    "Verif.Heap.C38_remove_order_partial",
    "Verif.Heap.C38_remove_min_partial"
   ],
   "note": "Violated three ways (position of a pushed item; Update; Remove). Proved: exact contents for heaps not used with Push; order when the moved item fits its ancestors or dominates its descendants, in particular for the Min item."
  },
  {
   "property": "C39",
   "status": "proved",
   "theorems": [
    "Verif.Stores.C39_shard_exists",
    "Verif.Stores.C39_exponent_sharp",
    "Verif.Stores.C39_like_one_tree"
   ],
   "note": "Shard exists for every supported exponent (bound shown sharp); refinement to one tree for every operation sequence."
  },
  {
   "property": "C40",
   "status": "proved",
   "theorems": [
    "Verif.Stores.C40_get",
    "Verif.Stores.C40_entries",
    "Verif.Stores.C40_one_per_key",
    "Verif.Stores.C40_all_calls",
    "Verif.Stores.C40_receive_error"
   ],
   "note": "Get, change-log entries, one item per key, after every operation sequence."
  },
  {
   "property": "C41",
   "status": "proved",
   "theorems": [
    "Verif.LinkedList.C41_refines",
    "Verif.LinkedList.C41_neighbours",
    "Verif.LinkedList.C41_foreign_no_effect",
    "Verif.LinkedList.C41_init_stale_element"
   ],
   "note": "Pointer-level refinement to sequences for every program over any number of lists; Init on a list in use excluded (witness given)."
  },
  {
   "property": "C42",
   "status": "proved",
   "theorems": [
    "Verif.Sak.C42_capacity",
    "Verif.Sak.C42_borrow"
   ],
   "note": "Sequential histories of well-behaved users."
  },
  {
   "property": "C43",
   "status": "proved",
   "theorems": [
    "Verif.Sak.C43_stopped_iff",
    "Verif.Sak.C43_permanent",
    "Verif.Sak.C43_fork_isolated"
   ],
   "note": "Every tree of forks and every history."
  },
  {
   "property": "C44",
   "status": "partial",
   "theorems": [
    "Verif.Sak.C44_violated",
    "Verif.Sak.C44_abs_partial",
    "Verif.Sak.C44_min_max",
    "Verif.Sak.C44_minN_maxN"
   ],
   "note": "Violated: Abs of the minimum integer. Proved for all other integers; Min/Max/MinN/MaxN proved."
  },
  {
   "property": "C45",
   "status": "proved",
   "theorems": [
    "Verif.Codec.C45_intCodec_roundtrip",
    "Verif.Codec.C45_intCodec_injective",
    "Verif.Codec.C45_intCodec_defined_iff",
    "Verif.Codec.C45_bytesCodec_roundtrip"
   ],
   "note": "All integers of each width; all byte strings."
  },
  {
   "property": "C46",
   "status": "proved",
   "theorems": [
    "Verif.Codec.C46_lexo_roundtrip",
    "Verif.Codec.C46_lexo_error_iff",
    "Verif.Codec.C46_lexo_size"
   ],
   "note": "Round trip, exact error condition, size."
  },
  {
   "property": "C47",
   "status": "partial",
   "theorems": [
    "Verif.Codec.C47_violated",
    "Verif.Codec.C47_violated_inverted",
    "Verif.Codec.C47_lexo_order_partial"
   ],
   "note": "Violated for mixed signs (witnesses); order proved within one sign."
  },
  {
   "property": "C48",
   "status": "proved",
   "theorems": [
    "Verif.Record.C48_type_survives",
    "Verif.Record.C48_headers_exact",
    "Verif.Record.C48_fields_arrive",
    "Verif.Record.C48_idempotent",
    "Verif.Record.C48_setRecordType"
   ],
   "note": "All builder call sequences."
  },
  {
   "property": "C49",
   "status": "proved",
   "theorems": [
    "Verif.Record.C49_newRecord_pristine"
   ],
   "note": "A recycled record equals a fresh one."
  },
  {
   "property": "C50",
   "status": "partial",
   "theorems": [
    "Verif.Record.C50_violated",
    "Verif.Record.C50_violated_components",
    "Verif.Record.C50_toKafkaRecord_partial"
   ],
   "note": "Violated: the public ToKafkaRecord drops topic, partition, headers and record type (one witness each); key and value proved to be kept."
  },
  {
   "property": "C51",
   "status": "proved",
   "theorems": [
    "Verif.Record.C51_manual_partition",
    "Verif.Record.C51_auto_partition"
   ],
   "note": ""
  },
  {
   "property": "C52",
   "status": "partial",
   "theorems": [
    "Verif.Route.C52_registered",
    "Verif.Route.C52_exactly_one_partial",
    "Verif.Route.C52_forwarded_type",
    "Verif.Route.C52_violated_unknown",
    "Verif.Route.C52_violated_nil"
   ],
   "note": "Registered types go to exactly the first registered codec and processor. Violated: without a default handler an unknown type panics."
  },
  {
   "property": "C53",
   "status": "partial",
   "theorems": [
    "Verif.Config.C53_violated_ignored",
    "Verif.Config.C53_violated_nil",
    "Verif.Config.C53_violated",
    "Verif.Config.C53_handlers_partial"
   ],
   "note": "Violated: the deserialization handler is selected by testing the transaction handler. Proved when both or none are configured."
  },
  {
   "property": "C54",
   "status": "proved",
   "theorems": [
    "Verif.TPSet.C54_contains",
    "Verif.TPSet.C54_items",
    "Verif.TPSet.C54_results",
    "Verif.TPSet.C54_domain_sharp"
   ],
   "note": "Refinement to finite sets for valid partitions; sharpness of the domain shown."
  },
  {
   "property": "C55",
   "status": "partial",
   "theorems": [
    "Verif.Config.C55_replication",
    "Verif.Config.C55_commitLogPartitions",
    "Verif.Config.C55_minInSync_lt",
    "Verif.Config.C55_violated",
    "Verif.Config.C55_minInSync_partial",
    "Verif.Config.C55_names",
    "Verif.Config.C55_commitLog_injective",
    "Verif.Config.C55_changeLog_name_collision"
   ],
   "note": "Violated: min-insync 0 with several replicas and MinInSync unset. Everything else proved."
  },
  {
   "property": "C56",
   "status": "proved",
   "theorems": [
    "Verif.Config.C56_validate_iff",
    "Verif.Config.C56_effective"
   ],
   "note": "Validation accepts exactly the valid configurations; effective configuration always valid."
  },
  {
   "property": "C57",
   "status": "partial",
   "theorems": [
    "Verif.Config.C57_violated",
    "Verif.Config.C57_other_error_panics",
    "Verif.Config.C57_createSource_partial",
    "Verif.Config.C57_commitLog_count_consistent",
    "Verif.Config.C57_createDestination_always_retries"
   ],
   "note": "Violated: non-network errors, including the mismatch, panic. Proved: what success, network errors and incomplete configurations give, for every sequence of broker answers."
  },
  {
   "property": "C58",
   "status": "partial",
   "theorems": [
    "Verif.Worker.C58_at_most_once",
    "Verif.Worker.C58_answered_partial",
    "Verif.Worker.C58_violated",
    "Verif.Worker.C58_violated_stopped"
   ],
   "note": "False under revocation: an interjection that waits in the channel when the partition is revoked is dropped without signalling (two violation theorems, for all continuations). Proved: exactly once without revocation, at most once always."
  },
  {
   "property": "C59",
   "status": "partial",
   "theorems": [
    "Verif.Periodic.C59_delay",
    "Verif.Periodic.C59_delay_reached",
    "Verif.Periodic.C59_single",
    "Verif.Periodic.C59_keeps_firing_partial",
    "Verif.Periodic.C59_violated_async",
    "Verif.Periodic.C59_stops",
    "Verif.Periodic.C59_no_leak"
   ],
   "note": "One activation at a time; keeps firing while calls return Complete; stops after revocation; delay within jitter. Violated: after an asynchronously completed call it is never called again."
  },
  {
   "property": "C60",
   "status": "partial",
   "theorems": [
    "Verif.Config.C60_balancers",
    "Verif.Config.C60_violated",
    "Verif.Config.C60_assign_partial"
   ],
   "note": "Violated: without the incremental strategy the first assignment panics. Exact condition proved."
  },
  {
   "property": "C61",
   "status": "partial",
   "theorems": [
    "Verif.Msk.C61_split",
    "Verif.Msk.C61_config",
    "Verif.Msk.C61_cached",
    "Verif.Msk.C61_violated_credentials",
    "Verif.Msk.C61_violated_prefix"
   ],
   "note": "Broker list per authentication type, caching and errors proved. Violated: credentials of the provider are dropped (inverted test); the first cluster with the name as a prefix is used."
  },
  {
   "property": "C62",
   "status": "proved",
   "theorems": [
    "Verif.Config.C62_emits_iff",
    "Verif.Config.C62_kgo_level",
    "Verif.Config.C62_init_once"
   ],
   "note": ""
  },
  {
   "property": "C63",
   "status": "partial",
   "theorems": [
    "Verif.Metrics.C63_fifo",
    "Verif.Metrics.C63_emit_partial",
    "Verif.Metrics.C63_send_waits_for_handler_partial",
    "Verif.Metrics.C63_violated_block",
    "Verif.Metrics.C63_violated_panic",
    "Verif.Metrics.C63_panic_only_after_stop"
   ],
   "note": "Order kept, and EmitMetric waits only for the handler. Violated: a full channel blocks; a send after Stop panics."
  },
  {
   "property": "C64",
   "status": "partial",
   "theorems": [
    "Verif.Shutdown.C64_terminates",
    "Verif.Shutdown.C64_first_waiter_partial",
    "Verif.Shutdown.C64_count",
    "Verif.Shutdown.C64_violated",
    "Verif.Shutdown.C64_not_by_itself"
   ],
   "note": "The stop sequence terminates; exactly one waiter is released per run. Violated: a second waiter stays blocked."
  },
  {
   "property": "C65",
   "status": "partial",
   "theorems": [
    "Verif.Live.C65_no_deadlock_partial",
    "Verif.Live.C65_terminates_partial",
    "Verif.Live.C65_completes_partial",
    "Verif.Live.C65_violated_interjection",
    "Verif.Worker.C65_completions_while_waiting"
   ],
   "note": "Without interjections: any state where nothing happens by itself has every arrived event completed and its transaction ended (C65_no_deadlock_partial), and every schedule of internal steps is bounded (C65_terminates_partial, C65_completes_partial). With interjections the claim is false: C65_violated_interjection is a run after which, whatever happens short of a Kafka failure, the event is never completed."
  },
  {
   "property": "C66",
   "status": "partial",
   "theorems": [
    "Verif.Worker.C66_violated",
    "Verif.Worker.C66_no_panic_partial"
   ],
   "note": "False: the check in add and the send are not atomic (C66_violated). Proved for executions without a revocation between the two."
  },
  {
   "property": "C67",
   "status": "partial",
   "theorems": [
    "Verif.Lifecycle.C67_assigned_partial",
    "Verif.Lifecycle.C67_violated_worker",
    "Verif.Lifecycle.C67_violated_populate"
   ],
   "note": "Holds for assigned partitions; violated by workers and populate goroutines that are still running when Revoked is called."
  },
  {
   "property": "C68",
   "status": "partial",
   "theorems": [
    "Verif.Shutdown.C68_unhealthy",
    "Verif.Shutdown.C68_failure_stops",
    "Verif.Shutdown.C68_no_commit_after",
    "Verif.Shutdown.C68_loop_ends",
    "Verif.Shutdown.C68_violated_other"
   ],
   "note": "Unhealthy iff an error was answered with something other than Continue; then it stops, the loop ends as asked and commits nothing more. Violated for answers other than the three constants given twice."
  },
  {
   "property": "C69",
   "status": "partial",
   "theorems": [
    "Verif.Props.Interject.C69_targets",
    "Verif.Props.Interject.C69_returned",
    "Verif.Props.Interject.C69_at_most_once",
    "Verif.Props.Interject.C69_sequential",
    "Verif.Props.Interject.C69_returns_partial",
    "Verif.Props.Interject.C69_violated_revoked",
    "Verif.Props.Interject.C69_violated_stopped"
   ],
   "note": "Targets are exactly the owned partitions; each runs or refuses exactly once before the call returns, nothing afterwards; the sequential version is sequential; all calls return if no worker is halted. Violated: a call never returns if its partition is revoked meanwhile; after StopNow the second interjection blocks for ever with workerMux held."
  },
  {
   "property": "C70",
   "status": "partial",
   "theorems": [
    "Verif.Props.Observe.C70_assigned",
    "Verif.Props.Observe.C70_activated",
    "Verif.Props.Observe.C70_revoked",
    "Verif.Props.Observe.C70_paired",
    "Verif.Props.Observe.C70_stopped_partial",
    "Verif.Props.Observe.C70_violated_activated_before_assigned",
    "Verif.Props.Observe.C70_violated_activated_after_revoked",
    "Verif.Props.Observe.C70_violated_handler_after_revoked"
   ],
   "note": "Positional statements for all reachable traces; activation may come before OnPartitionAssigned and after OnPartitionRevoked, handlers may run after OnPartitionRevoked (violated witnesses). Async jobs, interjections and prepping left out."
  },
  {
   "property": "C71",
   "status": "partial",
   "theorems": [
    "Verif.Props.Observe.C71_paused_partial",
    "Verif.Props.Observe.C71_first_worker_partial",
    "Verif.Props.Observe.C71_resumes",
    "Verif.Props.Observe.C71_violated_before_pause",
    "Verif.Props.Observe.C71_violated_stale_resume"
   ],
   "note": "After the pause a fetch needs the resume of a synchronised worker of the partition; violated before the pause and by the resume of a stale worker."
  },
  {
   "property": "C72",
   "status": "partial",
   "theorems": [
    "Verif.Props.Global.C72_replica",
    "Verif.Props.Global.C72_complete",
    "Verif.Props.Global.C72_resume_partial",
    "Verif.Props.Global.C72_resume_complete_partial",
    "Verif.Props.Global.C72_paused_partial",
    "Verif.Props.Global.C72_stop",
    "Verif.Props.Global.C72_stop_ends",
    "Verif.Props.Global.C72_violated_paused",
    "Verif.Props.Global.C72_violated_stale"
   ],
   "note": "Prefix, completeness, resume and stop proved; Pause and ResumePartitionAt do not reach records that were already fetched (violated witnesses)."
  },
  {
   "property": "C73",
   "status": "proved",
   "theorems": [
    "Verif.Marks.C73_marked",
    "Verif.Marks.C73_off",
    "Verif.Marks.C73_sequence",
    "Verif.Marks.C73_agrees",
    "Verif.Marks.C73_resume"
   ],
   "note": "Marks made by clearState, over the full model of the producer pool; the client keeps the highest marked offset (external, leader epochs left out). An error handler that answers Continue to a failed commit is excluded, as in C02."
  },
  {
   "property": "C74",
   "status": "partial",
   "theorems": [
    "Verif.Topics.C74_existing_kept",
    "Verif.Topics.C74_created",
    "Verif.Topics.C74_accurate_partial",
    "Verif.Topics.C74_violated_drift",
    "Verif.Topics.C74_violated_refused",
    "Verif.Topics.C74_violated_hidden",
    "Verif.Topics.C74_violated_default_partitions",
    "Verif.Topics.C74_requests",
    "Verif.Topics.C74_delete_partial",
    "Verif.Topics.C74_delete_others",
    "Verif.Topics.C74_violated_delete",
    "Verif.Topics.C74_violated_destination",
    "Verif.Topics.C74_destination_last_partial"
   ],
   "note": "Creation as configured, existing topics kept and accuracy for instances with the same configuration are proved. Violated: different configurations, refusals, hidden topics, the default number of partitions, DeleteSource, CreateDestination."
  },
  {
   "property": "C75",
   "status": "proved",
   "theorems": [
    "Verif.Recycle.C75_intact",
    "Verif.Recycle.C75_calls",
    "Verif.Recycle.C75_once",
    "Verif.Recycle.C75_all_released",
    "Verif.Recycle.C75_new",
    "Verif.Recycle.C75_mine",
    "Verif.Recycle.C75_free",
    "Verif.Recycle.C75_no_leak"
   ],
   "note": "For applications that keep to the rule of not touching a record after handing it over. The client calls each callback once and Flush waits for the callbacks (external). Contents are one number per object; an error handler that answers Continue to a failed commit is excluded, as in C02."
  },
  {
   "property": "C76",
   "status": "proved",
   "theorems": [
    "Verif.Effects.C76_atomic",
    "Verif.Effects.C76_log",
    "Verif.Effects.C76_once",
    "Verif.Effects.C76_none",
    "Verif.Effects.C76_resume",
    "Verif.Effects.C76_final"
   ],
   "note": "Transition system over any number of incarnations on top of the pool of C02-C06; handlers may complete events asynchronously in any order, produce anything, interjections at any time. The error handler does not answer Continue to a failed commit (see C04_continue_skips for what happens otherwise); the client stores every record of a transaction that it commits (see C84); partitions stay assigned until the process dies (hand-over: C07); the contents of stores are in C01, C12, C13."
  },
  {
   "property": "C77",
   "status": "partial",
   "theorems": [
    "Verif.Clients.C77_unique",
    "Verif.Clients.C77_precedence",
    "Verif.Clients.C77_defaults",
    "Verif.Clients.C77_error",
    "Verif.Clients.C77_reserved",
    "Verif.Clients.C77_isolation_partial",
    "Verif.Clients.C77_violated_isolation",
    "Verif.Clients.C77_violated_partitioner"
   ],
   "note": "Precedence of options, the settings the library relies on, defaults and the missing configuration are proved for all clusters and options. The code violates the claim for the isolation level (not reserved) and for the partitioner of Forward (options never reach the transactional producers): C77_violated_isolation, C77_violated_partitioner; C77_isolation_partial states what remains."
  },
  {
   "property": "C78",
   "status": "partial",
   "theorems": [
    "Verif.Context.C78_change",
    "Verif.Context.C78_partition",
    "Verif.Context.C78_stateless",
    "Verif.Context.C78_forward",
    "Verif.Context.C78_identity",
    "Verif.Context.C78_roundtrip",
    "Verif.Context.C78_restored",
    "Verif.Context.C78_bad_entry",
    "Verif.Context.C78_tombstone_partial",
    "Verif.Context.C78_violated_tombstone",
    "Verif.Context.C78_violated_mocks",
    "Verif.Context.C78_mock_interjection_partial",
    "Verif.Context.C78_mock_partial"
   ],
   "note": "Changes, outputs, identity of contexts, round trip and restoration are proved for all entries, codecs and partitioners. The code violates the claim for items with an empty encoding (tombstones) and for the mock contexts: C78_violated_tombstone, C78_violated_mocks; C78_tombstone_partial and C78_mock_partial state what remains."
  },
  {
   "property": "C79",
   "status": "partial",
   "theorems": [
    "Verif.Props.Leave.C79_ends_partial",
    "Verif.Props.Leave.C79_leave_partial",
    "Verif.Props.Leave.C79_one_at_a_time",
    "Verif.Props.Leave.C79_balanced_partial",
    "Verif.Props.Leave.C79_all_leave",
    "Verif.Props.Leave.C79_stale_stuck",
    "Verif.Props.Leave.C79_violated_stale"
   ],
   "note": "Holds from any complete assignment in which those who stay have nothing in motion (C79_ends_partial, C79_one_at_a_time, C79_balanced_partial), and in one round if all members leave (C79_all_leave); violated if a partition is assigned to a member that is still preparing it: the late PartitionPrepared leaves a ready entry that blocks the group for ever (C79_violated_stale, general form C79_stale_stuck)."
  },
  {
   "property": "C80",
   "status": "partial",
   "theorems": [
    "Verif.Effects.C80_same_changes",
    "Verif.Effects.C80_in_order_iff",
    "Verif.Effects.C80_settled_partial",
    "Verif.Effects.C80_serial_partial",
    "Verif.Effects.C80_restored_partial",
    "Verif.Effects.C80_violated_interjection",
    "Verif.Effects.C80_violated_async"
   ],
   "note": "Proved for applications that handle the events of a partition one after the other in the order of arrival (and, weaker, that finish the events of earlier transactions first): the log is a prefix of the changes in the order in which they were made, a restored store is an earlier state of the store, for every store. For all applications: the log has the committed changes, each once, and is in order iff no change of a later transaction was made before one of an earlier one. Violated in general: an interjection of a later transaction can be handled before source records of an earlier one, and finalizers of asynchronous jobs can run late; then the restored store differs from the store."
  },
  {
   "property": "C81",
   "status": "partial",
   "theorems": [
    "Verif.Locks.C81_no_deadlock_partial",
    "Verif.Locks.C81_ends_partial",
    "Verif.Locks.C81_violated_callback",
    "Verif.Locks.C81_violated_for_ever"
   ],
   "note": "Proved for callbacks that do not interject: no deadlock, and everything ends in exactly as many steps as are left. Violated for callbacks that call Interject: they run under workerMux, which Interject takes; such a job never ends, in any run. The calls of the Kafka client are taken to come one at a time; the blocking send under workerMux is C69."
  },
  {
   "property": "C82",
   "status": "partial",
   "theorems": [
    "Verif.Depart.C82_once",
    "Verif.Depart.C82_surrendered",
    "Verif.Depart.C82_ends",
    "Verif.Depart.C82_decision_partial",
    "Verif.Depart.C82_never_wait_for_another",
    "Verif.Depart.C82_violated_abrupt",
    "Verif.Depart.C82_other_rounds",
    "Verif.Depart.C82_violated_changed"
   ],
   "note": "Proved: closed at most once and before the signal, graceful means that a later incremental round took everything, ends by itself after that, never waits when another protocol is in use, decision right if the coordinator answers with a known protocol. Violated: abrupt leave if the request fails or a rebalance is being prepared; endless wait if the protocol changes after the decision."
  },
  {
   "property": "C83",
   "status": "partial",
   "theorems": [
    "Verif.Meter.C83_figures_partial",
    "Verif.Meter.C83_times_partial",
    "Verif.Meter.C83_arrivals_partial",
    "Verif.Meter.C83_one_each_partial",
    "Verif.Meter.C83_none_partial",
    "Verif.Meter.C83_size",
    "Verif.Meter.C83_counters_partial",
    "Verif.Meter.C83_prepared_partial",
    "Verif.Meter.C83_violated_prepared",
    "Verif.Meter.C83_durations_partial",
    "Verif.Meter.C83_no_execution_partial"
   ],
   "note": "Transactions: everything holds (C83_figures_partial, C83_times_partial, C83_arrivals_partial, C83_one_each_partial, C83_none_partial), on top of the model of the pool. Preparations: the counters are exact and the count covers all changes before the marker (C83_counters_partial, C83_prepared_partial), but the bytes of the metric are read later than its count (C83_violated_prepared). Durations: C83_durations_partial for times within 292 years of one another (Go limits differences to an int64; an example shows that this is needed), C83_no_execution_partial without a limit. Records that the client fails to produce are not modelled."
  },
  {
   "property": "C84",
   "status": "partial",
   "theorems": [
    "Verif.Loss.C84_complete_partial",
    "Verif.Loss.C84_missing_partial",
    "Verif.Loss.C84_errors_partial",
    "Verif.Loss.C84_answer_partial",
    "Verif.Loss.C84_violated_committed",
    "Verif.Loss.C84_violated_waiting"
   ],
   "note": "Violated: a transaction with a failed record is committed (C84_violated_committed, C84_violated_waiting). Proved: transactions without failed records are seen completely and in order, exactly the failed records are missing from the others, no error is lost below 1024, and no transaction ends after an answer other than Continue. External: the client ends every record once, Flush waits for that, EndTransaction commits what was stored."
  },
  {
   "property": "C85",
   "status": "partial",
   "theorems": [
    "Verif.Encode.C85_encoded_partial",
    "Verif.Encode.C85_roundtrip_partial",
    "Verif.Encode.C85_told_partial",
    "Verif.Encode.C85_store_panics_partial",
    "Verif.Encode.C85_violated_record",
    "Verif.Encode.C85_violated_entry",
    "Verif.Encode.C85_violated_empty"
   ],
   "note": "Violated: the two JSON functions ignore encoding errors, and an empty value buffer is a tombstone; shown for every item that cannot be encoded, up to the rebuilt store. Proved: successful non-empty encodings round trip, CreateChangeLogEntry tells every error, SimpleStore panics."
  },
  {
   "property": "C86",
   "status": "partial",
   "theorems": [
    "Verif.Helpers.C86_integers",
    "Verif.Helpers.C86_floats_partial",
    "Verif.Helpers.C86_strings",
    "Verif.Helpers.C86_min_max_partial",
    "Verif.Helpers.C86_abs",
    "Verif.Helpers.C86_violated_nan",
    "Verif.Helpers.C86_violated_min"
   ],
   "note": "Violated by NaN (C86_violated_nan, C86_violated_min). Proved for all strings, all integers of every width and all floating-point numbers without NaN, on bit patterns of any IEEE 754 format; Abs for all of them."
  },
  {
   "property": "C87",
   "status": "proved",
   "theorems": [
    "Verif.Helpers.C87_pointers",
    "Verif.Helpers.C87_structs",
    "Verif.Helpers.C87_maps",
    "Verif.Helpers.C87_rest"
   ],
   "note": "Fresh distinct pointers, independence of writes, inverse, map helpers for every iteration order."
  },
  {
   "property": "C88",
   "status": "partial",
   "theorems": [
    "Verif.Backlog.C88_post_never_blocks_partial",
    "Verif.Backlog.C88_all_completed_partial",
    "Verif.Backlog.C88_every_schedule_ends_partial",
    "Verif.Backlog.C88_few_slots",
    "Verif.Backlog.C88_violated",
    "Verif.Backlog.C88_exact_sizes",
    "Verif.Backlog.C88_exact_numbers",
    "Verif.Backlog.C88_violated_default"
   ],
   "note": "Proved while MaxBatchSize*PoolSize is at most the capacity of asyncJobs plus one, that is at most 401; false for every larger configuration, including the default (C88_violated, C88_violated_default; C88_exact_sizes and C88_exact_numbers give the exact bound): a worker blocked in Schedule and a goroutine blocked in AsyncJobComplete wait for each other until the scheduler is closed. Lost heads (C19) and lowered limits (C20) are excluded by hypotheses."
  },
  {
   "property": "C89",
   "status": "partial",
   "theorems": [
    "Verif.Promise.C89_post_never_blocks_partial",
    "Verif.Promise.C89_every_schedule_ends",
    "Verif.Promise.C89_all_completed_partial",
    "Verif.Promise.C89_completed_once",
    "Verif.Promise.C89_violated",
    "Verif.Promise.C89_violated_default",
    "Verif.Promise.C89_comes_to_rest",
    "Verif.Promise.C89_exact_sizes",
    "Verif.Promise.C89_exact_numbers"
   ],
   "note": "Every schedule ends and nothing is completed twice, for all sizes; everything is completed at rest iff MaxBatchSize*PoolSize is at most the capacity of asyncJobs plus one (C89_exact_sizes). False for larger sizes including the default (C89_violated, C89_violated_default)."
  },
  {
   "property": "C90",
   "status": "proved",
   "theorems": [
    "Verif.Gather.C90_add_never_blocks",
    "Verif.Gather.C90_full_channel_moves",
    "Verif.Gather.C90_every_schedule_ends",
    "Verif.Gather.C90_all_completed",
    "Verif.Gather.C90_completed_once"
   ],
   "note": "Handlers never wait, every schedule ends, at rest everything is completed exactly once, for all sizes with at least one item per batch and one executor."
  },
  {
   "property": "C91",
   "status": "partial",
   "theorems": [
    "Verif.Simple.C91_topic",
    "Verif.Simple.C91_returns_own_outcome",
    "Verif.Simple.C91_callback_once",
    "Verif.Simple.C91_every_schedule_ends",
    "Verif.Simple.C91_at_rest",
    "Verif.Simple.C91_all_served_partial",
    "Verif.Simple.C91_violated_nested",
    "Verif.Simple.C91_violated_full"
   ],
   "note": "Topics, outcomes, callbacks and termination proved for all schedules; everything is served if no callback calls the producer. Violated for callbacks that call Produce, or ProduceAsync with a full client: the client stops for ever (C91_violated_nested, C91_violated_full; C91_at_rest: these are the only cases)."
  },
  {
   "property": "C92",
   "status": "partial",
   "theorems": [
    "Verif.Races.C92_no_race_partial",
    "Verif.Races.C92_all_released",
    "Verif.Races.C92_locks_exclude",
    "Verif.Races.C92_violated_buffer",
    "Verif.Races.C92_violated_buffer_writes",
    "Verif.Races.C92_violated_counts",
    "Verif.Races.C92_violated_highestOffset",
    "Verif.Races.C92_violated_produceCnt",
    "Verif.Races.C92_violated_channel"
   ],
   "note": "Race freedom is proved for all executions with any number of goroutines for every modelled field except five: buffer and the counters of a change-log partition, highestOffset, produceCnt, workerChannel; for each of these a reachable race is proved (C92_violated_...). Fields handed over through channels are not modelled."
  },
  {
   "property": "C93",
   "status": "proved",
   "theorems": [
    "Verif.Fleet.C93_not_skipped",
    "Verif.Fleet.C93_covered",
    "Verif.Fleet.C93_atomic",
    "Verif.Fleet.C93_kept"
   ],
   "note": "Any number of consumers with their own pools, partitions moving in any way: nothing below an offset record is uncommitted, nothing uncommitted is out of reach of the consumer that has the partition, commits stay. No conditions."
  },
  {
   "property": "C94",
   "status": "partial",
   "theorems": [
    "Verif.Fleet.C94_once_partial",
    "Verif.Fleet.C94_none_partial",
    "Verif.Fleet.C94_resume_partial",
    "Verif.Fleet.C94_final_partial",
    "Verif.Fleet.C94_violated",
    "Verif.Fleet.C94_violated_back"
   ],
   "note": "Proved for all runs in which a worker starts only when no living consumer has a worker or uncommitted records of the partition, at the newest offset record. Violated without it (C94_violated, C94_violated_back): revocation does not wait for open transactions."
  },
  {
   "property": "C95",
   "status": "partial",
   "theorems": [
    "Verif.Scheduler.C95_rest_partial",
    "Verif.Scheduler.C95_single_partial",
    "Verif.Scheduler.C95_no_start",
    "Verif.Scheduler.C95_worker_ends_partial",
    "Verif.Scheduler.C95_two_waiting",
    "Verif.Scheduler.C95_violated"
   ],
   "note": "No start after closing is proved without conditions; the rest for limits that are never lowered: all goroutines get out except callers in waitForWorker, and with one calling goroutine all get out. Violated for two waiting callers, in every configuration (C95_two_waiting, C95_violated)."
  },
  {
   "property": "C96",
   "status": "proved",
   "theorems": [
    "Verif.Whole.C96_refines",
    "Verif.Whole.C96_handled",
    "Verif.Whole.C96_completes",
    "Verif.Whole.C96_forwards",
    "Verif.Whole.C96_done",
    "Verif.Whole.C96_waiter"
   ],
   "note": "Composite of the models of workers, pool and group; refinement to each of them and the invariant that ties them together. Simplifications: those of the parts; the assignment of a partition that already has a worker is left out (see C12); the calls of Done at the end of a transaction happen together with its end."
  },
  {
   "property": "C97",
   "status": "partial",
   "theorems": [
    "Verif.Whole.C97_completed_partial",
    "Verif.Whole.C97_committed_partial",
    "Verif.Whole.C97_orderly_partial",
    "Verif.Whole.C97_once_partial",
    "Verif.Whole.C97_violated"
   ],
   "note": "Violated when a partition returns to the same consumer while the transaction with events of its former worker is open (C97_violated). Proved: every event of an ended worker is completed and passed; transactions that it has alone have ended; with orderly hand-overs everything of it is committed, and every source record is committed exactly once."
  },
  {
   "property": "C98",
   "status": "proved",
   "theorems": [
    "Verif.Whole.C98_ends",
    "Verif.Whole.C98_rest",
    "Verif.Whole.C98_completes",
    "Verif.Whole.C98_reaches"
   ],
   "note": "C98_ends bounds the own steps of a consumer from every reachable state; C98_rest shows that a state without own steps has everything completed, committed, and revoked workers ended; C98_completes and C98_reaches combine them. Interjections are excluded in the statement (C65_violated_interjection)."
  },
  {
   "property": "C99",
   "status": "partial",
   "theorems": [
    "Verif.Props.Delay.C99_no_panic",
    "Verif.Props.Delay.C99_timer_set",
    "Verif.Props.Delay.C99_attempts",
    "Verif.Props.Delay.C99_age_partial",
    "Verif.Props.Delay.C99_attempt_succeeds",
    "Verif.Props.Delay.C99_idle",
    "Verif.Props.Delay.C99_same_pool",
    "Verif.Props.Delay.C99_age_full_queue",
    "Verif.Props.Delay.C99_commit_loop",
    "Verif.Props.Delay.C99_violated_full_queue"
   ],
   "note": "The timer is modelled together with the pool (area Delay), the deadlines of transactions and the commit loop in area Deadline. C99_timer_set and C99_no_panic hold in all executions; C99_attempts bounds the time between attempts, C99_age_partial the age of a transaction if the queue has room (missing to the claim: executions in which the queue is full); for these C99_violated_full_queue shows 28 seconds with a BatchDelay of 10 ms, and C99_age_full_queue proves 2 BatchDelay + 29 s. C99_idle bounds the wake-ups of an idle pool, C99_same_pool relates the clocked pool to the one of C02-C06."
  },
  {
   "property": "C100",
   "status": "partial",
   "theorems": [
    "Verif.Props.Flush.C100_batch_in_time",
    "Verif.Props.Flush.C100_pending_in_time",
    "Verif.Props.Flush.C100_item_in_time",
    "Verif.Props.Flush.C100_not_early_partial",
    "Verif.Props.Flush.C100_not_early_clean",
    "Verif.Props.Flush.C100_same_batcher",
    "Verif.Props.Flush.C100_delay",
    "Verif.Props.Flush.C100_violated_early"
   ],
   "note": "Proved for all timed interleavings: an open batch is executed within delay + 2L of its first item, a pending item with p before it gets in within (p+1)E, an item added with p pending is completed within delay + 2L + (p+2)E (all three bounds are attained in the examples), the clock adds no behaviour, and the value of the delay. The other direction (not before the delay has elapsed) is violated: a timer function that was stopped too late executes the following batch at its first item (C100_violated_early); C100_not_early_partial shows that this is the only way."
  },
  {
   "property": "C101",
   "status": "partial",
   "theorems": [
    "Verif.Cadence.C101_not_early",
    "Verif.Cadence.C101_rate",
    "Verif.Cadence.C101_not_late",
    "Verif.Cadence.C101_comes",
    "Verif.Cadence.C101_violated_interval"
   ],
   "note": "Calls do not overlap, are spaced by at least the interval less the jitter (counted from the end of a call), the rate is bounded, and with bounded latencies the next call comes in time, for all draws and interleavings. Violated as documented: the interval counts from the end of a call, so consecutive calls can begin further apart than the interval plus the jitter even without any latency (C101_violated_interval)."
  },
  {
   "property": "C102",
   "status": "proved",
   "theorems": [
    "Verif.Whole.C102_rest",
    "Verif.Whole.C102_once",
    "Verif.Whole.C102_completes"
   ],
   "note": "At rest, with the partition fetched to its end, every source record was handled and committed (all histories); exactly once with orderly hand-overs; and every schedule comes to rest. The conditions (no interjections in the consumer, commits do not fail, handlers complete) are those of C98; orderly hand-over is that of C97."
  },
  {
   "property": "C103",
   "status": "partial",
   "theorems": [
    "Verif.Props.Queue.C103_taken",
    "Verif.Props.Queue.C103_over",
    "Verif.Props.Queue.C103_violated_limit"
   ],
   "note": "A transaction in the commit queue is taken in turn, within (place + 1) transaction timeouts, and over within (place + 2), for all executions in which the loops are not late by more than L, whatever the application does. Violated: its own limit of 29 seconds runs while it waits for earlier ones, which may have got their limit later; a transaction whose events were complete at once is taken after its limit."
  },
  {
   "property": "C104",
   "status": "proved",
   "theorems": [
    "Verif.Props.Latency.C104_decided",
    "Verif.Props.Latency.C104_default",
    "Verif.Props.Latency.C104_same"
   ],
   "note": "For every accepted configuration and every execution in which nobody in the pool is late by more than L, an event is in a transaction that has ended with success, or the commit loop has given up, within 2 BatchDelay + (PendingTxnCount + 3) * 29 s and some L after it came. Executions in which the error handler answers Continue to a failed commit are left out (documented to lose data)."
  },
  {
   "property": "C105",
   "status": "proved",
   "theorems": [
    "Verif.Nodes.C105_only_race",
    "Verif.Nodes.C105_one_place",
    "Verif.Nodes.C105_quiet"
   ],
   "note": "Assumes that no event produces a record after it was completed and that Flush of the Kafka client returns without error only after all callbacks have returned. The race of produceCnt between forwarder and events is the one of C92."
  },
  {
   "property": "C106",
   "status": "proved",
   "theorems": [
    "Verif.Chain.C106_same_runs",
    "Verif.Chain.C106_chains",
    "Verif.Chain.C106_empty",
    "Verif.Chain.C106_bounded_memory",
    "Verif.Chain.C106_ring"
   ],
   "note": "Step-for-step equivalence of the pool with pointers and the pool with lists, for every sequence of labels; chains, memory and ring as separate theorems. Event contexts are new objects when they are given to the pool (each is made for one event and sent once); an example shows that this is needed."
  },
  {
   "property": "C107",
   "status": "partial",
   "theorems": [
    "Verif.Boot.C107_no_crash_partial",
    "Verif.Boot.C107_sites",
    "Verif.Boot.C107_complete",
    "Verif.Boot.C107_violated_stores",
    "Verif.Boot.C107_violated_consumer",
    "Verif.Boot.C107_interjections",
    "Verif.Boot.C107_all_interjections_partial",
    "Verif.Boot.C107_violated_interjection",
    "Verif.Boot.C107_violated_leak",
    "Verif.Boot.C107_source_failed"
   ],
   "note": "Violated: an assignment before NewEventSource has returned panics (C107_violated_stores, C107_violated_consumer); a partition assigned before ScheduleInterjection never has the interjection (C107_violated_interjection); a failed NewClient leaves the pool and the state store consumer running (C107_violated_leak). Proved: no panic when no partition is assigned before the return; exactly which dereferences can fail; what is set after the return; workers made after ConsumeEvents have all interjections. That the client joins when it is made is a fact about franz-go."
  },
  {
   "property": "C108",
   "status": "partial",
   "theorems": [
    "Verif.Resume.C108_in_order_partial",
    "Verif.Resume.C108_all_partial",
    "Verif.Resume.C108_end_partial",
    "Verif.Resume.C108_start",
    "Verif.Resume.C108_resume_partial",
    "Verif.Resume.C108_never_again",
    "Verif.Resume.C108_violated_end",
    "Verif.Resume.C108_violated_reread",
    "Verif.Resume.C108_violated_mixed"
   ],
   "note": "Violated: with the option to start at the end, a partition assigned before the commit log was read loses the records since the watermark (C108_violated_end); the whole partition may be fetched again (C108_violated_reread, for every length); a partition that was with a traditional consumer in between has its records handled twice (C108_violated_mixed). Proved for all other executions: no gap and no repetition, completeness of a worker that was given everything, positions never beyond the watermark, exact positions once the commit log was read. One owner at a time, as C93 and C94 treat the others."
  },
  {
   "property": "C109",
   "status": "partial",
   "theorems": [
    "Verif.Replica.C109_sequential_partial",
    "Verif.Replica.C109_store_partial",
    "Verif.Replica.C109_restored_partial",
    "Verif.Replica.C109_record_partial",
    "Verif.Replica.C109_same_partial",
    "Verif.Replica.C109_complete_partial",
    "Verif.Replica.C109_violated"
   ],
   "note": "Proved for every execution with hand-overs in order: visible records, stores at every handler call, restored stores and the records of each source record are those of the sequential run; groups that have come equally far show the same. Missing: the condition on hand-overs (C109_violated shows a run without it), asynchronous handlers and interjections (C80 shows why not)."
  },
  {
   "property": "C110",
   "status": "partial",
   "theorems": [
    "Verif.Replica.C110_recovers_partial",
    "Verif.Replica.C110_grows_partial",
    "Verif.Replica.C110_violated"
   ],
   "note": "Proved from every state reached with hand-overs in order: the visible records are a prefix of the sequential result, only grow, and a new consumer can complete them. This is possibility, not fairness: nothing is said about when. Missing: the condition on hand-overs (C110_violated: a state from which no continuation gives the result), handlers that fail or never return (C57, C74), asynchronous handlers and interjections."
  },
  {
   "property": "C111",
   "status": "partial",
   "theorems": [
    "Verif.Props.Shared.C111_race_free_partial",
    "Verif.Props.Shared.C111_prompt_race_free",
    "Verif.Props.Shared.C111_only_the_text",
    "Verif.Props.Shared.C111_orderly",
    "Verif.Props.Shared.C111_violated"
   ],
   "note": "Proved for all executions: accesses that conflict are ordered by channels, except for reads of the producer by the commit loop; without time-outs of transactions there is no exception. Violated otherwise: C111_violated, and C111_only_the_text shows that it is the only kind. Left out: values of fields, the records and stores that contexts point to (C92, C105), synchronisation by locks (not needed)."
  },
  {
   "property": "C112",
   "status": "partial",
   "theorems": [
    "Verif.Props.Keyed.C112_visible_partial",
    "Verif.Props.Keyed.C112_store_partial",
    "Verif.Props.Keyed.C112_store_completed_partial",
    "Verif.Props.Keyed.C112_same_with_and_without_partial",
    "Verif.Props.Keyed.C112_can_be_completed_partial",
    "Verif.Props.Keyed.C112_violated_stop",
    "Verif.Props.Keyed.C112_needs_uniform"
   ],
   "note": "Proved for all executions in which no handler schedules on a scheduler that has ended: visible records and store of every key are those of sequential processing, all records of a key being scheduled or none (C112_needs_uniform shows that this is needed; the documentation demands it). Violated otherwise: C112_violated_stop. Left out: revocation, interjections, and the limits that only delay (C88)."
  },
  {
   "property": "C113",
   "status": "partial",
   "theorems": [
    "Verif.Props.Stages.C113_in_sequence_partial",
    "Verif.Props.Stages.C113_all_places_partial",
    "Verif.Props.Stages.C113_visible_partial",
    "Verif.Props.Stages.C113_store_partial",
    "Verif.Props.Stages.C113_can_be_completed_partial",
    "Verif.Props.Stages.C113_violated_stop",
    "Verif.Props.Stages.C113_needs_one_place"
   ],
   "note": "Proved for all executions in which no handler or finalizer schedules on a scheduler that has ended: order of every key at every stage, all stages passed before a commit, and (store used at one place of the chain, as the documentation demands; C113_needs_one_place shows that this is needed) equality with sequential processing. Violated otherwise: C113_violated_stop. Left out: revocation, interjections, and the limits that only delay (C88)."
  },
  {
   "property": "C114",
   "status": "partial",
   "theorems": [
    "Verif.Props.Batches.C114_visible_partial",
    "Verif.Props.Batches.C114_store_partial",
    "Verif.Props.Batches.C114_store_completed_partial",
    "Verif.Props.Batches.C114_items_in_order",
    "Verif.Props.Batches.C114_executed",
    "Verif.Props.Batches.C114_can_be_completed_partial",
    "Verif.Props.Batches.C114_violated_empty"
   ],
   "note": "Proved for all executions: order and completeness of the execution of items (C114_items_in_order, C114_executed), without restriction. Equality with sequential processing, the state of the store, and that the result can be completed are proved when no record with items follows one without items of the same key; violated otherwise: C114_violated_empty. Left out: AddWithKey with other keys than that of the batch, revocation, interjections, and the limits that only delay."
  },
  {
   "property": "C115",
   "status": "partial",
   "theorems": [
    "Verif.Props.Confine.C115_made_first",
    "Verif.Props.Confine.C115_in_order_partial",
    "Verif.Props.Confine.C115_races_are_revoked",
    "Verif.Props.Confine.C115_race_free",
    "Verif.Props.Confine.C115_filled_first",
    "Verif.Props.Confine.C115_alone",
    "Verif.Props.Confine.C115_orderly",
    "Verif.Props.Confine.C115_violated_worker",
    "Verif.Props.Confine.C115_violated_populate",
    "Verif.Props.Confine.C115_violated_forgotten",
    "Verif.Props.Confine.C115_violated_early",
    "Verif.Props.Confine.C115_violated_refilled",
    "Verif.Props.Confine.C115_needs_no_worker"
   ],
   "note": "Proved for all executions: the making of a store happens before everything else (C115_made_first), and the traces obey the order of sending and receiving (C115_orderly). Proved for all calm executions: all accesses but Revoked are ordered, every race is one with Revoked, stores are filled before they are used, and no two goroutines are about to use one store. Violated by Revoked and in executions that are not calm: C115_violated_worker, C115_violated_populate, C115_violated_forgotten, C115_violated_early, C115_violated_refilled; C115_needs_no_worker shows that the remaining condition of calm is needed. Left out: asynchronous jobs that keep an event context after their completion, and interjections (they run in the worker)."
  },
  {
   "property": "C116",
   "status": "partial",
   "theorems": [
    "Verif.Props.Retry.C116_none_lost",
    "Verif.Props.Retry.C116_written_once",
    "Verif.Props.Retry.C116_order_partial",
    "Verif.Props.Retry.C116_order_without_failures",
    "Verif.Props.Retry.C116_recovers_partial",
    "Verif.Props.Retry.C116_once",
    "Verif.Props.Retry.C116_violated_once",
    "Verif.Props.Retry.C116_violated_order"
   ],
   "note": "Proved for all executions: each write is at exactly one place (C116_none_lost), none is made twice (C116_written_once), only a write that failed before can come after a newer one of its key (C116_order_partial, C116_order_without_failures), and before the first retry everything can still be written (C116_recovers_partial). Violated: after the first retry the interjector is never called again (C116_once, C116_violated_once); a retried write can follow a newer one (C116_violated_order). Left out: crashes, and the recording of changes, which the examples show only in part."
  },
  {
   "property": "C117",
   "status": "partial",
   "theorems": [
    "Verif.Props.Migrate.C117_single_partial",
    "Verif.Props.Migrate.C117_careful_partial",
    "Verif.Props.Migrate.C117_store",
    "Verif.Props.Migrate.C117_both",
    "Verif.Props.Migrate.C117_violated_crash",
    "Verif.Props.Migrate.C117_violated_deleted"
   ],
   "note": "Proved for all executions of applications that do not delete: Example 3 with crashes at any moment (C117_single_partial), Example 4 unless the process ends between the first write of a key to the database and its commit (C117_careful_partial, C117_store); store and database without crashes (C117_both). Violated: C117_violated_crash, C117_violated_deleted. Left out: errors of the reads and writes, which the examples ignore; schedulers that are stopped (C112, C113)."
  },
  {
   "property": "C118",
   "status": "proved",
   "theorems": [
    "Verif.Props.Items.C118_race_free",
    "Verif.Props.Items.C118_in_order",
    "Verif.Props.Items.C118_orderly",
    "Verif.Props.Items.C118_condition_needed"
   ],
   "note": "For all executions: no data race (C118_race_free); executor lists, result fields and locked fields are with one goroutine at a time (C118_in_order); the order used is that of the messages really sent (C118_orderly). The condition that batches are not added to after they were given is needed: C118_condition_needed. What is under the lock is one step; limits and keys are left out, so that more moves are allowed than in the code."
  },
  {
   "property": "C119",
   "status": "proved",
   "theorems": [
    "Verif.Props.Serial.C119_in_order",
    "Verif.Props.Serial.C119_race_free",
    "Verif.Props.Serial.C119_orderly",
    "Verif.Props.Serial.C119_alone",
    "Verif.Props.Serial.C119_condition_needed"
   ],
   "note": "For all executions: accesses to the memory of a key, to a job, to a queue and to the fields of the scheduler are ordered (C119_in_order), so there is no data race (C119_race_free); at most one job of a key is being processed (C119_alone); the order used is that of the messages really sent (C119_orderly). That finalizers are not part of the single writer: C119_condition_needed. What is under mux, or under headLock alone, is one step; limits are left out, so that more is allowed than in the code."
  },
  {
   "property": "C120",
   "status": "proved",
   "theorems": [
    "Verif.Props.Loan.C120_in_order",
    "Verif.Props.Loan.C120_race_free",
    "Verif.Props.Loan.C120_orderly",
    "Verif.Props.Loan.C120_condition_needed"
   ],
   "note": "For all executions: accesses to an object and to the free list are ordered (C120_in_order), so there is no data race (C120_race_free); the order used is that of the messages really sent (C120_orderly). The rule that applications do not use records they handed over is needed: C120_condition_needed. Assumed: the client orders the hand-over of a record before its callback and does not touch the record afterwards; each buffered record is handed to it once (C75); the records of a batch are different objects."
  }
 ]
}
