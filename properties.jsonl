{"id": "C01", "title": "Exactly-once effect across crashes", "statement": "For one source partition, the effects visible to read-committed readers (output records, state-store change-log and committed offset) are at every moment exactly the effects of handling a prefix of the source partition, each event once and in offset order, no matter where the process crashes or a transaction aborts and how often it restarts.", "quantifier": "every source log, every deterministic handler (state, event -> state, records), every batching into transactions, every interleaving of handling/producing/committing with crashes and restarts", "why_tests_cant": "A test can kill the process at a handful of moments; the claim is about every crash point in every history of any length.", "anchors": ["streams/partition_worker.go: partitionWorker.work, scheduleTxnAndExecution, forwardToEventSource", "streams/eos_producer.go: producerNode.commit, finalizeEventContexts", "streams/commit_log.go: eosCommitLog.ReceiveChange, lastProcessed", "streams/source_consumer.go: adjustOffsetsBeforeAssign"]}
{"id": "C02", "title": "A transaction commits only finished events", "statement": "When a transaction is committed, every event that was added to it has completed (its handler reported Complete, or its async job was finalized), and its output records have been handed to the Kafka client inside that transaction.", "quantifier": "every interleaving of adding events to transactions, event completion, record production, and the commit loop, for any pool size and any number of partitions", "why_tests_cant": "The window between starting a commit and the last event finishing depends on goroutine scheduling that a test cannot enumerate.", "anchors": ["streams/eos_producer.go: producerNode.finalizeEventContexts, commit, addEventContext", "streams/event_context.go: EventContext.complete"]}
{"id": "C03", "title": "Committed offset is the highest finished offset plus one", "statement": "For each source partition with a real (non-interjection) event in a committed transaction the commit log receives exactly one offset record, its value is one more than the offset of the partition's newest event in that transaction, and a partition with only interjections receives none.", "quantifier": "every sequence of events and interjections added to a transaction over any set of partitions", "why_tests_cant": "Off-by-one and which-event errors depend on how events and interjections interleave in a batch; sampling cannot cover all interleavings.", "anchors": ["streams/eos_producer.go: finalizeEventContexts", "streams/commit_log.go: eosCommitLog.commitRecord", "streams/event_context.go: EventContext.Offset, IsInterjection"]}
{"id": "C04", "title": "Transactions commit in order; no event is in two transactions", "statement": "Events of one source partition enter transactions in arrival order, every accepted event is in exactly one transaction, and transactions are committed in the order in which they were filled.", "quantifier": "every schedule of the forwarding loop and the commit loop, every pool size >= 1", "why_tests_cant": "Ordering between pooled producers is a property of all schedules.", "anchors": ["streams/eos_producer.go: eosProducerPool.doForwardExecutionContexts, tryFlush, shouldForceFlush, commitLoop"]}
{"id": "C05", "title": "Output order per source partition is kept across pooled transactions", "statement": "The records produced on behalf of one source partition reach the Kafka client in transaction order (and within one transaction in the order in which they were produced), even while several transactions are being filled at once.", "quantifier": "every schedule of adding events, producing records from any open transaction, and committing; every pool size and partition set", "why_tests_cant": "The hand-over of partition ownership between producers races with handlers; the bug would show up only in particular interleavings.", "anchors": ["streams/eos_producer.go: producerNode.ProduceRecord, relinquishOwnership, flushPartition, flushRemaining, partitionOwners"]}
{"id": "C06", "title": "MaxBatchSize bounds a transaction", "statement": "A transaction never holds more events than EosConfig.MaxBatchSize: once the number of events or produced records reaches MaxBatchSize the transaction stops accepting events.", "quantifier": "every sequence of event arrivals and record productions, every valid configuration", "why_tests_cant": "Whether a counter can step over a limit depends on the history of two independently growing counters.", "anchors": ["streams/eos_producer.go: producerNode.shouldForceFlush, eosProducerPool.tryFlush", "streams/eos_config.go: EosConfig.MaxBatchSize"]}
{"id": "C07", "title": "Partition hand-over between consumers does not reprocess committed events", "statement": "When a partition moves from one consumer to another, the new consumer resumes after every event whose effects the old consumer commits: no event's effects are committed twice.", "quantifier": "every interleaving of revocation, pending transactions of the old consumer, commit-log synchronisation and processing of the new consumer", "why_tests_cant": "A two-process race; a test observes only the interleavings that happen to occur.", "anchors": ["streams/source_consumer.go: revokePartitions, assignPartitions", "streams/partition_worker.go: revoke, work", "streams/commit_log.go: lastProcessed", "streams/eos_producer.go: newProducerNode"]}
{"id": "C08", "title": "Each event handled once, in offset order, none below the watermark", "statement": "Within one assignment of a partition, the handler sees events in strictly increasing offset order, never an offset below the committed watermark, never the same offset twice, and every fetched record at or above the watermark is eventually offered when it is not revoked first.", "quantifier": "every fetch history (any batching, any restart offset at or below the watermark) and every schedule of the scheduling and handling goroutines", "why_tests_cant": "The filter compares with a mark that another goroutine advances; the set of fetch batchings and schedules is unbounded.", "anchors": ["streams/partition_worker.go: scheduleTxnAndExecution, handleEvent, forwardToEventSource"]}
{"id": "C09", "title": "In-flight events per partition are bounded and slots are balanced", "statement": "The number of events of a partition that were accepted but not completed never exceeds MaxBatchSize*PoolSize, every accepted event releases its slot exactly once, and a revoked worker finishes once all its slots are released.", "quantifier": "every schedule of accepting, handling, async completion, and revocation", "why_tests_cant": "Slot leaks are caused by rare paths (revoked events, async completion racing with revocation).", "anchors": ["streams/partition_worker.go: maxPending, pushRecords, forwardToEventSource, handleEvent, processAsyncJob, handleInterjection"]}
{"id": "C10", "title": "Watermark recovery from the commit log", "statement": "After the commit log has been read up to a marker, the offset reported for a source partition is the value of the last offset record committed for it before the marker, or -1 when there is none, however the log partitions are interleaved while reading.", "quantifier": "every commit-log content, every interleaving of its partitions, any number of source partitions and commit-log partitions", "why_tests_cant": "Unbounded histories and all read interleavings.", "anchors": ["streams/commit_log.go: ReceiveChange, Watermark, lastProcessed, commitRecordPartition", "streams/state_store_consumer.go: stateStoreConsumer.sync, populate"]}
{"id": "C11", "title": "Commit-log encoding round trips", "statement": "Writing an offset record for any topic/partition/offset and reading it back yields the same partition and offset, and all offset records of one source partition go to the same, existing, commit-log partition.", "quantifier": "all topic names, all non-negative int32 partitions, all int64 offsets, all commit-log partition counts >= 1", "why_tests_cant": "2^96 inputs; boundary values of fixed-width encodings.", "anchors": ["streams/commit_log.go: commitRecord, topicPartitionFromBytes, writeTopicPartitionToBytes, commitRecordPartition", "streams/codec.go: writeSignedIntToByteArray, readIntegerFromByteArray"]}
{"id": "C12", "title": "State-store synchronisation is complete and exact", "statement": "When synchronisation of a partition's state store finishes, the store has received every change-log record that precedes the synchronisation marker, each exactly once and in log order, and after activation no further change-log record is applied to it by the consumer.", "quantifier": "every change-log content, every position of own and foreign markers, every schedule of fetching and applying", "why_tests_cant": "Marker position relative to buffered fetches varies with scheduling.", "anchors": ["streams/state_store_consumer.go: stateStorePartition.prep, sync, populate, handleRecordsAndContinue, isCompletionMarker, activatePartition, preparePartition"]}
{"id": "C13", "title": "Replay of a change log rebuilds the store", "statement": "Feeding the change-log entries produced by a sequence of Put/Delete calls on a SimpleStore to a fresh SimpleStore through ReceiveChange yields a store with the same contents; a compacted change log gives the same result.", "quantifier": "every operation sequence, every compaction of the log, every key/value type with a round-tripping codec", "why_tests_cant": "All histories and all compactions.", "anchors": ["streams/stores/simple_store.go: Put, Delete, ToChangeLogEntry, ReceiveChange"]}
{"id": "C14", "title": "One store per assigned partition", "statement": "Between the assignment and the revocation of a partition exactly one store instance serves it: it is created at most once, events and change-log entries of that partition go to it only, and Revoked is called exactly once on it.", "quantifier": "every sequence of prepare, assign, forget and revoke operations on any partitions", "why_tests_cant": "Lifecycle sequences are unbounded.", "anchors": ["streams/partitioned_store.go: assign, revoke, receiveChangeInternal", "streams/source_consumer.go: PrepareTopicPartition, ForgetPreparedTopicPartition, assignPartitions, revokePartitions"]}
{"id": "C15", "title": "Marker records never reach a store", "statement": "Internal synchronisation markers are recognised exactly (one header with the reserved key) and are never applied to a state store, and every other record is.", "quantifier": "all records with any header list", "why_tests_cant": "All header lists.", "anchors": ["streams/topics.go: isMarkerRecord", "streams/state_store_consumer.go: sendMarkerMessage, handleRecordsAndContinue"]}
{"id": "C16", "title": "AsyncJobScheduler: one job per key at a time", "statement": "At no moment are two jobs with the same key being processed, no matter how many workers run.", "quantifier": "every sequence of Schedule calls on any keys and every interleaving of worker goroutines", "why_tests_cant": "Mutual exclusion is a property of all interleavings.", "anchors": ["streams/async_scheduler.go: scheduleItem, enqueueWorker, releaseWorker, work, asyncJobWorker.process"]}
{"id": "C17", "title": "AsyncJobScheduler: per-key FIFO and no loss or duplication", "statement": "Jobs of one key scheduled by one goroutine are processed in schedule order, each at most once, and each job's completion is submitted before the next job of that key starts.", "quantifier": "every sequence of Schedule calls, every interleaving of schedulers and workers, every queue depth >= 2", "why_tests_cant": "Order must hold in all interleavings, including queue-full back-pressure.", "anchors": ["streams/async_item_queue.go: tryEnqueue, dequeue, backfill, peek", "streams/async_scheduler.go: Schedule, scheduleItem, process, advance"]}
{"id": "C18", "title": "AsyncJobScheduler: bounded number of concurrent keys", "statement": "The number of keys that own a worker queue never exceeds MaxConcurrentKeys, and a queue that returns to the pool is empty.", "quantifier": "every interleaving of Schedule calls and worker releases", "why_tests_cant": "Concurrency bound over all schedules.", "anchors": ["streams/async_scheduler.go: grabWorker, releaseWorker, warmup, SchedulerConfig"]}
{"id": "C19", "title": "AsyncJobScheduler: every scheduled job is eventually processed", "statement": "While the scheduler is running a job that has been scheduled can always still be processed: there is no reachable state from which no worker step can reach it.", "quantifier": "every reachable state of queue, blocked schedulers and workers", "why_tests_cant": "A lost wake-up needs one particular interleaving (queue full, then drained before the blocked sender resumes).", "anchors": ["streams/async_item_queue.go: peek, dequeue, enqueueChannel", "streams/async_scheduler.go: blockingAddItem, process"]}
{"id": "C20", "title": "SetMaxConcurrentKeys loses no work", "statement": "Changing the key limit at runtime keeps every queued worker: after any sequence of limit changes each key with pending jobs is still known to the processing goroutines.", "quantifier": "every sequence of SetMaxConcurrentKeys calls and any number of queued keys", "why_tests_cant": "Needs particular shrink/grow sequences under load.", "anchors": ["streams/async_scheduler.go: SetMaxConcurrentKeys, ensureWorkerChannelCapacity"]}
{"id": "C21", "title": "AsyncBatcher: batch size and concurrency limits", "statement": "The batch executor is never called with more than maxBatchSize items nor with an empty batch, and at most maxConcurrentBatches calls run at the same time.", "quantifier": "every sequence of Add calls, timer firings and batch completions", "why_tests_cant": "All interleavings of Add, timers and completions.", "anchors": ["streams/async_batcher.go: addToExecutor, conditionallyExecuteBatch, executeBatch"]}
{"id": "C22", "title": "AsyncBatcher: a key is never in two running batches", "statement": "Two batches executing at the same time never contain items with the same key.", "quantifier": "every interleaving of Add, flush timers and completions", "why_tests_cant": "Property of all schedules.", "anchors": ["streams/async_batcher.go: asyncExecutorFor, addToExecutor, reset, flushPendingItems"]}
{"id": "C23", "title": "AsyncBatcher: per-key order", "statement": "Items with the same key are handed to the batch executor in the order in which they were added, across batches and within a batch, and none is lost or duplicated.", "quantifier": "every interleaving of Add, flush timers and completions", "why_tests_cant": "Re-queuing of pending items can reorder only in rare states.", "anchors": ["streams/async_batcher.go: add, flushPendingItems, asyncExecutorFor"]}
{"id": "C24", "title": "AsyncBatcher: callback exactly once after all items ran", "statement": "The callback of a BatchItems is invoked exactly once, after every item in it has been executed, also when its items are spread over several batches; an empty BatchItems is called back exactly once as well.", "quantifier": "every distribution of the items over batches and every completion order", "why_tests_cant": "Counting races over all schedules.", "anchors": ["streams/async_batcher.go: completeItem, completeBatchItems, executeBatch, Add"]}
{"id": "C25", "title": "AsyncBatcher: no item is stranded", "statement": "Every item that was added and not executed is either in a batch that is executing, or in an open batch that has a flush timer running, or is waiting for a batch that is executing; so once timers fire and executions finish it is executed.", "quantifier": "every reachable state", "why_tests_cant": "Stranding requires particular states at the moment of completion.", "anchors": ["streams/async_batcher.go: addToExecutor, conditionallyExecuteBatch, flushPendingItems, reset"]}
{"id": "C26", "title": "AsyncBatcher: completions of one key are in order", "statement": "BatchItems of the same key (including empty ones, which take a placeholder slot to keep order) are called back in the order in which they were added.", "quantifier": "every interleaving and mixture of empty and non-empty BatchItems", "why_tests_cant": "Depends on mixtures within one batch.", "anchors": ["streams/async_batcher.go: Add, executeBatch"]}
{"id": "C27", "title": "BatchProducer: completion exactly once after all records", "statement": "ProduceAsync-style batch production calls its callback exactly once, after all records of the call have been acknowledged or failed, for every record list.", "quantifier": "every list of records (including the empty list), every acknowledgement order", "why_tests_cant": "All orders and the empty boundary.", "anchors": ["streams/producer.go: BatchProducer.Produce, recordComplete"]}
{"id": "C28", "title": "Every partition is assigned to exactly one member", "statement": "If the group has at least one active member, the balance plan assigns each partition of the topic to exactly one member.", "quantifier": "every group state: any members with any (possibly stale) owned, preparing and ready partitions, any partition count, any iteration order", "why_tests_cant": "Unbounded group states and nondeterministic map iteration.", "anchors": ["streams/group_state.go: newGroupState, initAssignments, balance, distributeUnassigned, deliverScheduledPartitionMoves, assignToActiveMember, unassignFromDonor"]}
{"id": "C29", "title": "Moves are prepared, donors and recipients are sound", "statement": "A partition owned by a member is moved only to an active member that reported it as ready; a Prepare instruction is only given to an active member, for a partition currently owned by another member.", "quantifier": "every group state", "why_tests_cant": "Unbounded group states.", "anchors": ["streams/group_state.go: deliverScheduledPartitionMoves, schedulePartitionMoves, donatePartition"]}
{"id": "C30", "title": "At most one partition in motion", "statement": "A balance round issues at most one new Prepare instruction (the move budget), and none while some partition is being prepared or is ready to be moved.", "quantifier": "every group state", "why_tests_cant": "Unbounded group states.", "anchors": ["streams/group_state.go: balance, schedulePartitionMoves", "streams/incr_rebalancer.go: Balance, budget"]}
{"id": "C31", "title": "Incremental rebalancing converges to a balanced assignment", "statement": "From any complete assignment to active members, repeating balance rounds with the prepared moves carried out reaches, in a finite number of moves, an assignment in which any two members' partition counts differ by at most one, after which no more moves are requested.", "quantifier": "every number of members and partitions, every starting assignment", "why_tests_cant": "Termination and optimality over unbounded states.", "anchors": ["streams/group_state.go: isImbalanced, schedulePartitionMoves, incrGroupActiveLess"]}
{"id": "C32", "title": "Members leaving the group receive nothing", "statement": "A member that announced it is leaving, or has left, is not given new partitions as long as another member is active; its partitions are handed over.", "quantifier": "every group state with any mix of active, inactive and defunct members", "why_tests_cant": "Unbounded states, rare status.", "anchors": ["streams/group_state.go: newGroupState", "streams/incr_rebalancer.go: MemberStatus, GracefullyLeaveGroup, ParseSyncAssignment"]}
{"id": "C33", "title": "Graceful leave signals once and only when empty", "statement": "The channel returned by GracefullyLeaveGroup is closed at most once, only after the member has announced leaving and holds no partitions; calling GracefullyLeaveGroup again is harmless.", "quantifier": "every sequence of leave calls and sync assignments", "why_tests_cant": "Double close panics only in particular sequences.", "anchors": ["streams/incr_rebalancer.go: GracefullyLeaveGroup, ParseSyncAssignment"]}
{"id": "C34", "title": "No partition is owned by two members at once", "statement": "Applying cooperative rounds of the incremental strategy, at no time do two members own the same partition, and a partition whose owner gives it up is assigned in the following round.", "quantifier": "every sequence of rounds with members joining, leaving and preparing", "why_tests_cant": "Unbounded protocol histories.", "anchors": ["streams/incr_rebalancer.go: Balance, JoinGroupMetadata", "streams/group_state.go: balance"]}
{"id": "C35", "title": "Prepare and forget instructions act on the named partitions", "statement": "Each Prepare instruction starts preparation of exactly that partition at most once, and each Forget instruction drops exactly the named prepared partition.", "quantifier": "every instruction list and every schedule of the spawned goroutines", "why_tests_cant": "Goroutine interleaving with the issuing loop.", "anchors": ["streams/incr_rebalancer.go: ParseSyncAssignment, PartitionPrepared, PartitionsAssigned"]}
{"id": "C36", "title": "MinMaxHeap returns true extremes", "statement": "Min and PopMin return a smallest, Max and PopMax a largest element, and the popped element is removed exactly once, after any sequence of Push, PopMin and PopMax from any initial contents.", "quantifier": "every operation sequence, every total preorder on the items, ties included", "why_tests_cant": "Unbounded operation sequences; heap-shape corner cases.", "anchors": ["streams/stores/min_max_heap.go: NewMinMaxHeap, Push, PopMin, PopMax, Min, Max, up, down, initHeap"]}
{"id": "C37", "title": "MinMaxHeap.Max is an observation", "statement": "Calling Max does not change the results of later operations.", "quantifier": "every operation sequence with Max calls inserted anywhere", "why_tests_cant": "Needs particular heap shapes.", "anchors": ["streams/stores/min_max_heap.go: Max, setMax, Push"]}
{"id": "C38", "title": "MinMaxHeap.Remove and Update act on the given item", "statement": "Remove(item) removes that item and Update(item) restores order after its priority changed, leaving a valid heap with all other items.", "quantifier": "every heap contents and every item in it", "why_tests_cant": "Position bookkeeping errors show only for particular histories.", "anchors": ["streams/stores/min_max_heap.go: Remove, Update, Push, remove, fix"]}
{"id": "C39", "title": "Shard selection is total and stable", "statement": "For every key the selected shard exists, the same key always selects the same shard, and a sharded tree with inserts, deletes and lookups by key behaves like one ordered map; Len is its size.", "quantifier": "every exponent in the supported range, every hash function, every operation sequence", "why_tests_cant": "All keys / all hash values / all histories.", "anchors": ["streams/stores/sharded_tree.go: NewShardedTree, For, Len"]}
{"id": "C40", "title": "SimpleStore is a map", "statement": "After any sequence of Put and Delete, Get returns the most recently put item for the key or reports absence; Put and Delete emit a change-log entry for that key (empty value for Delete).", "quantifier": "every operation sequence", "why_tests_cant": "All histories.", "anchors": ["streams/stores/simple_store.go: Put, Get, Delete, ToChangeLogEntry"]}
{"id": "C41", "title": "Yet-another linked list is a sequence", "statement": "Every operation of the linked list (push, insert, remove, move, append other list) has the effect of the corresponding operation on a finite sequence, operations with elements of another list have no effect, and Len is the length.", "quantifier": "every sequence of operations over any number of lists and elements", "why_tests_cant": "Pointer manipulation over all histories.", "anchors": ["streams/sak/yadll.go: List"]}
{"id": "C42", "title": "Pool never exceeds capacity or aliases", "statement": "Borrow never returns an item that is currently borrowed, released items are reset before they are reused, and the pool never holds more than its capacity.", "quantifier": "every sequence of Borrow and Release by well-behaved users", "why_tests_cant": "All histories.", "anchors": ["streams/sak/pool.go: Pool"]}
{"id": "C43", "title": "RunStatus halting follows the tree", "statement": "Halt stops the RunStatus and all its descendants and nothing else; a forked child never stops its parent; halting is permanent.", "quantifier": "every tree of forks and values and every sequence of Halt calls", "why_tests_cant": "All trees and histories.", "anchors": ["streams/sak/context.go: RunStatus"]}
{"id": "C44", "title": "Numeric helpers", "statement": "Min, Max, MinN, MaxN return an element of their arguments that bounds the others and Abs returns a non-negative number.", "quantifier": "all machine integers, all non-empty argument lists", "why_tests_cant": "All machine integers, including the extreme values.", "anchors": ["streams/sak/util.go: Min, Max, MinN, MaxN, Abs"]}
{"id": "C45", "title": "Integer codec round trips", "statement": "Decoding the encoding of any value of type int, int64 or int32 yields the value.", "quantifier": "all 2^64 / 2^32 values", "why_tests_cant": "Input space too large.", "anchors": ["streams/codec.go: intCodec"]}
{"id": "C46", "title": "LexoInt64Codec round trips", "statement": "Decoding the encoding of any int64 yields it, and inputs of another length are rejected with an error.", "quantifier": "all int64 values, all byte strings", "why_tests_cant": "Input space too large; wrap-around at the minimum.", "anchors": ["streams/codec.go: lexoInt64Codec"]}
{"id": "C47", "title": "LexoInt64Codec preserves order", "statement": "Byte-wise lexicographic comparison of encodings agrees with integer comparison.", "quantifier": "all pairs of int64 values", "why_tests_cant": "2^128 pairs.", "anchors": ["streams/codec.go: lexoInt64Codec"]}
{"id": "C48", "title": "Record type survives the trip", "statement": "The record type set on an outgoing record is the record type the receiving processor is routed by, and an explicit type header is never duplicated.", "quantifier": "all records with any headers and any type name", "why_tests_cant": "All header lists.", "anchors": ["streams/record.go: addRecordTypeHeader, newIncomingRecord, toKafkaRecord, WithRecordType, WithHeader"]}
{"id": "C49", "title": "Recycled records are pristine", "statement": "A record obtained from NewRecord is indistinguishable from a newly allocated one whatever was done with the recycled record before.", "quantifier": "every history of a pooled record", "why_tests_cant": "All histories.", "anchors": ["streams/record.go: NewRecord, Release, recordPool"]}
{"id": "C50", "title": "ToKafkaRecord keeps everything", "statement": "The public conversion of a Record to a Kafka record keeps topic, partition, key, value, headers and record type.", "quantifier": "all records", "why_tests_cant": "All records.", "anchors": ["streams/record.go: ToKafkaRecord, toKafkaRecord, AsIncomingRecord"]}
{"id": "C51", "title": "Manual partitions are respected", "statement": "A record with an explicit partition is produced to that partition; a record without one is partitioned by the topic's partitioner.", "quantifier": "all topics, partitions, partitioners", "why_tests_cant": "All inputs.", "anchors": ["streams/record.go: WithPartition, AutoAssign, NewOptionalPartitioner, NewOptionalPerTopicPartitioner, optionalTopicPartitioner"]}
{"id": "C52", "title": "Events are routed to exactly one processor", "statement": "An event is given to the first registered processor for its record type, to the default processor if there is none, and to no processor if it cannot be decoded; exactly one processor sees it.", "quantifier": "all processor tables, all events", "why_tests_cant": "All tables.", "anchors": ["streams/event_source.go: RegisterEventType, RegisterDefaultHandler, handleEvent", "streams/event_source.go: eventProcessorWrapper"]}
{"id": "C53", "title": "Decode errors follow the configured handler", "statement": "The configured deserialization error handler decides what happens to an undecodable record; the default is used exactly when none is configured.", "quantifier": "all configurations", "why_tests_cant": "All configurations.", "anchors": ["streams/source.go: deserializationErrorHandler, eosErrorHandler"]}
{"id": "C54", "title": "TopicPartitionSet is an ordered set", "statement": "Insert, remove, contains and iteration behave like a finite set of topic/partitions iterated in ascending order of partition then topic.", "quantifier": "every operation sequence over valid partitions", "why_tests_cant": "Comparator overflow only at extreme values; all histories.", "anchors": ["streams/topics.go: TopicPartitionSet, topicPartitionLess"]}
{"id": "C55", "title": "Source configuration defaults are coherent", "statement": "The derived replication factor is at least one, min-insync-replicas is at least one and, if the replication factor exceeds one, smaller than it; topic names and partition counts default as documented.", "quantifier": "all integer configurations", "why_tests_cant": "All integers.", "anchors": ["streams/source.go: minInSyncConfig, replicationFactorConfig, commitLogPartitionsConfig, StateStoreTopicName, CommitLogTopicNameForGroupId"]}
{"id": "C56", "title": "EOS configuration validation", "statement": "A configuration is accepted exactly when pool size, pending transactions, batch sizes and delay are positive and the target batch size does not exceed the maximum; the default configuration is accepted.", "quantifier": "all configurations", "why_tests_cant": "All integer configurations.", "anchors": ["streams/eos_config.go: EosConfig.validate, IsZero, DefaultEosConfig"]}
{"id": "C57", "title": "Creating a source reports mismatching topics", "statement": "CreateSource returns an error, rather than proceeding or crashing, exactly when the existing topics do not fit the source configuration; it retries only network errors and a bounded number of times.", "quantifier": "all broker responses and configurations", "why_tests_cant": "All broker states.", "anchors": ["streams/topics.go: CreateSource, createSource, resolveOrCreateTopics, isNetworkError"]}
{"id": "C58", "title": "Interjections complete", "statement": "Every Interject call either fails immediately with the documented error or its completion channel is eventually signalled, also if the partition is being revoked.", "quantifier": "every schedule of Interject, processing and revocation", "why_tests_cant": "Revocation races.", "anchors": ["streams/source_consumer.go: interject", "streams/partition_worker.go: handleInterjection", "streams/interjection.go: interjection"]}
{"id": "C59", "title": "Periodic interjections keep firing", "statement": "A scheduled interjection fires again after each completion, sync or async, until it is cancelled, with a delay within jitter of the configured interval.", "quantifier": "every sequence of outcomes and every jitter draw", "why_tests_cant": "All outcome sequences.", "anchors": ["streams/interjection.go: tick, timerDuration, init, cancel", "streams/partition_worker.go: handleInterjection, processAsyncJob"]}
{"id": "C60", "title": "Any documented balance strategy works", "statement": "Partition assignment succeeds with every documented list of balance strategies.", "quantifier": "all strategy lists", "why_tests_cant": "Configuration matrix.", "anchors": ["streams/source_consumer.go: newEventSourceConsumer, assignPartitions", "streams/balancer_options.go: toGroupBalancers"]}
{"id": "C61", "title": "MSK cluster configuration", "statement": "The bootstrap brokers for the selected authentication type are used or an error is returned; a successful result is cached; credentials returned by the provider are used.", "quantifier": "all broker responses and authentication types", "why_tests_cant": "All responses.", "anchors": ["msk/cluster.go: Config, getBootstrapBrokers, saslIamAuth"]}
{"id": "C62", "title": "Loggers honour the level", "statement": "A message is emitted exactly when its level is at least the configured level and logging is not disabled.", "quantifier": "all levels", "why_tests_cant": "Decision table over all levels and nested wrappers.", "anchors": ["streams/log.go: SimpleLogger, logWrapper"]}
{"id": "C63", "title": "Metrics never slow down processing", "statement": "Emitting a metric never blocks event processing: if the metrics channel is full the metric is dropped.", "quantifier": "every fill state of the metrics channel", "why_tests_cant": "Depends on consumer speed.", "anchors": ["streams/event_source.go: EmitMetric, emitMetrics", "streams/eos_producer.go: clearState"]}
{"id": "C64", "title": "Stop wakes every waiter", "statement": "After the event source stopped, everyone waiting on Done is released.", "quantifier": "any number of waiters and stop calls", "why_tests_cant": "Number of waiters / schedules.", "anchors": ["streams/event_source.go: Stop, StopNow, Done, WaitForSignals, WaitForChannel"]}
{"id": "C65", "title": "Workers and producer pool never wait for each other", "statement": "As long as handlers return and Kafka accepts transactions, the partition workers and the producer pool never reach a state in which they wait for each other: every accepted event eventually gets a producer, is handled, and its transaction commits.", "quantifier": "every interleaving of workers, interjections, pool and commits, any pool and batch size", "why_tests_cant": "A deadlock needs a particular order of interjections, batches and commits; tests see a few schedules.", "anchors": ["streams/partition_worker.go: work, assignProducer, handleInterjection", "streams/eos_producer.go: forwardExecutionContexts, tryFlush, commitLoop, finalizeEventContexts"]}
{"id": "C66", "title": "No send on a closed channel at revocation", "statement": "The poll loop never sends records to a worker whose input channel was closed, whatever the timing of revocation.", "quantifier": "every interleaving of fetches, revocation and the shutdown of the worker", "why_tests_cant": "A race of a few instructions between the check and the send.", "anchors": ["streams/partition_worker.go: add, revoke, pushRecords", "streams/source_consumer.go: receive, revokePartitions"]}
{"id": "C67", "title": "A store is not used after Revoked", "statement": "Once Revoked was called on a store, neither a worker nor the change-log consumer uses it.", "quantifier": "every sequence of prepare, assign, forget and revoke operations, every interleaving with workers and change-log consumption", "why_tests_cant": "The window between Revoked and the end of the worker is short and depends on scheduling.", "anchors": ["streams/source_consumer.go: revokePartitions", "streams/partitioned_store.go: revoke", "streams/partition_worker.go: revoke, work", "streams/state_store_consumer.go: populate"]}
{"id": "C68", "title": "A failing event source stops", "statement": "The event source becomes unhealthy exactly when a transaction error was answered with something other than Continue; it then stops: the commit loop ends, the client is closed, a waiter on Done is released, and nothing more is committed.", "quantifier": "every sequence of commits, errors, handler answers and stop calls", "why_tests_cant": "All orders of errors and shutdown steps.", "anchors": ["streams/eos_producer.go: commitLoop", "streams/source.go: fail", "streams/event_source.go: closeOnFail, StopNow"]}
{"id": "C69", "title": "Interjections over all partitions", "statement": "Interject, InterjectAll and InterjectAllSync set out for exactly the partitions owned at that moment, run the interjector at most once in each and nowhere else, return only after each partition has run or refused it, InterjectAllSync does so one partition after the other, and every call returns without keeping the poll loop or a rebalance from going on.", "quantifier": "any number of concurrent calls, every interleaving with workers, assignment, revocation and shutdown, every iteration order of the map", "why_tests_cant": "Needs calls, revocations and shutdown to overlap within a few instructions; the map order is random.", "anchors": ["streams/event_source.go: Interject, InterjectAll, InterjectAllSync", "streams/source_consumer.go: interject, forEachChangeLogPartitionSync, forEachChangeLogPartitionAsync", "streams/partition_worker.go: pushRecords, scheduleInterjection, handleInterjection"]}
{"id": "C70", "title": "Partition callbacks tell the truth", "statement": "OnPartitionAssigned is called when the partition has a worker; OnPartitionActivated once per worker, after OnPartitionAssigned, after the store has been filled, before the first handler call and not after OnPartitionRevoked; OnPartitionWillRevoke comes before the worker is told to stop and OnPartitionRevoked after it, each as often as the other; at OnPartitionRevoked processing of the partition has ended.", "quantifier": "every interleaving of assignments, revocations, workers and handler calls, any number of partitions", "why_tests_cant": "The callbacks come from different goroutines; the order depends on scheduling and on how long filling a store takes.", "anchors": ["streams/source.go: onPartitionsAssigned, onPartitionWillRevoke, onPartitionActivated, onPartitionsRevoked", "streams/source_consumer.go: assignPartitions, revokePartitions", "streams/partition_worker.go: work, forwardToEventSource"]}
{"id": "C71", "title": "No fetching while a store is filled", "statement": "While the store of a partition is being filled from its change log, no records of that partition are fetched, so that the poll loop never blocks on its input channel.", "quantifier": "every interleaving of assignments, revocations, workers and fetches", "why_tests_cant": "Needs a fetch between the assignment and the first instruction of a goroutine, or a revocation while filling.", "anchors": ["streams/partition_worker.go: work", "streams/source_consumer.go: assignPartitions, revokePartitions, receive"]}
{"id": "C72", "title": "Global change logs replicate the topic", "statement": "The receiver of a GlobalChangeLog is called with every record of every partition, once and in the order of the partition, from the start; its errors change nothing; after Pause it gets no record of the partition until ResumePartitionAt, and then the records from the given offset on; after Stop it is called no more once the client is closed, which happens.", "quantifier": "every topic contents, records appended meanwhile, every batching of polls, every interleaving with the calls", "why_tests_cant": "Batches, pauses and resumes must overlap in particular ways.", "anchors": ["streams/global_change_log.go: NewGlobalChangeLogWithRunStatus, consume, forwardChange, Pause, PauseAllPartitions, ResumePartitionAt, Stop", "streams/source.go: pollConsumer"]}
{"id": "C73", "title": "Marks for the consumer group", "statement": "With CommitOffsets a record is marked for the consumer group exactly if its transaction was committed, each once, interjections never; without it nothing is marked; the offset that the client then commits to the group equals the last offset record of the commit log and separates the records whose transaction was committed from the others.", "quantifier": "every pool size, configuration, interleaving and map iteration order, with an error handler that does not answer Continue to a failed commit", "why_tests_cant": "The offset is only used when the group is read by another consumer (migration); a wrong mark shows only after a crash between two commits.", "anchors": ["streams/eos_producer.go: clearState", "streams/source.go: shouldMarkCommit", "streams/source_consumer.go: newEventSourceConsumer"]}
{"id": "C74", "title": "Topics are created as configured and known as they are", "statement": "CreateSource creates the missing ones of the source topic, commit log and change log with the configured settings and leaves existing topics alone; every source it returns works with the numbers of partitions that the topics really have; DeleteSource removes exactly the three topics or returns an error; CreateDestination creates the topic of the destination.", "quantifier": "any number of instances starting at the same time, every interleaving of their requests, lost responses, every set of existing topics, every configuration", "why_tests_cant": "Needs instances to start within milliseconds of each other, and clusters that refuse or forget.", "anchors": ["streams/topics.go: createTopicFromConfigMap, createTopic, createDestination, CreateDestination, createSource, CreateSource, resolveOrCreateTopics, DeleteSource", "streams/source.go: AsDestination, CommitLogTopicNameForGroupId, StateStoreTopicName"]}
{"id": "C75", "title": "Record objects are recycled safely", "statement": "A record that was handed to the transactional producer contains, until its callback, what it contained when it was handed over; its object is meanwhile not with the application, not free and not used by another record; NewRecord returns an empty object that nobody else has; objects are released once per record, all of them by the time the transaction ends, and none is lost while the free list has room.", "quantifier": "every pool size, configuration, interleaving and order of the client's callbacks, every application that does not touch a record after handing it over", "why_tests_cant": "Aliasing shows only when an object is reused while a buffered record of another transaction still has it.", "anchors": ["streams/record.go: NewRecord, Release", "streams/sak/pool.go: Borrow, Release", "streams/eos_producer.go: ProduceRecord, produceKafkaRecord, flushPartition, flushRemaining, commit", "streams/commit_log.go: commitRecord"]}
{"id": "C76", "title": "Exactly-once effects with asynchronous handlers", "statement": "Every source record below the watermark of its partition was committed by exactly one incarnation as exactly one completed event, and what read-committed readers see for it, from all incarnations together, is what its handler produced there, in order; of records at or above the watermark, and of events that were not committed, interjections included, they see nothing; each incarnation continues at the watermark without a gap; no step changes what was seen or moves a watermark back.", "quantifier": "every number of partitions and producers, every configuration, every application with asynchronous completion in any order, interjections at any time, different results when a record is handled again, any number of crashes at any point", "why_tests_cant": "Needs crashes between any two steps of two goroutines and completions in unusual orders.", "anchors": ["streams/eos_producer.go: addEventContext, commit, clearState, flushPartition", "streams/partition_worker.go: scheduleTxnAndExecution, scheduleInterjection, work", "streams/commit_log.go: commitRecord, Watermark", "streams/event_context.go: AsyncJobComplete, complete"]}
{"id": "C77", "title": "Client settings", "statement": "Of the settings of each Kafka client the last assignment counts: options of a call win over those of the cluster, and these over the library's defaults. Whatever the clusters set, the consumer of a source is in the configured group, reads the configured topic and uses the library's balancers, callbacks and offsets; each transactional producer has its own transactional id and respects explicit partitions; the readers of change log and commit log read the partitions they are given, committed records only; the partitioner passed to NewEventSource is used for Forward. If a cluster has no configuration there is no client and no event source.", "quantifier": "every configuration of both clusters, every list of additional options", "why_tests_cant": "Settings interact by order of assignment; tests use one cluster without options.", "anchors": ["streams/topics.go: NewClient, Config", "streams/source_consumer.go: newEventSourceConsumer", "streams/eos_producer.go: newProducerNode", "streams/state_store_consumer.go: newStateStoreConsumer", "streams/global_change_log.go: NewGlobalChangeLogWithRunStatus", "streams/producer.go: NewProducer, NewBatchProducer", "streams/event_source.go: NewEventSource", "streams/source.go: stateCluster"]}
{"id": "C78", "title": "Event context and change-log entries", "statement": "RecordChange hands over one record per entry, in order, with the topic of the change log, the partition of the event, and the key, value, headers and type the application gave; it goes to the partition from which the store is restored, whatever partitioners are set; without a change log nothing is produced. Forward hands over records unchanged and in order. The context says which record, partition and store the event belongs to. An entry made with a codec comes back decodable to the same item; an entry the store cannot take is reported as an error and does not affect the entries after it; an item is never produced as a tombstone; the mock contexts behave like the contexts they stand for.", "quantifier": "all entries, records, codecs, partitioners, partitions and topics", "why_tests_cant": "All codecs and byte strings, including empty ones.", "anchors": ["streams/event_context.go: Forward, RecordChange, Offset, Input, newEventContext, newInterjectionContext, MockEventContext, MockInterjectionEventContext", "streams/record.go: NewChangeLogEntry, CreateChangeLogEntry, CreateJsonChangeLogEntry", "streams/partitioned_store.go: receiveChangeInternal"]}
{"id": "C79", "title": "A graceful leave comes to its end", "statement": "If members leave gracefully and at least one stays, and rounds go on and requested preparations are carried out, then each cycle moves one partition of a leaving member to a member that stays, nobody that stays loses one meanwhile, and after at most one cycle more than the leaving members have partitions all of them are defunct, own nothing and have closed their channel exactly once; the others have all the partitions, and in the end share them evenly. This also holds after crashes, whenever preparations finish.", "quantifier": "every number of members and partitions, any set of leaving members, every order of maps and random number, every earlier history of the group", "why_tests_cant": "Needs long runs of whole groups with crashes between request and end of a preparation.", "anchors": ["streams/incr_rebalancer.go: GracefullyLeaveGroup, ParseSyncAssignment, PartitionPrepared, PartitionsAssigned", "streams/source_consumer.go: PrepareTopicPartition, assignPartitions, leave"]}
{"id": "C80", "title": "The change log has the changes in the order in which the store saw them", "statement": "Read-committed readers of the change log of a partition see the committed changes of an incarnation exactly once and in the order in which the worker of the partition made them, so a store restored from the log is the store as it was at some earlier moment, and is the store as it is when everything is committed.", "quantifier": "for every application (asynchronous jobs, interjections), pool size, batch size, interleaving, partition, store type and crash history", "why_tests_cant": "needs a particular order of two channels and two transactions that are open at the same time, followed by a restart; the stores differ silently", "anchors": ["streams/eos_producer.go: ProduceRecord, flushPartition, relinquishOwnership", "streams/partition_worker.go: work, processAsyncJob, handleInterjection, scheduleInterjection", "streams/event_context.go: RecordChange"]}
{"id": "C81", "title": "The locks of a consumer never block each other for ever", "statement": "However preparations, forgotten preparations, assignments, revocations, join requests, interjections and the poll loop interleave: as long as one of these goroutines has something left to do with the locks workerMux, preppingMux, statusLock, those of the partitioned stores and of the state store consumer, or waits for forgotten preparations, one of them can go on, and if nothing new begins all of them finish and all locks are free.", "quantifier": "every number of goroutines and partitions, every interleaving, every sequence of calls by the Kafka client, one at a time", "why_tests_cant": "Deadlocks need particular interleavings of several goroutines with five locks and a WaitGroup that is waited for while a lock is held.", "anchors": ["streams/source_consumer.go: PrepareTopicPartition, ForgetPreparedTopicPartition, assignPartitions, revokePartitions, receive, interject, forEachChangeLogPartitionSync", "streams/incr_rebalancer.go: ParseSyncAssignment, PartitionPrepared, PartitionsAssigned, userData, GracefullyLeaveGroup", "streams/partitioned_store.go: assign, revoke", "streams/state_store_consumer.go: preparePartition, activatePartition, cancelPartition, stop"]}
{"id": "C82", "title": "Stop leaves gracefully if the group uses the incremental protocol", "statement": "When Stop is called while the group uses the incremental protocol, the client is closed only after a later round of that protocol has taken all partitions from the member; with any other protocol it is closed at once and nothing is waited for. The client is closed at most once, the signal is sent at most once and after that, and once the partitions are gone nothing else is needed to end.", "quantifier": "all lists of balance strategies, every sequence of rounds with any protocol and any partitions, every moment of the call, answers and failures of the coordinator", "why_tests_cant": "Needs groups with members that support different protocols and a call in the middle of a rebalance.", "anchors": ["streams/source_consumer.go: currentProtocolIsIncremental, leave, stop", "streams/incr_rebalancer.go: GracefullyLeaveGroup, ParseSyncAssignment", "streams/event_source.go: Stop", "streams/balancer_options.go: toGroupBalancers"]}
{"id": "C83", "title": "Metrics tell what happened", "statement": "The metric of a transaction is sent once for every committed transaction, in the order of the commits, and for no other. Its count and bytes are the number and the total size of all records of the transaction (offset records included), its partition count is the number of different partitions among its events, its start is the moment at which the first event was added, and start, execution time and end are in order. The metric of a preparation gives the number of the changes that the store received and their total size, and covers every change before the marker. For every metric that the handler gets, linger and execute duration add up to the duration.", "quantifier": "all pool sizes, configurations, record sizes, clock readings and interleavings of the pool; all undisturbed preparations; all times", "why_tests_cant": "Counters of a node are reset and reused by later transactions, records reach the client in four places and their callbacks run at any time; a test sees one interleaving.", "anchors": ["streams/eos_producer.go: addEventContext, commit, clearState, produceKafkaRecord", "streams/source_consumer.go: PrepareTopicPartition", "streams/state_store_consumer.go: processed, processedBytes, handleRecordsAndContinue, prep", "streams/metric.go: Duration, Linger, ExecuteDuration", "streams/event_source.go: emitMetrics"]}
{"id": "C84", "title": "A transaction is committed only with all its records", "statement": "When a transaction is committed, every record that was produced in it (output, change-log and offset records) has been stored by Kafka; if a record could not be produced, the transaction is not committed and the error handler decides how to go on.", "quantifier": "every interleaving of producing, failing and succeeding records, commits and error handling, every configuration of the pool, every answer of the error handler", "why_tests_cant": "A record fails at the client only for particular contents or cluster states (too large, unknown topic, not authorised), and the outcome depends on whether its error or its transaction is picked first.", "anchors": ["streams/eos_producer.go: commitLoop, producerNode.commit, produceKafkaRecord, beginTransaction", "streams/error_handling.go: DefaultTxnErrorHandler"]}
{"id": "C85", "title": "A value that cannot be encoded never passes for a deletion", "statement": "If an item cannot be encoded, the caller of JsonItemEncoder, EncodeJsonChangeLogEntryValue, CreateChangeLogEntry or SimpleStore.ToChangeLogEntry is told (or the call panics); a record or change-log entry made from an item always carries the item's encoding and never deletes the key, neither in Kafka nor in a store that is rebuilt from the change log.", "quantifier": "for all item types, codecs, items, record types, keys and stores", "why_tests_cant": "Tests encode values that the codec accepts; a value that fails to encode (NaN, a channel, a failing MarshalJSON) or has an empty encoding gives a well-formed record whose effect, a deletion, appears only after compaction or at the next recovery.", "anchors": ["streams/codec.go: JsonItemDecoder, JsonItemEncoder, EncodeJsonChangeLogEntryValue", "streams/record.go: CreateChangeLogEntry, toKafkaRecord", "streams/stores/simple_store.go: ToChangeLogEntry, ReceiveChange"]}
{"id": "C86", "title": "Comparison, hash and number helpers", "statement": "StringLess and NumberLess are strict total orders on their type, so that a tree or sharded tree that uses them (with StringHash or ByteHash) is one ordered map; Min, Max, MinN, MaxN return an argument that bounds the others, independently of the order of the arguments, and Abs returns the number of the same size that is not negative.", "quantifier": "all strings, all machine integers and all floating-point numbers of every format, all hash functions, all operation sequences", "why_tests_cant": "Tests use a few ordinary numbers and strings; the claim is about all bit patterns, among them NaN, infinities and negative zero.", "anchors": ["streams/stores/sharded_tree.go: StringHash, ByteHash, StringLess, NumberLess", "streams/sak/util.go: Min, Max, MinN, MaxN, Abs"]}
{"id": "C87", "title": "Slice, pointer and map helpers", "statement": "ToPtrSlice returns distinct fresh pointers to copies of the elements in order, ToStructSlice is its inverse; MapCopy, MapKeysToSlice and MapValuesToSlice give each entry exactly once whatever the iteration order; Must panics exactly on an error; Noescape is the identity; toTopicPartitions keeps topic, order and number.", "quantifier": "all element types, slices, maps, memory states and iteration orders", "why_tests_cant": "Go's map iteration order is random, and aliasing shows only when a copy is changed; tests see single cases.", "anchors": ["streams/sak/util.go: ToPtrSlice, ToStructSlice, MapCopy, MapValuesToSlice, MapKeysToSlice, Noescape, Must", "streams/topics.go: toTopicPartitions, ntp"]}
{"id": "C88", "title": "Partition workers and an AsyncJobScheduler never wait for each other", "statement": "A partition worker whose handlers schedule jobs and the goroutines of the AsyncJobScheduler that hand finished jobs back to it never come to wait for each other for ever: a goroutine that finished a job can always put it into the worker's asyncJobs channel sooner or later, and a worker blocked in Schedule always gets room in the key's queue sooner or later. Hence every accepted event is completed.", "quantifier": "For all scheduler configurations, all values of MaxBatchSize and PoolSize, any number of workers, all sequences of events and keys, all interleavings of the workers, the scheduler's goroutines and limit changes", "why_tests_cant": "The capacity of asyncJobs (400 or 4000) against MaxBatchSize*PoolSize pending events, and the random choice of select, decide about it; a test would have to fill thousands of slots and be unlucky with every choice", "anchors": ["streams/partition_worker.go: newPartitionWorker, work, processAsyncJob, AsyncComplete, scheduleTxnAndExecution", "streams/async_scheduler.go: Schedule, scheduleItem, blockingAddItem, process, releaseWorker", "streams/event_context.go: AsyncJobComplete"]}
{"id": "C89", "title": "Workers and a BatchProducer never wait for each other for ever", "statement": "Let handlers hand records to one BatchProducer that all workers share and let each event be completed by the callback of its Produce call. Then, whatever the order in which the records end and their promises run, no handler, no promise and no worker waits for ever: when nothing goes on by itself, every event that arrived has been completed exactly once and its slot has been given back.", "quantifier": "all sizes of MaxBatchSize, PoolSize and the client's buffer; any number of partitions, events and records per event; every interleaving of arrivals, handlers, promises and completions", "why_tests_cant": "the wait needs thousands of finished jobs in the channel of one worker, a full client and a handler that is producing at the same time; tests with a handful of records never fill either of them", "anchors": ["streams/producer.go: Produce, produceBatch, produceRecord, recordComplete", "streams/partition_worker.go: newPartitionWorker, work, processAsyncJob, AsyncComplete"]}
{"id": "C90", "title": "Workers and an AsyncBatcher never wait for each other for ever", "statement": "Let handlers add items to one AsyncBatcher that all workers share and let each event be completed by the callback of its BatchItems. Then handlers never wait, every schedule of workers, timers and executing batches ends, and when nothing goes on by itself every event that arrived has been completed exactly once by the worker of its partition and all slots are free, however small or full the channels are.", "quantifier": "all sizes of MaxBatchSize, PoolSize, batch size and concurrency; any number of partitions, events, keys and items per event including none; every interleaving", "why_tests_cant": "a wait in a cycle needs full channels, several batches executing at once and unlucky timing; tests see a few schedules with nearly empty channels", "anchors": ["streams/async_batcher.go: Add, add, addToExecutor, conditionallyExecuteBatch, executeBatch, completeItem, completeBatchItems, flushPendingItems", "streams/partition_worker.go: newPartitionWorker, work, processAsyncJob, AsyncComplete"]}
{"id": "C91", "title": "The simple Producer tells every caller the outcome of its own record and leaves nobody waiting", "statement": "Every record given to Produce or ProduceAsync goes to the client once, to the topic it names or else to the default topic; Produce returns exactly how Kafka ended the record of that call; the callback of ProduceAsync runs once, with the topic and the outcome of its record; and when all records have ended every caller has returned and every callback has run, also if callbacks call the producer again.", "quantifier": "for all calls by any number of goroutines and callbacks, all outcomes, all schedules of callers, client and promises and all buffer sizes of the client", "why_tests_cant": "Tests call Produce from one goroutine against a broker that answers; they never call the producer from a callback or fill the client's buffer, and they cannot try all interleavings.", "anchors": ["streams/producer.go: NewProducer, Produce, ProduceAsync"]}
{"id": "C92", "title": "No data races on shared fields", "statement": "Two goroutines never access the same shared field at the same time unless both only read it or both use atomic operations; every function releases all locks it takes.", "quantifier": "all numbers of goroutines running any of the functions, all interleavings of their accesses and lock operations", "why_tests_cant": "The race detector only sees the interleavings and the pairs of functions that a test executes; forgetting, rebalancing and resizing at the same time as normal work are rarely tested.", "anchors": ["streams/source_consumer.go: PrepareTopicPartition, ForgetPreparedTopicPartition, assignPartitions, revokePartitions, receive, interject", "streams/state_store_consumer.go: add, kill, cancel, addWaiter, removeWaiterForMark, prep, populate, consume, stop", "streams/incr_rebalancer.go: PartitionPrepared, PartitionsAssigned, GracefullyLeaveGroup, ParseSyncAssignment, userData", "streams/commit_log.go: ReceiveChange, closeSyncRequest, syncCommitLogPartition, Watermark", "streams/eos_producer.go: addEventContext, commit, relinquishOwnership, ProduceRecord, shouldTryFlush, owned, set, conditionallyUpdate, clear", "streams/async_batcher.go: add, addToExecutor, executeBatch", "streams/async_scheduler.go: scheduleItem, work, SetMaxConcurrentKeys, ensureWorkerChannelCapacity, enqueueWorker, releaseWorker", "streams/partition_worker.go: scheduleTxnAndExecution, forwardToEventSource", "msk/cluster.go: Config"]}
{"id": "C93", "title": "A group of consumers skips nothing", "statement": "However partitions move between the consumers of a group, even if several of them have a partition at a time, and however often consumers die: every record of the source topic below any offset in the commit log was committed by some consumer; whatever is not committed is in the pool of the consumer that has the partition, or will be fetched by it; and what is committed stays committed, with all records of its event.", "quantifier": "all numbers of consumers and of transactional producers, all sequences of starts, crashes, assignments and revocations, all interleavings, all applications, all source topics", "why_tests_cant": "Needs several processes, rebalances at arbitrary points of the transactions of each of them, and crashes; tests have one consumer or a rebalance at rest.", "anchors": ["streams/eos_producer.go: addEventContext, commit, finalizeEventContexts, ProduceRecord", "streams/commit_log.go: commitRecord, ReceiveChange, Watermark", "streams/partition_worker.go: work, handleEvent, scheduleTxnAndExecution", "streams/source_consumer.go: assignPartitions, revokePartitions"]}
{"id": "C94", "title": "A group of consumers handles every record exactly once", "statement": "Through any sequence of rebalances and crashes, what read-committed readers see for a record of the source topic is what one consumer produced for it in one transaction, as soon as the offset in the commit log has passed it, and nothing before; the offset never goes back.", "quantifier": "all numbers of consumers and of transactional producers, all sequences of starts, crashes, assignments and revocations, all interleavings, all applications, all source topics", "why_tests_cant": "A violation needs a partition that changes hands while its old consumer has events in an open transaction.", "anchors": ["streams/eos_producer.go: addEventContext, commit, finalizeEventContexts, ProduceRecord", "streams/commit_log.go: commitRecord, ReceiveChange, Watermark", "streams/partition_worker.go: work, handleEvent, scheduleTxnAndExecution, isRevoked", "streams/source_consumer.go: assignPartitions, revokePartitions"]}
{"id": "C95", "title": "Closing a job scheduler releases everybody", "statement": "After the run status of an asynchronous job scheduler has ended, no further job is started, its worker goroutines end, and every goroutine inside Schedule returns, whether it waits for a free worker, for room in the queue of a key, or to hand over a worker.", "quantifier": "all configurations, all numbers of calling goroutines, all interleavings, all states at the time of closing", "why_tests_cant": "The callers must be waiting at the moment of closing, and the order in which the workers signal and the callers wake up decides.", "anchors": ["streams/async_scheduler.go: Schedule, scheduleItem, waitForWorker, workerAvailable, work, blockingAddItem, enqueueWorker"]}
{"id": "C96", "title": "The parts fit together", "statement": "In a group of consumers with all goroutines of partition workers and of transactional producers running at the same time, every worker, every pool and the group itself behave as in the separate models: the pool accepts every completion, decides once about every event, finalizes only completed events and each once; the revocation waiter is never negative and counts exactly the records, events and transactions that are open; and for every source record below a committed offset there is a worker whose handler was called with it, whose event was completed and whose transaction was committed.", "quantifier": "All numbers of consumers, producers, workers and partitions, all capacities, all interleavings of all goroutines, all assignments, revocations and crashes at any time, all applications that obey the contract, all source topics with increasing offsets.", "why_tests_cant": "The interleavings of workers, forwarder, committer and rebalances cannot be enumerated; a test exercises one schedule, and a negative WaitGroup counter or a lost Done shows up as a rare panic or hang.", "anchors": ["streams/partition_worker.go: pushRecords, scheduleTxnAndExecution, work, handleEvent, processAsyncJob, waitForRevocation", "streams/eos_producer.go: doForwardExecutionContexts, addEventContext, finalizeEventContexts, commit, clearState", "streams/source_consumer.go: assignPartitions, revokePartitions, receive"]}
{"id": "C97", "title": "A worker that has ended leaves nothing open", "statement": "When the worker of a revoked partition has ended, every transaction that has events of this worker has ended and its records are committed, so the partition can be handed over; with such a hand-over every source record is committed exactly once.", "quantifier": "All numbers of consumers, producers, workers and partitions, all capacities, all interleavings of all goroutines, all assignments, revocations and crashes at any time.", "why_tests_cant": "The wait group is shared between worker and transactions, a missing entry is only visible if a partition returns to the same consumer within the lifetime of one transaction.", "anchors": ["streams/partition_worker.go: revoke, waitForRevocation, work", "streams/eos_producer.go: addEventContext, finalizeEventContexts, clearState", "streams/source_consumer.go: assignPartitions, revokePartitions"]}
{"id": "C98", "title": "A consumer that is left alone comes to rest with everything done", "statement": "Consider a consumer that lives, whose commits do not fail and that has no interjections, with all goroutines of its partition workers and of its producer pool. (a) From every reachable state there is a bound on the number of steps it can make without new input, whatever other consumers do, however many records handlers produce and whatever is revoked meanwhile. (b) When no further step of its own is possible, every event it accepted is completed, its transaction has ended and its record is committed; each worker that is not revoked has handed all fetched records from its watermark on to the handler, holds no slot and its waiter is zero; each revoked worker has ended. (c) So every schedule that goes on while something can happen reaches such a state.", "quantifier": "all reachable states of all groups: any number of consumers, workers, producers, records; all positive capacities; all interleavings; all applications that complete their events", "why_tests_cant": "Absence of deadlock and termination over all interleavings of several goroutines per partition with the commit loop of the pool cannot be shown by running some schedules.", "anchors": ["streams/partition_worker.go: pushRecords, work, scheduleTxnAndExecution, waitForRevocation, processAsyncJob, forwardToEventSource, assignProducer", "streams/eos_producer.go: forwardExecutionContexts, commitLoop, commit, finalizeEventContexts", "streams/source_consumer.go: revokePartitions"]}
{"id": "C99", "title": "An open transaction does not wait longer than BatchDelay", "statement": "Once a transaction has its first event, the forwarding loop tries to hand it to the commit loop at the latest BatchDelay later, and again at the latest BatchDelay after each attempt that failed because the commit queue was full; an attempt that finds room succeeds. So no transaction is on deck for longer than BatchDelay (as the documentation of BatchDelay says). The timer never panics with an accepted configuration, a tick is never lost while something is on deck, and a pool with nothing to do is woken at most once a minute. Modelling the clock neither adds behaviour to the pool nor takes any away.", "quantifier": "all executions of forwarding loop, commit loop, application and runtime timer, all times of events, all accepted configurations, all bounds on lateness", "why_tests_cant": "Depends on the interleaving of ticks, events and commits over time; a timer that is not set again shows only in rare schedules, and then as a transaction that hangs.", "anchors": ["streams/eos_producer.go: newEOSProducerPool, doForwardExecutionContexts, forwardExecutionContexts, shouldTryFlush, shouldForceFlush, tryFlush, addEventContext", "streams/eos_config.go: validate, IsZero"]}
{"id": "C100", "title": "The batcher keeps its delays", "statement": "A batch that waits for more items is executed at most the configured delay after its first item arrived (plus what the runtime and the lock cost), and not before, unless it is full; an item that has to wait with p items before it gets into a batch within p+1 executions; and an item is completed within p+2 executions and one delay.", "quantifier": "for all interleavings of callers, timers, timer functions waiting for the lock, and executing goroutines; all delays, batch sizes, numbers of executors, latencies and execution times; all positions in the list of pending items", "why_tests_cant": "the bounds relate several clocks, a list and a lock; a timer function which was stopped too late and meets the following batch is a window of microseconds that no test hits", "anchors": ["streams/async_batcher.go: NewAsyncBatcher, add, addToExecutor, conditionallyExecuteBatch, executeBatch, flushPendingItems, asyncExecutorFor, reset", "streams/sak/util.go: Abs"]}
{"id": "C101", "title": "Periodic interjections keep to their interval", "statement": "Calls of a periodic interjection in a worker do not overlap; each begins no earlier than the interval less the jitter after the previous one ended, so that in a time w at most w / (interval - jitter) + 1 calls begin; and, unless the partition is revoked, no later than the interval plus the jitter plus the latencies of timer, hand-over, acceptance and producer.", "quantifier": "every interval and jitter, every draw, every timed interleaving of timer, timer functions, pushRecords, worker, other interjections and revocation, calls of any length", "why_tests_cant": "A test waits for a few periods on an idle machine with short calls.", "anchors": ["streams/interjection.go: tick, timerDuration, interject, cancel", "streams/partition_worker.go: handleInterjection, scheduleInterjection, interleaveInterjection, work", "streams/event_source.go: ScheduleInterjection"]}
{"id": "C102", "title": "A partition that was fetched to its end is handled to its end", "statement": "When a worker has been handed its partition to the end and its consumer is left alone, it comes to rest with every record of the partition, from the first one on, handled and committed by some worker, whatever crashes and reassignments happened before; and with orderly hand-overs each record was committed exactly once, readers see for it exactly what was produced for that one event, and the newest offset record is above all records.", "quantifier": "every number of consumers, producers, partitions, all capacities, every interleaving of all goroutines, every application that completes its events, every history of crashes and reassignments; consumers without interjections", "why_tests_cant": "It is a statement about the end of all schedules after all histories of a group.", "anchors": ["streams/source_consumer.go: assignPartitions, revokePartitions, receive", "streams/partition_worker.go: pushRecords, scheduleTxnAndExecution, work, handleEvent", "streams/eos_producer.go: forwardExecutionContexts, commitLoop, commit, finalizeEventContexts"]}
{"id": "C103", "title": "A closed transaction is committed in bounded time", "statement": "A transaction that is in the commit queue is taken by the commit loop in the order of the queue, and it is over (committed, or failed) within a time that depends only on its place in the queue and the transaction timeout, whatever the application does with its events, unless the commit loop has given up. A transaction whose own events are produced and completed promptly is not failed by the transaction timeout.", "quantifier": "all configurations, all interleavings of the forwarding loop, commit loop, timer and application, all queue lengths and places, all times in which no loop is late by more than L", "why_tests_cant": "The bound needs several transactions waiting for each other for tens of seconds with a deadline that starts at the first record produced; a test would have to hold events open for half a minute in exactly this arrangement.", "anchors": ["streams/eos_producer.go: commitLoop, commit, finalizeEventContexts, flushRemaining, produceKafkaRecord, tryFlush"]}
{"id": "C104", "title": "Every event is committed in bounded time, or the consumer fails", "statement": "An event that the producer pool has put in a transaction is, after a time that depends only on the configuration (two batch delays and one transaction timeout for each transaction that can be waiting, and three more), in a transaction that has ended with success, unless the commit loop has given up. No event stays undecided for ever, whatever the application does with it or with other events.", "quantifier": "all accepted configurations, all interleavings of forwarding loop, commit loop, flush timer and application, all events, all times in which no goroutine of the pool is late by more than L", "why_tests_cant": "Tests wait for events to be committed in the good case; that there is a bound for every interleaving, with full queues, forced flushes and events that are never completed, cannot be observed by running some of them.", "anchors": ["streams/eos_producer.go: forwardExecutionContexts, doForwardExecutionContexts, tryFlush, commitLoop, commit, finalizeEventContexts, addEventContext"]}
{"id": "C105", "title": "The fields of a producer node are handed over with the node", "statement": "The fields of a producer node that have no lock of their own (txnContext, recordsToProduce, byteCount, eventContextCnt, currentPartitions, firstEvent, and produceCnt in the commit) are never accessed by two goroutines at the same time in a conflicting way: the forwarder, the commit loop, the goroutines of the events and the callbacks of the Kafka client. Every node is in exactly one place: on deck, in the commit queue, with the commit loop, free, or lost with a failed commit; when the commit loop resets a node, its events are finished and its callbacks have returned. (The only exception is the plain increment of produceCnt against the atomic load of the forwarder, see C92.)", "quantifier": "all pool sizes and queue capacities, all numbers of events, records and partitions, all interleavings of the goroutines at the granularity of single accesses, failed commits included", "why_tests_cant": "A data race is an interleaving of two instructions; the race detector reports only those that a test happens to run into, and the hand-over through two channels, a done channel per event and the flush of the client has to be argued for all of them.", "anchors": ["streams/eos_producer.go: forwardExecutionContexts, doForwardExecutionContexts, addEventContext, shouldTryFlush, tryFlush, commitLoop, commit, finalizeEventContexts, clearState, relinquishOwnership, flushPartition, flushRemaining, ProduceRecord, produceKafkaRecord"]}
{"id": "C106", "title": "The pointers of the producer pool are what they stand for", "statement": "The event contexts of a transaction are chained per partition by prev and next pointers and the nodes of the pool are a ring of next pointers. For every sequence of steps of the pool (additions, flushes, commits that succeed or fail, every answer of the error handler) following prev from the tail of a partition meets exactly the events of that partition that were added to the node's transaction, newest first, each once, and ends; following next from the root meets them oldest first; the loop over the ring that starts behind a node ends and meets every other node exactly once. The pool with pointers and the pool with lists can make exactly the same sequences of steps with the same results. An event context keeps only event contexts of its own transaction and partition in memory, and a node that waits to be used keeps none.", "quantifier": "Every configuration with at least one node, every finite sequence of steps of the forwarding goroutine, the commit goroutine and the application, every map iteration order; every pool size for the ring.", "why_tests_cant": "A wrong pointer (a stale tail, a cycle, a chain that leads into an older transaction) shows only for particular interleavings and partition mixes, as a hang, as an offset that is too small, or as memory that grows over days.", "anchors": ["streams/eos_producer.go: newEOSProducerPool, addEventContext, finalizeEventContexts, commit, clearState, relinquishOwnership", "streams/event_context.go: newEventContext, newInterjectionContext"]}
{"id": "C107", "title": "Starting an event source uses no pointer before it is set, gives every worker its interjections, and leaves nothing behind when it fails", "statement": "From the moment the Kafka client of the consumer group exists, its callbacks may run at any time. Nevertheless: (1) assignPartitions and the goroutines of the partition workers that it starts use stateStoreConsumer, producerPool, incrBalancer and eventSource.consumer only after newEventSourceConsumer and NewEventSource have stored them; (2) every partition worker has every interjection that the application scheduled before ConsumeEvents; (3) when NewEventSource returns an error, no producer pool and no state store consumer stays behind, and when it returns no error everything is set.", "quantifier": "all interleavings of the statements of NewEventSource, of calls of ScheduleInterjection and ConsumeEvents, of the callback for assigned partitions (any partitions, at any time after NewClient) and of the goroutines of the workers; CreateSource and NewClient may fail", "why_tests_cant": "the window between NewClient and the assignment of the pointers is short compared with a join of the group, a test would have to delay statements inside newEventSourceConsumer; the missing interjection shows only for a partition that is assigned between two statements of main", "anchors": ["streams/event_source.go: NewEventSource, ConsumeEvents, ScheduleInterjection", "streams/source_consumer.go: newEventSourceConsumer, assignPartitions, partitionsAssigned", "streams/partition_worker.go: newPartitionWorker, work"]}
{"id": "C108", "title": "A partition is taken up exactly where it was left, however much of the commit log has been read", "statement": "adjustOffsetsBeforeAssign sets the position of a newly assigned partition from the copy of the commit log that this process has read so far, which may be nothing: the consumer group is joined in NewEventSource, the commit log is read from ConsumeEvents on. Nevertheless, through any sequence of assignments, revocations, crashes and commits, the records handled in committed transactions (before a migration: handled by the traditional consumer of the group) follow each other without a gap and without repetition; a worker that was given all records has handled all of them; and a partition is fetched from the watermark on.", "quantifier": "all sequences of arrivals, assignments at any state of the copy of the commit log, worker starts, records, commits of any number of handled records, automatic commits of marked records, revocations, restarts, and turns of traditional consumers; with every position option of the client, with and without CommitOffsets, every initial offset of the group", "why_tests_cant": "the position depends on a race between joining the group and reading the commit log in another client; a test sees the fast order, and the option to start at the end together with a restart loses records silently", "anchors": ["streams/source_consumer.go: adjustOffsetsBeforeAssign, newEventSourceConsumer, start", "streams/commit_log.go: Watermark, lastProcessed, commitRecord, ReceiveChange", "streams/partition_worker.go: work, scheduleTxnAndExecution", "streams/source.go: shouldMarkCommit"]}
{"id": "C109", "title": "A group of consumers computes what one process would compute", "statement": "Whatever the history of assignments, revocations, crashes and returns in a group of consumers, the records that read-committed readers see for a partition (outputs and change log, from all consumers together) are exactly those that a single process would have produced by handling the source records below the newest offset record one after the other with its state store; every handler call in every consumer sees the store that the single process would have at that record; a new worker restores exactly the store at the offset where it starts; and two groups that have come equally far show the same records.", "quantifier": "all numbers of consumers and transactional producers, all batch sizes, all interleavings of workers, pools, assignments, revocations, crashes; all applications with state; all sources with increasing offsets; hand-overs in order (no living consumer has open transactions with the partition when a worker starts)", "why_tests_cant": "a test compares one run with one expectation; the claim is about all interleavings of several processes and every application, and the orders that break it need two consumers to overlap", "anchors": ["streams/source_consumer.go: assignPartitions, revokePartitions", "streams/partition_worker.go: work, handleEvent, pushRecords", "streams/eos_producer.go: commit, addEventContext", "streams/event_context.go: Forward, RecordChange", "streams/state_store_consumer.go: newStateStoreConsumer"]}
{"id": "C110", "title": "No state of the group is beyond recovery", "statement": "Whatever has happened to a group of consumers (crashes in the middle of handlers and commits, hand-overs, returns), as long as hand-overs were in order: what readers see of a partition is the beginning of the result of a single process handling the records one after the other, nothing of it is ever taken back, and if all consumers die now, a new one that is given the partitions can handle their records such that in the end readers see the whole result and the new consumer has its store.", "quantifier": "all histories of groups of any number of consumers with hand-overs in order, all pool sizes and numbers of pending transactions at least one, all batch sizes, all applications with state, all sources with increasing offsets, all finite sets of partitions", "why_tests_cant": "a test can crash a process at the points its author thought of; the claim is that from every reachable state, after any history of crashes, there is a way to the complete result", "anchors": ["streams/eos_producer.go: addEventContext, tryFlush, commitLoop, commit, relinquishOwnership", "streams/source_consumer.go: assignPartitions, revokePartitions", "streams/partition_worker.go: work, handleEvent, pushRecords", "streams/state_store_consumer.go: newStateStoreConsumer", "streams/eos_config.go: validate"]}
{"id": "C111", "title": "Event contexts are handed on without data races", "statement": "An event context is written by the goroutine that makes it, by the producer pool that puts it into a chain and by the worker that gets its producer, and is read by these, the commit loop and any goroutines to which the handler gives it. Of any two accesses to the same field, at least one of them a write, one happens before the other, by the channels through which the context is handed on.", "quantifier": "all executions of any number of workers, producer nodes, contexts and goroutines of the application, all orders in which channels are received, any handing on of contexts by handlers", "why_tests_cant": "a race detector sees only the accesses of one run, and reports only what is not ordered in that run; the claim is about all orders of steps", "anchors": ["streams/event_context.go: newEventContext, complete, AsyncJobComplete", "streams/eos_producer.go: addEventContext, doForwardExecutionContexts, finalizeEventContexts, clearState", "streams/partition_worker.go: assignProducer, scheduleTxnAndExecution, pushRecords"]}
{"id": "C112", "title": "Keyed asynchronous processing computes for every key what sequential processing computes", "statement": "An application gives the records of some keys to an AsyncJobScheduler and handles those of the other keys directly; the finalizers work on the store and forward. What read-committed readers see for a key is exactly what one process produces that handles the records of the key below the watermark one after the other; the store has for every key the state after its first records, at least those below the watermark; and the result can be completed from every state.", "quantifier": "all applications, keys, numbers of workers and of goroutines of the scheduler, all interleavings of their steps, changes of its limits, commits of any completed prefix, and crashes at any moment", "why_tests_cant": "the order in which jobs of a key finish, how they mix with those of other keys, and where a crash falls, differ from run to run; a lost or reordered record of one key shows only for few of these", "anchors": ["streams/async_scheduler.go: Schedule, scheduleItem, work, process, grabWorker, releaseWorker", "streams/partition_worker.go: processAsyncJob, forwardToEventSource, pushRecords", "streams/event_context.go: AsyncJobComplete, Forward, RecordChange", "streams/event_source.go: StopNow"]}
{"id": "C113", "title": "Chained asynchronous stages keep the order of every key and compute what sequential processing computes", "statement": "An application chains AsyncJobSchedulers: the handler schedules an event on the first, the finalizer of each schedules it on the next, the last completes it (docs/asyncprocessing.md). For every key, every processor and every finalizer of the chain gets the records in offset order without gap or repetition; what a process commits has been through all of them; and if the store is used at one place of the chain only, readers and the store see for every key exactly what one process computes that takes the records one after the other through the whole chain.", "quantifier": "all numbers of schedulers, their limits, workers, goroutines, keys and lengths of chains per key, all interleavings, commits of any completed prefix, and crashes at any moment", "why_tests_cant": "with several stages, records of a key are in different stages at once and share one channel back to the worker; an order that breaks between two stages needs a particular interleaving of three or more goroutines", "anchors": ["streams/async_scheduler.go: Schedule, scheduleItem, work, process, grabWorker, releaseWorker", "streams/partition_worker.go: processAsyncJob, forwardToEventSource, pushRecords", "streams/event_context.go: AsyncJobComplete, Forward, RecordChange", "streams/event_source.go: StopNow"]}
{"id": "C114", "title": "Processing through a batcher computes for every key what sequential processing computes", "statement": "An application gives its events to an AsyncBatcher, each as a batch under the key of the record with any number of items, none being possible as the documentation recommends; the callback of the batch uses the store and produces. For every key, the executor gets the items of the records in offset order without gap or repetition; what a process commits has been executed; and readers and the store see for every key exactly what one process computes that handles the records one after the other.", "quantifier": "all limits of the batcher, numbers of workers and partitions, keys, items per record, all interleavings of Add, timers and executions, commits of any completed prefix, and crashes at any moment", "why_tests_cant": "the order of callbacks depends on which executor takes an item, on when the flush timer fires and on what is pending; a test sees a few of these, and with an external service the delays that reorder are rare", "anchors": ["streams/async_batcher.go: Add, add, asyncExecutorFor, addToExecutor, executeBatch, completeBatchItems, flushPendingItems", "streams/partition_worker.go: processAsyncJob, forwardToEventSource", "streams/event_context.go: AsyncJobComplete, Forward, RecordChange"]}
{"id": "C115", "title": "State stores need no locks: all that is done with a store is ordered", "statement": "The documentation promises that an EventContext is only presented to code when no other goroutine has access to it, and that a StateStore needs no locking for most use cases. Of any two accesses to the same store (its making by the factory, changes given by populate, use by handlers of the partition worker, Revoked), one happens before the other in the sense of the Go memory model; and a store is filled before it is used.", "quantifier": "any number of partitions, goroutines that prepare, forget, assign and revoke, populate goroutines and workers, in every interleaving of their steps and every order of the completion markers in the change log", "why_tests_cant": "a data race needs two goroutines at the same place at the same time; the race detector sees only the interleavings that happened, and revoking or preparing again while a store is being filled does not happen in unit tests", "anchors": ["streams/partitioned_store.go: assign, revoke, receiveChangeInternal, revokedInternal", "streams/source_consumer.go: PrepareTopicPartition, ForgetPreparedTopicPartition, assignPartitions, revokePartitions", "streams/state_store_consumer.go: preparePartition, populate, isCompletionMarker, sync", "streams/partition_worker.go: work, revoke"]}
{"id": "C116", "title": "The documented retrying of failed writes loses none and keeps their order", "statement": "Examples 6 and 7 of the documentation: writes to an external database go through an AsyncBatcher, the callback keeps a failed write in the state store, and a periodic interjection takes what is due out of the store and gives it to the batcher again. Every write is made exactly once in the end; none is lost, made twice or forgotten, and the database gets the writes of each key in the order of the events.", "quantifier": "any number of events and keys, all outcomes of the writes, all choices of what is due, and all interleavings of handlers, executions, callbacks and calls of the interjector", "why_tests_cant": "a failing external service is rarely part of a test, and that a retry fails again, or comes after a newer write, needs several of these at the right moments", "anchors": ["streams/partition_worker.go: processAsyncJob, handleInterjection, work", "streams/interjection.go: tick, interject", "streams/async_batcher.go: Add, AddWithKey, executeBatch, executeCallback"]}
{"id": "C117", "title": "The documented migration from a database computes what sequential processing computes", "statement": "Examples 3 and 4 of the documentation: the handler looks whether the store has the key, an asynchronous job reads the external database if not, the finalizer looks again, puts what was read into the store and applies the event; in Example 4 a second stage writes the event to the database. What is committed for every event, and what a new process finds in its store, is what one process computes that handles the events one after the other and reads the database as it was before the migration; and database and store agree when all is done.", "quantifier": "any events, keys, contents of the database and update functions, all interleavings of handlers, reads, finalizers and writes that keep the order of a key, commits of any completed prefix, and crashes at any moment", "why_tests_cant": "the double check of the examples is there because events of a key overlap; whether it suffices depends on interleavings and on crashes between the write and the commit, which tests do not produce", "anchors": ["streams/async_scheduler.go: Schedule, process, invokeFinalizer, releaseWorker", "streams/partition_worker.go: processAsyncJob, forwardToEventSource", "streams/event_context.go: AsyncJobComplete, RecordChange"]}
{"id": "C118", "title": "Batch items are handed on without data races", "statement": "The handlers of workers fill batches and give them to a batcher shared by all; timers and executions of the batcher move the items between its lists; the function of the application reads and writes the items in goroutines of the batcher; and the callbacks read and write them in the workers again. If nothing is added to a batch after it was given to the batcher, no two accesses to the fields of the batcher, the lists of executors, the items or the fields of batches are a data race, and the result fields of an item are with one goroutine at a time.", "quantifier": "any number of workers, batches, items, executors and timers, all interleavings", "why_tests_cant": "data races depend on the interleaving and the race detector only sees those of the executions that were run; the order is by a lock, the starts of goroutines, an atomic counter and a channel together", "anchors": ["streams/async_batcher.go: Add, add, addToExecutor, conditionallyExecuteBatch, executeBatch, completeItem, completeBatchItems, reset, flushPendingItems", "streams/partition_worker.go: processAsyncJob"]}
{"id": "C119", "title": "All work for a key of a scheduler is ordered, without locks of the application", "statement": "The documentation of AsyncJobScheduler says that for a given key all work is serial, allowing the use of the single writer principle. Although the jobs of a key are processed by changing goroutines of the pool: of any two accesses of the processing function to memory that belongs to the same key, the earlier one happens before the later one in the sense of the Go memory model. The same holds for the values of jobs, from the handler over the processing function to the finalizer, for the queues and for the fields of the scheduler; so none of them is a data race.", "quantifier": "any number of partition workers, keys, jobs, workers and goroutines of the pool, all interleavings", "why_tests_cant": "that two jobs of a key do not overlap does not show that the second sees what the first wrote: this depends on the order by locks and channels, in all interleavings; the race detector only sees those that were run", "anchors": ["streams/async_scheduler.go: Schedule, scheduleItem, grabWorker, tryAddItem, blockingAddItem, process, advance, releaseWorker, enqueueWorker, work", "streams/async_item_queue.go: tryEnqueue, backfill, dequeue, peek, done", "streams/partition_worker.go: processAsyncJob"]}
{"id": "C120", "title": "Objects of records are handed on and used again without data races", "statement": "Record objects come from a pool shared by all goroutines; they are filled by handlers, wait in the buffers of transactional producers, are flushed by other goroutines, read and written by the Kafka client and its callbacks, come back in the callbacks of a BatchProducer or from a Producer, and are released and taken again. If the application uses a record only while it has it, then of any two accesses to the same object, also in different lives of it, the earlier one happens before the later one in the sense of the Go memory model; the same holds for the free list.", "quantifier": "any number of goroutines, objects, producer nodes and batches, all interleavings and orders of callbacks, any reuse", "why_tests_cant": "the race detector only sees the interleavings that were run, and reuse of an object by another goroutine is rare in tests; that an object is free (C75) does not show that its last user is ordered before its next one", "anchors": ["streams/record.go: NewRecord, Release, toKafkaRecord", "streams/sak/pool.go: Borrow, Release", "streams/eos_producer.go: ProduceRecord, produceKafkaRecord, flushPartition, flushRemaining", "streams/producer.go: Produce, ProduceAsync, produceBatch, produceRecord, recordComplete, executeCallback, cleanup"]}
