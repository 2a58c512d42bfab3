# Design of the formal model of go-kafka-event-source

The code under study is `/repo` (Go, read only, never executed). The model and the proofs are in
`lean/Verif` (Lean 4.33.0). The list of properties is `properties.jsonl`; `MANIFEST.json` maps each
property to the theorems that establish it. `seeded/LOG.jsonl` records wrong models (seeded bugs) and the
theorems that failed for them.

Contents: 1 conventions, 2 trusted base, 3 plan per property, 4 what is modelled and what is not,
5 status and axioms per theorem, 6 where the code and the properties disagree.

## 1. Conventions

* One directory per area of the code. In each area
  * `Model.lean` — the functions and state machines transcribed from the Go source. Every definition
    cites the file and lines it transcribes and says where it simplifies;
  * the specification (namespace `Spec` at the top of the property file) — the small, independent
    vocabulary in which the property is stated (lists, multisets, finite maps, observable traces);
  * `Proofs.lean` and further files — helper lemmas and invariants;
  * `Verif/Props/<Area>.lean` — the property theorems (`C17_…`), each next to an `example` that
    shows a concrete non-trivial instance of its hypotheses.
* Sequential code is modelled by total functions. Go maps become functions or association lists; where
  Go iterates over a map the model quantifies over *all* orders.
* Concurrent code (goroutines, channels, mutexes, timers) is modelled by a labelled transition system
  whose steps are the critical sections / channel operations of the code. A property is proved for
  every state reachable by any finite sequence of steps, i.e. for every schedule.
* Crash points are steps of the transition system that may occur in any state.
* Progress ("does not deadlock", "completes") is stated without fairness: a quiet state (no step
  possible except those of the outside world) has the wanted form and a measure decreases with every
  inner step, or from every reachable state there is a run of inner steps to the goal.
* If the code violates a property, the file proves the *negation* by a concrete reachable witness
  (`C06_violated…`), and keeps the strongest true part as `…_partial`, stating what is missing.

## 2. Trusted base

* The Lean 4 kernel and the axioms `propext` (P), `Classical.choice` (C), `Quot.sound` (Q); section 5
  gives the axioms of every theorem of the manifest. No `sorry`, no own axioms, no `native_decide`, no
  `bv_decide`.
* The hand transcription from Go to Lean (the citations make it auditable line by line).
* Assumptions on what is *not* modelled, listed per area in section 4. In general:
  * Kafka and franz-go are modelled only through their contracts: per-partition logs are append-only
    and read in order; transactions are atomic (all records of a transaction become visible to
    read-committed readers at its commit, or never); a client delivers records of one partition in
    the order of the produce calls; cooperative rebalancing drops from a plan partitions that are
    still owned by another member (`AdjustCooperative`).
  * `github.com/google/btree` is an ordered set/map for a strict weak order (C54 proves the order).
  * The Go memory model: data races that exist in the code are modelled at the granularity of the
    shared-variable accesses only where stated (e.g. `highestOffset`).
  * JSON, reflection, hashing (`xxhash`), random numbers, wall-clock time and network I/O are opaque:
    results are universally quantified.
  * Go semantics: `streams/go.mod` says go 1.19, so a loop variable is shared by all iterations;
    integers wrap around; a send on a closed channel panics; a nil function call panics.

## 3. Plan per property

| id | model | proof idea |
|----|-------|------------|
| C01 | source log, worker, open transactions, commit log and change log as a transition system with crash steps | invariant: committed state = fold of handler over the committed prefix |
| C02–C05 | eosProducerPool: onDeck, commit queue, ring of producer nodes, partition owners, buffered records | simulation by an abstract pool, inductive invariant over all steps |
| C06 | `shouldForceFlush`/`tryFlush` | counterexample trace (counter steps over the limit); partial for handlers that do not outrun the limit |
| C07 | sessions of one partition, overlapping at will, commit log | counterexample traces; partial under drain-before-hand-over |
| C08, C09 | partitionWorker: buffers, `highestOffset`, `maxPending`, async jobs, revocation | inductive invariant |
| C10, C11 | commit log bytes (BitVec), partition mapping, replay | byte-level round trip; fold over interleavings |
| C12, C15 | stateStorePartition state machine over a log with markers | invariant: applied = prefix of log |
| C13 | SimpleStore replay | code violates (inverted error test): witness; partial for deletes / correct decoder |
| C14, C66, C67 | consumer callbacks and partitionedStore map | invariant over lifecycle sequences; witnesses |
| C16–C20 | item queue + scheduler as a transition system | invariants (token uniqueness, FIFO); C19, C20 violated: witness traces; progress by an explicit run, termination of all schedules by a measure (every step of a goroutine inside decreases it while queues keep their heads), a cycle of states for the endless loop |
| C21–C26 | asyncBatcher transition system | invariants; C26 violated: witness |
| C27 | BatchProducer | counting invariant; empty list violates |
| C28–C34 | groupState.balance as a function of a group state and an oracle for map order / random choice; protocol rounds | invariants, measure (sum of squares) |
| C35 | instruction handling with the goroutine closures of Go 1.19 | witness for the captured loop variable; partial |
| C36–C38 | min-max heap on lists/arrays with index field | heap invariant; C37, C38 violated: witnesses |
| C39, C40 | ShardedTree, SimpleStore | refinement to one map |
| C41 | yadll pointer structure (next/prev maps) | refinement to sequences |
| C42 | Pool | invariant |
| C43 | RunStatus tree | characterisation of halted nodes |
| C44 | numeric helpers on BitVec 64 | case analysis; Abs overflows at the minimum |
| C45–C47 | codecs on byte lists | round trip; C47 violated: witness, partial across signs |
| C48–C51 | records | header-list lemmas; C50 violated |
| C52, C53 | processor chain, error handlers | decision logic; C53 violated |
| C54 | topicPartitionLess on Int32 + sorted-list set | strict total order on valid partitions, refinement to sets; overflow witness |
| C55–C57 | configuration functions | decision logic; C55 (min-insync 0) and C57 (nil dereference) violated |
| C58, C59 | interjection life cycle | transition system; both violated on some paths |
| C60 | assignPartitions with optional incremental balancer | decision logic; violated |
| C61–C63 | msk, log, metrics channel | decision logic / small transition systems |
| C64, C68 | Stop, StopNow, closeOnFail, commitLoop's error handling | transition system, whole histories |
| C65 | pool and workers together | measure + characterisation of quiet states; violated with interjections |
| C69 | interject, forEachChangeLogPartition*, the mutex, many calls at once | transition system; location invariant; measure for return; violated after revocation and StopNow |
| C70 | assignPartitions, revokePartitions, the four callbacks, `work`, grants and handler calls | transition system; what precedes each event proved at every trace position; violated: activated before assigned and after revoked, handler after revoked |
| C71 | PauseFetchPartitions/ResumeFetchPartitions in `work`, fetches | same transition system; violated before the pause and by a stale worker's resume |
| C72 | GlobalChangeLog: constructor, consume, forwardChange, Pause, PauseAllPartitions, ResumePartitionAt, Stop | transition system over any topic; window invariant; prefix theorem; positional theorems; lexicographic measure after Stop; violated for records already fetched |
| C73 | clearState's marking loop on top of the pool of C02–C06 | the marks of a partition are those of the ended transactions (induction over the run, using the simulation by transactions); agreement with C03 |
| C74 | createTopic, resolveOrCreateTopics, CreateSource by several instances at once, DeleteSource, CreateDestination, against clusters that remember their topics | transition system, one step per request; invariants for instances with the same configuration; violated for different configurations, refusals, hidden topics, default partition count, DeleteSource, CreateDestination |
| C75 | the record pool, ProduceRecord and the client's callbacks on top of the pool of C02–C06, with the contents of each object | ownership invariant (application / free / on its way are apart), contents invariant, flush before the end of the transaction |
| C76 | incarnations of the process on top of the pool of C02–C06: any number of partitions, asynchronous completion, interjections, crashes, resumption at the watermark | invariant per incarnation (records of the calls = records produced, added offsets are a prefix of the source from the watermark) from C02–C05 and C73; the watermarks of the incarnations bound disjoint ranges of offsets |
| C77 | NewClient and the options of all its callers, as lists of assignments in order | "last assignment" as a decomposition of the list; precedence and reserved settings for all clusters and options; violated for the isolation level and for the partitioner of Forward |
| C78 | EventContext (both constructors, mocks), ChangeLogEntry builders, CreateChangeLogEntry, receiveChangeInternal | fold over the builder operations, on top of C48–C52; round trip for any codec that decodes what it encodes; violated for empty encodings and for the mocks |
| C79 | `Verif/Rebalance/Leave.lean`: the rounds of `Converge.lean` with leaving members, which go when they are defunct | invariant of a group with leaving members; the number of partitions they hold is a measure for the cycles; stale ready entries as an invariant under which nothing moves |
| C80 | `Verif/Effects/Order.lean`: the order of production in `Verif/Effects` against the order of the log | the log is the list of changes grouped by transaction; list lemmas on grouping; invariant for applications that keep the order of the transactions; runs that lose the order |
| C81 | `Verif/Locks`: goroutines as lists of lock operations, starts of goroutines and the wait of `ParseSyncAssignment`; the group goroutine runs one job at a time | invariant: what a goroutine has locked fits the rest of its program, locks are taken in the order of ranks, with one exception (the wait); a blocked set would have to climb the ranks for ever; the number of instructions left is a measure |
| C82 | `Verif/Depart`: the decision and the steps of `leave` with the member of `Verif/Rebalance` and rounds of any protocol | invariant over runs from the left, with the list of labels as history |
| C83 | `Verif/Meter`: counters, clock and callbacks of the clients on top of the pool of `Verif/Eos`; counters of a partition on top of `Verif/Sync`; the durations of a metric | invariant: bytes counted plus bytes in flight of the node of a living transaction are the bytes of the transaction; simulation of `Verif/Eos`; a run in which the bytes of a preparation are read later than its count |
| C84 | `Verif/Loss`: outcomes of records, `errorChannel` and the commit loop's `select` on top of the pool of `Verif/Eos` | invariant: every record is in flight, stored or failed, and what is in flight belongs to a transaction that has not ended; every error is waiting, handled or dropped; two runs in which a transaction with a failed record is committed |
| C85 | `Verif/Encode`: the three functions that make records from items, with any codec, on top of `Verif/Record`, `Verif/Context` and `Verif/Stores` | case analysis on the result of the codec; the violations hold for every item that cannot be encoded |
| C86 | `Verif/Helpers`: floating-point numbers as bit patterns with the comparison of IEEE 754; the tree and sharded tree of `Verif/BTree` and `Verif/Stores` | the comparison is the order of a position on a line; instances of C39; NaN as the witness of the violations |
| C87 | `Verif/Helpers`: memory cells with addresses, maps as entries in the order of the loop | induction on slices and loops, for any permutation of the entries |
| C88 | `Verif/Backlog`: the scheduler of `Verif/Scheduler` with partition workers as callers, the channels `eventInput`, `asyncJobs`, `maxPending` with their capacities | counting invariant (slots = events + jobs in the scheduler + jobs waiting), hence room for every completion while the slots fit into `asyncJobs`; at rest everything is done (from C19, C20) exactly if there is at most one slot more than places; a bound on the steps of workers and scheduler (from the measure of C19); for every larger configuration a symbolic run into the deadlock, where nothing moves, and an invariant that nothing but closing ends it |
| C89 | `Verif/Promise`: workers whose handlers produce with one shared `BatchProducer`; the client as a buffer with a limit that runs promises one at a time | counting invariant for slots, copies and records; a decreasing measure (every schedule ends); at rest everything is completed exactly once while there is at most one slot more than places in `asyncJobs`; with two more a symbolic run into the deadlock and an invariant that nothing ends it (`C89_exact_sizes`) |
| C90 | `Verif/Gather`: the batcher of `Verif/Batcher` with partition workers as adders, the channels `eventInput`, `asyncJobs`, `maxPending` with their capacities; a goroutine that completes a batch waits for room | invariant that every event is in exactly one place, on top of the invariants of C21–C25; at rest everything is completed (from C25); a measure for all steps, extending that of C25 |
| C91 | `Verif/Simple`: goroutines in `Produce` and `ProduceAsync`, the client that keeps a record until its promise has returned, runs promises one at a time and lets `Produce` wait while it keeps `MaxBufferedRecords` records, and callbacks that call the producer themselves | invariant over all reachable states: `C91_topic`, `C91_returns_own_outcome`, `C91_callback_once`; a measure shows that every schedule ends (`C91_every_schedule_ends`); `C91_at_rest` gives the only two ways in which it can end without everything being served, `C91_all_served_partial` that without calls from callbacks everything is served; `C91_violated_nested` (any size ≥ 2) and `C91_violated_full` (any size ≥ 1) show that both ways are reached and stop the client for ever |
| C92 | Goroutines as lists of lock operations and accesses to shared fields, transcribed from each function with its branches and loops; any number of goroutines, any interleaving; a reader/writer lock; the single commit loop as a token | Invariant: exclusively held locks are held by nobody else, and everything still to be done follows the locking rule of its field; two clashing accesses that follow the rules share an excluding lock. Each function follows the rules for all its branches (induction over its loops) and releases all locks. For the five fields without a common lock: reachable states with a race |
| C93 | `Verif/Fleet`: any number of consumers, each with its own pool (`Verif/Eos`) and workers; partitions are assigned at any offset record of the commit log and revoked at any time, also to several consumers; crashes | Invariant over all reachable states: what comes before an event in the source topic is committed or before it in the pool; each offset record has everything below it committed. `C93_not_skipped`, `C93_covered`, `C93_atomic`, `C93_kept`, without any condition |
| C94 | Same model | Under the condition that workers start in order (nobody else has a worker or uncommitted records of the partition, the newest offset record is read): invariant with the last owner of each partition; `C94_once_partial`, `C94_none_partial`, `C94_resume_partial`, `C94_final_partial`. The code does not wait for the old consumer's open transactions: `C94_violated`, `C94_violated_back` |
| C95 | The model of the job scheduler (C16-C20), after `close` | No start after closing (`C95_no_start`, induction over all runs); who can still be inside when nothing goes on (`C95_rest_partial`); each worker can end (`C95_worker_ends_partial`); one calling goroutine always gets out (`C95_single_partial`, invariant). Two callers that wait: one can be left for ever, from every such state (`C95_two_waiting`), witness `C95_violated` |
| C96 | `Whole/Model.lean`: the product of the models of workers (`Worker`), pool (`Eos`) and group (`Fleet`); each call between them is a step of both sides | refinement to `Fleet` (`Whole/Refine.lean`), an invariant that ties the histories of workers and pool together (`Whole/Inv.lean`): events in the pool = events given a producer, completions, passed events, open transactions entered into each waiter |
| C97 | same model; `Whole/Spec.lean` defines orderly hand-overs | from the invariant: waiter zero means no open transaction entered; with orderly hand-overs an open transaction has events of one worker per partition (`Whole/Tidy.lean`), the abstract group is calm, so C94 applies; witness of the violation by running the model |
| C98 | `Verif/Whole/Model.lean` (`internal`, `aside`), specification `Calm`, `Settled` in `Verif/Whole/Spec.lean` | Termination: the measure of the pool (`Live.measA`) plus 23 times the sum of the workers' remaining work decreases with each own step and is unchanged by all others. Rest: a worker that can do nothing has completed all events that got a producer (`given_done`, by the order of its queues), so the commit loop and the forwarding loop are idle (`pool_rest`), all events were passed (`fins_reach`), no transaction is open, and each worker is quiet in the sense of `Verif.Worker`. |
| C99 | the flush timer (`time.Ticker`): setting, firing, its channel with one place, together with the pool of `Verif.Eos` and a clock (area Delay) | invariants over all executions (the timer is set whenever something is on deck); with a bound `L` on how late runtime and loop are, the bounds on the age of a transaction; simulation in both directions with the pool without clock; area Deadline adds the contexts with timeout and the commit loop, for the bound behind a full queue and the witness of 28 s |
| C100 | The batcher of `Verif.Batcher` with its clock (`Verif/Flush`): when the timers of `addToExecutor` are set and fire, the timer functions that wait for the lock (also after their timer was stopped), when executions begin and end | Invariant over all timed interleavings in which nobody is late by more than `L` and no execution takes longer than `E`; a potential (place in the list, then the delay, then the execution) that no step lets grow gives the bound for an item; the two ways in which a timer function can meet a batch are told apart by when they were started; a run in which the wrong one executes a batch at its first item |
| C101 | The periodic interjection of `Verif.Periodic` with its clock (`Verif/Cadence`): when timers are armed and due, when the interjector is entered and left | Invariants over all timed interleavings (the history is spaced by the shortest delay; each stage is reached no later than the sum of the latencies before it); the documented 900–1100 ms is refuted by a run without any latency |
| C102 | Nothing new is modelled: the group of consumers with all goroutines (`Verif/Whole`), at rest (C98) | Corollary of the refinement to `Verif/Fleet` (C93: covered), of rest (C98) and of orderly hand-over (C97); that what was fetched stays fetched is an invariant of all steps |
| C103 | `Verif.Deadline` (pool, flush timer, deadlines of transactions), executions from a state with their steps (`From`) | the queue after `k` takes is the old one without its first `k` entries and with others appended; the time the commit loop took its transaction is bounded by induction, one bound of C99 per transaction; a run of 40 seconds shows a transaction taken after its own limit |
| C104 | `Verif.Latency`: the pool with flush timer and deadlines, with an observer that notes when events came | one invariant until a transaction is put in the queue (deck, blocking send), one for the queue by place; the numbering of transactions by `Verif.Eos` (`R`, `Base`) relates events to places |
| C105 | `Verif.Nodes`: the goroutines of the producer pool as lists of accesses, locks and hand-overs; `txnContext == nil` is evaluated, other conditions are open | what each goroutine may access is computed along its program (locks, node, waited for events, waited for client); invariant: the nodes in their places are a permutation of all nodes, locks exclude, and what the commit loop has waited for stays true; every conflicting pair is then excluded by place, lock or wait |
| C106 | the pool with objects, `prev`/`next`/`root`/`tail` pointers, the map `currentPartitions` as entries and the ring of nodes built by its loop (`Verif/Chain/Model.lean`); the rest is `Verif.Eos` | bisimulation with `Verif.Eos`: a relation between heap and lists kept by every step (`Chain/Sim.lean`, `Chain/Step.lean`); links stay inside a transaction (`Chain/Links.lean`); the loop over the ring by induction over its length |
| C107 | `NewEventSource`/`newEventSourceConsumer` statement by statement, `ScheduleInterjection`, `ConsumeEvents`, `assignPartitions` in a goroutine of the client, the start of `work` (`Verif/Boot/Model.lean`) | invariant over all interleavings (`Boot/Proofs.lean`): which pointers are set at which place, and which of them a callback relies on; the violations as runs from every state of the window |
| C108 | `adjustOffsetsBeforeAssign`, `Watermark` of the part of the commit log that was read, the check `record.Offset >= highestOffset`, `commitRecord`, marks and group offset, restarts, traditional consumers of the group (`Verif/Resume/Model.lean`); the client's choice of a position is external | invariant: committed and handled records are an interval that begins at the group's first offset, the commit log ends where it ends, and positions are not beyond it (`Resume/Proofs.lean`); nothing below a committed watermark is committed later (`Resume/Later.lean`); violations as runs |
| C109 | the group of C93/C94 with a store per worker: restore with the assignment, `eventInput`, handler calls that look at the store, produce and complete (`Verif/Replica/Model.lean`); specification: a fold of the handler over the source (`Exact.handleAll`, `Replica/Spec.lean`) | per worker: finished events have produced what the fold produces, the store is the state of the fold (`Replica/Cell.lean`); the records of a transaction that ends are those of the next stretch of the source (`Replica/Seq.lean`, `Proofs.lean`, on top of the invariants of C94 and C80) |
| C110 | the group of C109 and the pool of C04 (`Verif/Replica/Model.lean`, `Verif/Eos/Model.lean`); specification: `Later`, the states reached from a given one with orderly hand-overs (`Replica/Spec.lean`) | a pool without events can take one, hand it out, and commit it, step by step (`Replica/Cycle.lean`); a new consumer therefore gets through any partition (induction over records and partitions, `Replica/Recover.lean`); then C109 |
| C111 | event contexts on their two ways, through `buffer`, producer node and `commitQueue` and through `eventInput` and `producerChan`, with the list of all accesses to their fields and all sends and receives (`Verif/Shared/Model.lean`); specification: the happens-before relation of the Go memory model for channels (`Shared/Spec.lean`) | invariant: whoever may access a context next, by where it is, knows all accesses so far that conflict (`Shared/Proofs.lean`, `Steps.lean`); nothing is sent twice or received unsent (`Once.lean`, `Sent.lean`); for the violation, a set of places of the trace closed under the relation (`Unordered.lean`) |
| C112 | the scheduler of `Verif/Scheduler` inside a process with `eventInput`, `asyncJobs`, a store with a state for each key, commits and crashes (`Verif/Keyed/Model.lean`); specification: one process that handles the records of a key one after the other (`Keyed/Spec.lean`) | completions of a key are the first of those scheduled, in order (`Keyed/Order.lean`, from C20); invariant: completed events of a key are the first ones, each with what is due (`Keyed/Proofs.lean`, `Steps.lean`); how far the store is (`Store.lean`); a run that completes the result from any state (`Finish.lean`); `StopNow` and mixed keys as concrete runs |
| C113 | any number of schedulers of `Verif/Scheduler` in one process, the finalizer of each scheduling on the next, with one `asyncJobs` channel per worker (`Verif/Stages/Model.lean`); specification: a record goes through all places at once, one record of a key after the other (`Stages/Spec.lean`) | invariant over all places: what has passed a place is the first part of what has passed the one before (`Stages/Proofs.lean`, `Steps.lean`); offsets of calls and of processor starts, how far the store is (`Store.lean`); a run that completes the result from any state, by induction over the stages (`Finish.lean`); `StopNow` between two stages and the store at two places as concrete runs |
| C114 | the batcher of `Verif/Batcher` inside a process with workers, `asyncJobs`, a store per key, commits and crashes; each record a batch with any number of items (`Verif/Batches/Model.lean`); specification: one process that handles the records of a key one after the other, and the list of items due (`Batches/Spec.lean`) | invariant that ties the events given to the batcher to what was added, called back and completed (`Batches/Proofs.lean`, `Steps.lean`), with C23, C24 and C26 for the batcher; equality with sequential processing (`Store.lean`); order of the items (`Items.lean`); a run that completes the result from any state, by the termination measure of C25 (`Finish.lean`); an empty batch before one with items as a concrete run |
| C115 | who touches a store and what orders it: the callers that prepare, forget, assign and revoke under the lock of the source consumer, the `populate` goroutines, `sync` with its marker and channel, and the workers; the trace of accesses, starts, closings and lockings (`Verif/Confine/Model.lean`); specification: happens-before of the Go memory model, conflicts, data races, calm executions (`Confine/Spec.lean`) | invariants about the owner of a store (`Confine/Calm.lean`), about what every goroutine, message and the lock is ordered after (`Proofs.lean`, `Free.lean`), and that nothing is received that was not sent (`Sent.lean`); unordered pairs by a set of places that is closed under the order (`Unordered.lean`); the violations as concrete runs in which both orders are possible |
| C116 | the application of Examples 6 and 7 of the documentation on what C22 to C26 say of the batcher, the completion of asynchronous jobs and the timer of the interjection (`Verif/Retry/Model.lean`); specification: each write at exactly one place, order of the database per key (`Retry/Spec.lean`) | conservation by counting, an invariant about the order of what was tried, a run that writes everything as long as the timer runs (`Retry/Proofs.lean`); that nothing is retried after the first time for all continuations; the older value in the database as a concrete run |
| C117 | the applications of Examples 3 and 4 of the documentation with any events, keys and update functions, on what C16, C17 and C113 say of schedulers; the store, the external database, commits and crashes (`Verif/Migrate/Model.lean`); specification: sequential processing with the database as it was (`Migrate/Spec.lean`) | invariants about how far events of a key are, and that store and change log have the sequential values (`Migrate/Proofs.lean`); for Example 3 with all crashes, for Example 4 with all crashes but those after the first write of a key that is not committed; both exceptions as concrete runs |
| C118 | the accesses of workers, timers and executions to the memory that an `AsyncBatcher` shares, with its lock, starts of goroutines, atomic counters and the channel of finished jobs (`Verif/Items/Model.lean`); specification: happens-before and data races of the Go memory model (`Items/Spec.lean`) | for each place in memory who holds it (a goroutine, the lock, a message, a counter), and that the holder knows of all accesses so far (`Items/Flow.lean`, `Shape.lean`, `Proofs.lean`); that the condition is needed as a concrete run |
| C119 | the accesses of partition workers and of the goroutines of the pool to jobs, queues, the fields of an `AsyncJobScheduler` and the memory of keys, with `mux`, `headLock`, and the channels of workers, queues and finished jobs (`Verif/Serial/Model.lean`); specification: happens-before and data races of the Go memory model (`Serial/Spec.lean`) | where every job and worker is (`Serial/Shape.lean`, `Steps.lean`); for each place in memory who holds it (a goroutine, a lock, a message), and that the holder knows of all accesses so far (`Serial/Flow.lean`, `Proofs.lean`); that a finalizer must not use the memory of its key as a concrete run |
| C120 | the accesses of all goroutines to the objects of records and to the free list, with the lock of the pool, `produceLock`, the hand-over to the Kafka client and its callbacks, the counters of batches and the channel of finished jobs (`Verif/Loan/Model.lean`); specification: happens-before and data races of the Go memory model (`Loan/Spec.lean`) | for each object who holds it (a goroutine, a lock, a message, a counter), and that the holder knows of all accesses so far (`Loan/Flow.lean`, `Proofs.lean`); that the rule for applications is needed as a concrete run |

## 4. What is modelled and what is not

### 4.1 Areas

**BTree** (`lean/Verif/BTree`). The ordered tree `github.com/google/btree.BTreeG` used by `streams/topics.go:47-91`, `streams/group_state.go:60-62`, `streams/stores/simple_store.go:36` and `streams/stores/sharded_tree.go:53`. The tree is external code; it is modelled by the list of its items in ascending order, which is the behaviour its documentation promises. Node splitting, degree and the shared free list are not modelled.

**Backlog** (`lean/Verif/Backlog`). The partition workers together with an `AsyncJobScheduler`: who waits for whom.

The scheduler is the one of `Verif.Scheduler`; the goroutine `work` of a partition worker (`streams/partition_worker.go:234-252`) is one of its callers. Its `select` takes an event from `eventInput` and runs the handler, which calls `Schedule` and returns `Incomplete`, or it takes a job from `asyncJobs`, which completes its event and gives back the slot in `maxPending` (258-263). The goroutines of the scheduler put the jobs into `asyncJobs` (`streams/async_scheduler.go:90`, `streams/event_context.go:169-174`, `streams/partition_worker.go:57-59`), whose capacity is limited (91-104).

Simplifications: every event is scheduled once, with one job; the finalizer returns `Complete`; workers are not revoked; the wait for a producer, during which jobs are taken too, is left out, and so are interjections.

**Batcher** (`lean/Verif/Batcher`). Model of `streams/async_batcher.go`: a transition system over the shared state of an `AsyncBatcher`, whose steps are the critical sections under `mux`, the firing of a flush timer, and the individual actions of the goroutines that execute batches.

**Batches** (`lean/Verif/Batches`). Handlers that give their events to an `AsyncBatcher`, and what readers see of it (`docs/asyncprocessing.md:305-360`).

The batcher is the one of `Verif.Batcher`. Each record becomes a batch under its key with as many items as the application makes for it, none being possible ("adding an empty with the correct key set"); the callback of the batch works on the store and produces. Added here are the records of the source and their offsets, `eventInput`, `asyncJobs`, the store (a state for each key), commits, and crashes.

Simplifications: as in `Verif.Keyed`: a transaction is what it is for one partition; `maxPending`, the room in `eventInput` and the wait for a producer are left out (they only delay); no interjections, no revocation. All items of a batch have its key (`AddWithKey` is left out).

**Boot** (`lean/Verif/Boot`). Model of the start of an event source: `NewEventSource` with `newEventSourceConsumer`, the calls of the application up to `ConsumeEvents`, and the goroutines that may run meanwhile. The Kafka client of the consumer group starts to join the group when it is made (`kgo.NewClient` with `kgo.ConsumerGroup` and `kgo.ConsumeTopics`; franz-go, external), so that its callback for assigned partitions can come at any time from then on, in a goroutine of the client.

Simplifications: one topic; stores are never prepared in advance (that needs an assignment first); the waits in `work` (commit log, store) may end at any time; partitions are not revoked again (a revoked worker ends, C97).

**Cadence** (`lean/Verif/Cadence`). A periodic interjection of one partition worker with its clock: `streams/interjection.go` and its use in `streams/partition_worker.go:184-282`, a layer over `Verif/Periodic/Model.lean` (same state machine) that keeps the time at which each timer is due and the times at which the interjector is entered and left.

Simplifications: time is a number of nanoseconds since the worker began; the clock moves only in the step `pass`, so that every other step takes no time of its own; the call of the interjector (`streams/interjection.go:40-42`) has a beginning (`enter`) and an end, and anything may happen between them.

**Chain** (`lean/Verif/Chain`). Model of the pointers in the pool of transactional producers, `streams/eos_producer.go`: the event contexts of a transaction are chained by their `prev` and `next` pointers, a node keeps the first and the last of each partition (`currentPartitions`), the nodes are a ring by their `next` pointers.

In `Verif.Eos.Model` a node has the list of its events and the ring is a list of numbers. Here these are what the code has: objects with pointers, a map, and loops that follow pointers. Everything else is taken from `Verif.Eos.Model`, whose `Node.evs` is not used here (always empty).

**Clients** (`lean/Verif/Clients`). The settings of the Kafka clients that the library makes: `NewClient` and its callers.

An option of franz-go assigns fields of the configuration; `kgo.NewClient` applies the options in order (library contract), so that the last assignment of a field counts. Simplifications: what a field is set to is a number; the checks that `kgo.NewClient` makes on the whole configuration are left out; options that set several fields at once are several assignments.

**Codec** (`lean/Verif/Codec`). Model of `streams/codec.go` and of the byte-level helpers of `streams/commit_log.go`.

**CommitLog** (`lean/Verif/CommitLog`). Model of `streams/commit_log.go` (offset commit log) and of the forwarding loop of `streams/global_change_log.go` that feeds it.

**Config** (`lean/Verif/Config`). Model of the configuration and topic-creation logic: `streams/source.go`, `streams/eos_config.go`, `streams/balancer_options.go`, `streams/topics.go`, `streams/error_handling.go`, `streams/log.go`. Go `int` values are modelled by `Int`; the only arithmetic is a decrement of a value known to be greater than one, so overflow cannot occur.

**Confine** (`lean/Verif/Confine`). State stores and the goroutines that use them: the caller who makes a store, the goroutine `populate` that fills it from the change log, the goroutine `work` that gives it to the handlers, and the caller who tells it that it was revoked.

The state has the list of all accesses to stores and of everything that orders goroutines among those. Simplifications: of what orders goroutines only the following is listed (so fewer accesses are ordered than in the code): the start of a goroutine, the closing of a waiter and the waiting for it, the lock of `partitionedChangeLog`. The change log and the channels with fetched records are left out: `populate` may at any time get a change, a marker that somebody is waiting for, or find its channel closed and empty (this allows more than the code does). Values are left out.

**Context** (`lean/Verif/Context`). `EventContext` as the application sees it (`streams/event_context.go`), change-log entries (`streams/record.go:296-354,406-421`) and the data of a change log (`streams/partitioned_store.go:24-57`).

The producer is the list of the records that it is called with, in order; what happens to them is in `Verif.Eos`, `Verif.Recycle`.

**Deadline** (`lean/Verif/Deadline`). The pool of producers with the flush timer (`Verif.Delay`) and the deadlines of its transactions: the context with a timeout of 29 seconds that a node creates with its first record, `streams/eos_producer.go:482-492,514-520`.

**Delay** (`lean/Verif/Delay`). The pool of producers with its clock: the flush timer of `streams/eos_producer.go:82-205`, a `time.Ticker`.

`Verif.Eos` lets the forwarding loop be woken by the timer at any moment. Here the timer is modelled as well: when it is set, when it fires, and that its channel holds at most one tick. Time is counted in nanoseconds.

**Depart** (`lean/Verif/Depart`). How a consumer leaves its group: `currentProtocolIsIncremental` and `leave` (`streams/source_consumer.go:350-399`), which `Stop` calls once (`streams/event_source.go:262-273`), with the member of the group (`Verif/Rebalance/Member.lean`) and the rounds of the group.

Simplifications: the coordinator is external. It knows the protocol in use, except while a rebalance is being prepared; a round ends with one of the protocols the consumer supports and gives it any partitions. With a protocol other than the incremental one `ParseSyncAssignment` of the Kafka client runs instead of that of the rebalancer. The library's `StopNow` is not part of this (`Verif/Shutdown`).

**Effects** (`lean/Verif/Effects`). All partitions of a consumer through any number of incarnations of the process, with handlers of any kind: they may keep several events of a partition open at the same time, complete them in any order from other goroutines (asynchronous jobs), produce different records when an event is handled again, and interjections may come at any time. On top of the pool of transactional producers (`Verif.Eos`).

`Verif.Exact.Model` has one partition, and handlers that complete their event before they return; in exchange it has the contents of the store.

Simplifications: the partitions stay assigned until the process dies; Kafka is external: a transaction that did not end is never visible, and a new incarnation starts after the transactions of the old one have been resolved.

**Encode** (`lean/Verif/Encode`). The functions that make records and change-log entries from items: `JsonItemEncoder`, `JsonItemDecoder`, `EncodeJsonChangeLogEntryValue` (`streams/codec.go:42-69`), `JsonCodec` (131-150), `CreateChangeLogEntry` (`streams/record.go:418-421`, in `Verif.Context.Model`).

The JSON library is external: a codec is a pair of functions. On an error its `Flush` returns before it writes, so that nothing is written (`streams/codec.go:135-140`).

**Eos** (`lean/Verif/Eos`). Model of the pool of transactional producers, `streams/eos_producer.go`.

The goroutines are: the forwarding loop (162-171), the commit loop (207-227), and the partition workers (and whatever goroutines the application uses) that call `ProduceRecord` and complete events. A step is what happens inside one critical section. Kafka's transactional client is external: `Produce` appends to the open transaction, `EndTransaction` makes the transaction visible as a whole or fails.

**Exact** (`lean/Verif/Exact`). One source partition through any number of incarnations of the process: the partition worker (`streams/partition_worker.go`), the pool of transactional producers (`Verif.Eos`), and what read-committed readers see.

Simplifications: handlers complete their events before they return (no asynchronous jobs); the partition gets no interjections; the worker stays assigned until the process dies. Kafka is external: a transaction that did not end is never visible, and a new incarnation starts after the transactions of the old one have been resolved.

**Fleet** (`lean/Verif/Fleet`). A group of consumers that are alive at the same time. Each is a process with its own pool of transactional producers (`Verif.Eos`) and with workers for some partitions; partitions are assigned, taken away and assigned again, also to a consumer that had them before; consumers start and die at any time. Handlers are of any kind (`Verif.Effects.Model`). All consumers write their offsets to one commit log.

Nothing in the model keeps two consumers from having a worker for the same partition, nor a worker from starting at an old offset record: which of these can happen is decided by the group protocol (external), and by the reading of the commit log (`Verif.Handover`, `Verif.Sync`). The theorems that need it say so.

Simplifications: Kafka is external: a transaction that did not end is never visible. The offset records of a partition are listed in the order of the commits of their transactions. In the commit log they are in the order in which they were sent; this can only differ if transactions with events of the same partition are open in two consumers.

**Flush** (`lean/Verif/Flush`). The batcher of `streams/async_batcher.go` with its clock: the timers that `addToExecutor` sets with `time.AfterFunc`.

`Verif.Batcher` lets a timer fire at any moment. Here it is modelled when it is set, when it fires, and that a function which has been started by a timer waits for the lock, while the timer may be stopped (too late), forgotten, and set anew. Time is counted in nanoseconds.

**Gather** (`lean/Verif/Gather`). The partition workers together with an `AsyncBatcher` (`streams/async_batcher.go`): who waits for whom.

The handler of an event calls `AsyncBatcher.Add` on the goroutine of the worker; the goroutines of the batcher hand the callbacks to the workers (`AsyncJobComplete`, `streams/async_batcher.go:84-88,283`, `streams/event_context.go:169-174`), which waits for room in `asyncJobs` (`streams/partition_worker.go:57-59`).

The batcher is the one of `Verif.Batcher`, with all its interleavings; the adding goroutine `p` is the goroutine of worker `p`.

Simplifications: every event calls `Add` once, with any number of items; the callback returns `Complete`; workers are not revoked; the wait for a transactional producer and interjections are left out. A goroutine of the batcher that would wait in `AsyncJobComplete` has not counted up the item yet (in the code it has, but nobody else looks at the counter of a complete batch).

**Global** (`lean/Verif/Global`). The global change log, `streams/global_change_log.go:38-136`, with `pollConsumer`, `streams/source.go:33-41`.

Simplifications: the client is a next offset and a pause flag per partition; a poll returns for any selection of partitions that are not paused any number of their next records; a time-out is a poll that returns nothing. Fetch errors are only logged and left out. Records are offset and value; a log only grows (its offsets may have gaps, compaction during the run is left out). `Start` is called once; the client is not closed from elsewhere. `ReceiveChange` returns.

**Handover** (`lean/Verif/Handover`). One source partition that moves from consumer to consumer, and the partition of the commit log to which its offsets are written.

Sources: `streams/source_consumer.go:189-240` (assign, revoke), `streams/partition_worker.go:129-131,161-180,206-221` (revoke, filter, start), `streams/commit_log.go:76-93,113-131` (commit record, reading, marker), `streams/eos_producer.go:144-151,272-278,359-391,430-455` (accept, transactional ids, commit).

Simplifications: every offset of the source holds a record; transactions of other partitions are left out (they only delay readers); the transactions of a session commit in the order in which they were begun (property C04, `Verif/Eos`); each session reads the commit log from its beginning, whereas a consumer that has been running has read a part of it before; an aborted transaction makes the session fail (`streams/eos_producer.go:193-216`). The transactional ids are random (`streams/eos_producer.go:276`), so that a session does not fence the transactions of others; hence no step does that.

**Heap** (`lean/Verif/Heap`). `streams/stores/min_max_heap.go`: the min-max heap.

Items are pointers (numbers); the value of an item is read through a function, so that `Update` can be modelled as the caller changing a value and then calling `Update`. The slice `items` is a function from slots to pointers with a length; slots at or above the length are never read by the code for a slot argument below the length. `Remove`/`Update` of an item whose `index` is out of range panic in Go; here they are `none`.

**Helpers** (`lean/Verif/Helpers`). Helpers: the comparison and hash functions for trees (`streams/stores/sharded_tree.go:23-43`) and the functions on numbers, slices and maps of `streams/sak/util.go`, here with floating-point numbers and with memory.

**Interject** (`lean/Verif/Interject`). `Interject`, `InterjectAll` and `InterjectAllSync` over all partitions of a consumer: `streams/source_consumer.go:289-348` and `streams/event_source.go:313-352`, with the mutex `workerMux` that they share with the poll loop (258-266) and with assignment and revocation (190-242).

Simplifications: of a worker only the way of interjections is kept: the channel `interjectionInput` (capacity 1), the goroutine `pushRecords` that takes from it, and the interjections that it has accepted; their way through the pool of producers is one queue. An accepted interjection runs at any later time, or is dropped if the worker was revoked (`streams/partition_worker.go:269-276`). Periodic interjections, which use the same channel, are left out (see `Verif/Periodic`); events are left out. Interjectors return. `interject` itself is two steps: the checks (290-301) and the send (302-310), between which the mutex is held.

**Items** (`lean/Verif/Items`). The memory that the goroutines of an `AsyncBatcher` share (`streams/async_batcher.go`): the lists of its executors, the items of batches, and what is kept under its lock; which goroutine reads and writes them when, and what orders these accesses.

The state has the list of all accesses and of all that orders goroutines so far: the lock of the batcher, the starts of `executeBatch`, the atomic counter of a batch, and the channel `asyncJobs` of the workers. Simplifications: limits and keys are left out, so that an item may go into any executor that is ready or wait, and an executor may start at any time (all this allows more than the code does); what happens under the lock is one step; timers may fire at any time, and their start is not listed (so fewer accesses are ordered than in the code). Values are left out.

**Keyed** (`lean/Verif/Keyed`). Handlers that give their events to an `AsyncJobScheduler`, and what readers see of it.

The scheduler is the one of `Verif.Scheduler`, with the channels of `Verif.Backlog`: `eventInput`, `asyncJobs`. Added here are the records of the source and their offsets, the store (a state for each key), what the finalizers produce, commits, and crashes. The handler of a record either schedules it under its key, and the finalizer then works on the store and produces; or it does so itself and returns `Complete`.

Simplifications: a transaction is what it is for one partition: some of the next events, all completed (C02, C04, `Verif.Eos`), whose records become visible together, in the order in which they were produced (C05); the slots `maxPending` and the room in `eventInput` are left out (they only delay); the wait for a producer, during which jobs are taken too, is part of taking the event; interjections are left out; partitions are not revoked while the process lives.

**Latency** (`lean/Verif/Latency`). The pool of producers with its clock and the deadlines of its transactions (`Verif.Deadline`), watched from outside: when events came, `streams/eos_producer.go:144-205,296-324`.

**Lifecycle** (`lean/Verif/Lifecycle`). The life of the stores of a consumer: `partitionedChangeLog` (`streams/partitioned_store.go:58-101`) and the operations `PrepareTopicPartition`, `ForgetPreparedTopicPartition`, `assignPartitions`, `revokePartitions` of `streams/source_consumer.go:139-244`.

Simplifications: partitions are natural numbers (one topic); stores and workers are numbered in the order of their creation; each operation is one step (they hold `workerMux` or `preppingMux`; the map in `partitionedChangeLog` has its own lock); what a synchronisation does is in `Verif/Sync`, here only the store that it feeds is kept; observers and metrics are left out.

**LinkedList** (`lean/Verif/LinkedList`). `streams/sak/yadll.go`: the doubly linked list, with its pointers.

**Live** (`lean/Verif/Live`). The partition workers together with the pool of producers: who waits for whom.

The pool is the one of `Verif.Eos`. Of a worker (`streams/partition_worker.go`) the model has the goroutine that schedules events (`pushRecords`: 171-174, 201-203), the two channels to the goroutine `work`, and that goroutine's `select` (234-245), the wait for a producer (289-301), the handler, and the completion of events whose handler did not complete them.

Simplifications: workers are not revoked; the slots `maxPending` are left out (they only delay the arrival of events), and so is the capacity of the pool's channel `buffer` (likewise); the records of a fetch and the interjections arrive one at a time.

**Loan** (`lean/Verif/Loan`). The objects of records: taken from a pool that all goroutines share, filled, handed to the transactional producer (where they may wait in the buffer of a node), to a `BatchProducer` or to a `Producer`, read by the Kafka client, written by its callbacks, and given back to the pool; which goroutine reads and writes an object when, and what orders these accesses.

The state has the list of all accesses and of all that orders goroutines so far: the lock of the pool, `produceLock` of each node, the handing of a record to the client and the call of its callback (as sending and receiving), the atomic counter of a batch, the channel of finished jobs. Simplifications: what is under a lock is one step; flushing a node is one step for each record (more interleavings than in the code); the free list has room for all (objects that find it full are never taken from it, which is allowed here as well); what the client does with a record itself is left out, since it ends with the callback; that a node hands each buffered record to the client once is C75; the fields of nodes are C105, those of `produceBatcher` are written before its records are handed over. Assumed of the application: it uses, hands over and releases a record only while it has it; the records of a batch are different objects. Contents are left out (C75).

**Locks** (`lean/Verif/Locks`). The locks of a consumer: `workerMux` and `preppingMux` (`streams/source_consumer.go:35-36`), `statusLock` of the rebalancer (`streams/incr_rebalancer.go:247`), the `mux` of `partitionedChangeLog` (`streams/partitioned_store.go:63`) and of `stateStoreConsumer` (`streams/state_store_consumer.go:199`), the goroutines that take them and the `WaitGroup` of `ParseSyncAssignment` (`streams/incr_rebalancer.go:407-421`).

Simplifications: a goroutine is the list of what it still has to do with locks and other goroutines; everything else in between is left out, in particular what the maps contain, so that both branches of each condition are possible at any time. The Kafka client calls `ParseSyncAssignment`, `JoinGroupMetadata` and the callbacks for assignments and revocations one after the other (its group goroutine). `ForceRebalance` does not block. The send to `interjectionInput` under `workerMux` is the subject of C69, here it goes through.

**Loss** (`lean/Verif/Loss`). Records that the client cannot produce: what becomes of them, of their errors, and of their transaction. `produceKafkaRecord` (`streams/eos_producer.go:514-535`), `commit` (359-392) and the commit loop (207-227) on top of the model of the pool, `Verif.Eos.Model`, which assumes that every record given to the client ends up in its transaction.

Kafka's client is external. `Produce` ends every record once, with or without an error (too large, no such topic, not authorised, …); `Flush` returns when all records of the client have ended, whatever the outcome; `EndTransaction` commits the records that were stored. A failed `BeginTransaction` (326-334) is seen here as the failure of the records that follow; its own error is left out.

**Marks** (`lean/Verif/Marks`). Model of the marking of records for the consumer group, `clearState` (`streams/eos_producer.go:394-406`), on top of the model of the pool of transactional producers, `Verif.Eos.Model`.

With `SourceConfig.CommitOffsets` the consumer's client is told about every record of a transaction that ended with success (`MarkCommitRecords`); the client commits the highest marked offset + 1 to the consumer group from time to time (`kgo.AutoCommitMarks`, `streams/source_consumer.go:85-90`).

**Meter** (`lean/Verif/Meter`). Model of the figures that the pool of transactional producers reports for a transaction (`clearState`, `streams/eos_producer.go:394-430`) on top of the model of the pool, `Verif.Eos.Model`; and of the durations that are derived from the times of a metric (`streams/metric.go:35-45`).

The clock is the wall clock of one process and does not go back (`time.Now` carries a monotonic reading). The send to the channel `metrics` (411), which may block, is in `Verif.Metrics.Model`.

**Metrics** (`lean/Verif/Metrics`). Metrics: the channel `metrics` of the event source, the goroutine `emitMetrics`, and those who send to it (`streams/event_source.go:73-76,119-146`, `streams/eos_producer.go:410-423`, `streams/source_consumer.go:159-170`).

Simplifications: a metric is its start time, its execute time and a number; a time is a natural number with 0 for Go's zero time. `ConsumeEvents` (93-97) has been called. Go's `select` in 135-144 chooses freely between its ready cases. A panic ends the process.

**Migrate** (`lean/Verif/Migrate`). Examples 3 and 4 of the documentation (`docs/asyncprocessing.md:149-303`): the store is filled from an external database key by key. The handler looks whether the store has the key; an asynchronous job reads the database if not; the finalizer looks again, puts what was read into the store if it still has nothing, and then applies the event. In Example 4 a second asynchronous stage then writes the event to the database as well.

The library parts are the scheduler (`streams/async_scheduler.go`), the completion of jobs in the worker (`streams/partition_worker.go:258-263`), commits and new beginnings. Simplifications: one partition; of the scheduler what C16, C17 and C113 say of it: jobs of one key are processed one after the other, and their finalizers run in the same order, perhaps later; all else in any order.

**Msk** (`lean/Verif/Msk`). `msk/cluster.go`: how the client options for an MSK cluster come about.

Simplifications: the AWS API is given by its answers, which can be anything and may change from call to call; TLS configurations and client options are numbers; `kgo.Opt` values are their constructor and arguments. The mutex (`mux`, 142-143) makes calls of `Config` sequential, so the model has one caller.

**Nodes** (`lean/Verif/Nodes`). The fields of the producer nodes and the goroutines that use them: the forwarder, the commit loop, the goroutines that handle the events, and the callbacks of the Kafka client.

Most of these fields have no lock of their own: a node is handed from the forwarder to the commit loop and back through two channels, and the commit loop waits for the events of the node and for the client before it resets the node. As in `Verif.Races`, a goroutine is the list of what it does with shared fields, locks and channels; conditions are left open, so that both branches are possible, except for the condition `txnContext == nil`, which is evaluated.

Assumptions: no event calls `ProduceRecord` after it was completed; `Flush` of the Kafka client returns without an error only after all callbacks have returned.

**Observe** (`lean/Verif/Observe`). What the callbacks `OnPartitionAssigned`, `OnPartitionActivated`, `OnPartitionWillRevoke` and `OnPartitionRevoked` see, and when a partition is paused: `streams/source.go:123-165`, `streams/source_consumer.go:190-266`, `streams/partition_worker.go:117-262`.

Simplifications: of an event only three moments are kept: the pool decides to give it a producer because its worker is not revoked (`streams/eos_producer.go:140-153`), its handler is called, its handler returns. Interjections, asynchronous jobs and stores are left out; `sync` stands for the return of `waiter()`. Preparations (`prepping`) are left out. Callbacks are given and return. Offsets and records are left out. The client fetches a partition only while it has a worker and while no assignment or revocation is under way, as franz-go waits for the callbacks.

**Periodic** (`lean/Verif/Periodic`). A periodic interjection in one partition worker: `streams/interjection.go` and its use in `streams/partition_worker.go:148-152,184-204,227-245,258-282`.

Simplifications: the timer is a step that can happen at any time after it was armed; the way of an accepted interjection through the slots and the pool of producers (199-203) is one state (`sched`); other interjections use the same channel of capacity 1. Everything is counted, so that the model does not assume that there is only one timer or one activation. Each worker has its own copy of the interjection (`ToPtrSlice`, `streams/sak/util.go:111-119`), taken before `init`.

**Producer** (`lean/Verif/Producer`). Model of `BatchProducer` and `Producer` (`streams/producer.go`). The Kafka client is represented by its contract: every produced record is acknowledged (with or without an error) exactly once, at any later time, in any order; its promise then runs.

**Promise** (`lean/Verif/Promise`). The partition workers together with a `BatchProducer` (`streams/producer.go:90-178`): who waits for whom.

The `BatchProducer` shares one Kafka client among all workers. The client is external. It keeps the records it was given until their promises have returned, it runs the promises one at a time, and `Produce` waits while it keeps `MaxBufferedRecords` records (10000 unless set otherwise). A promise counts down and, when it was the last of its call, hands the callback to the worker (`streams/producer.go:135-139`), which waits for room in `asyncJobs` (`streams/partition_worker.go:57-59`).

Simplifications: every event calls `Produce` once, with at least one record and with a callback (`Verif.Producer` has the other cases); the callback returns `Complete`; workers are not revoked; the wait for a transactional producer and interjections are left out.

**Races** (`lean/Verif/Races`). Shared fields, locks and goroutines: which accesses can happen at the same time.

A goroutine is the list of its accesses to shared fields and of what it does with locks, in the order of the code; everything else is left out, so that both branches of a condition are possible at any time. Any number of goroutines may run any of the functions, except that functions which are only executed by one goroutine begin and end with its token (`loop`, a lock without counterpart in the code).

Not modelled: fields that are handed from goroutine to goroutine through channels (event contexts, `onDeck`, the items of an executor of the batcher; for the fields of a producer node see `Verif.Nodes`) and fields that are written only before the goroutines start.

**Rebalance** (`lean/Verif/Rebalance`). The incremental rebalancer: `streams/group_state.go` and the leader's half of `streams/incr_rebalancer.go`.

Conventions. `int32` partitions are `Int` (no arithmetic is done on them). `MemberID` strings are `Nat` (only compared for equality and order). `*incrGroupMember` pointers are the member ids, the structs they point to are kept in `GS.mem`. The `btree.BTreeG[int32]` sets of partitions are duplicate free lists (`insP`, `delP`): they are only asked for membership, for their size and for a random element, so their order is not modelled. The trees of members are kept in order with the comparison functions of the code, because there the keys change while the members are in the tree. Logging (including `printGroupState`, 190-205) is left out. Go's random map iteration and `rand.Intn` are the argument `Sched`.

**Record** (`lean/Verif/Record`). Model of `streams/record.go`, of the pool it uses (`streams/sak/pool.go` is modelled separately in `Verif.Sak.Pool`) and of the record classification in `streams/topics.go`.

**Recycle** (`lean/Verif/Recycle`). Model of the life of the record objects that go through the pool of transactional producers: they come from `recordPool` (`streams/record.go:52-82`), are filled by the application or by the commit log, are handed to `ProduceRecord` (`streams/eos_producer.go:494-512`), perhaps wait in a buffer, are handed to the client, and are released in the client's callback (`streams/eos_producer.go:521-535`). On top of the model of the producers, `Verif.Eos.Model`.

**Replica** (`lean/Verif/Replica`). A group of consumers (`Verif.Fleet`) whose handlers use the state store: they look at the store, change it and produce records, and complete their event before they return. Each worker has its own store, which is restored from the change log when the partition is assigned.

Simplifications: as in `Verif.Fleet`; no asynchronous jobs and no interjections (with these the change log need not be in the order of the changes, see C80); the store is restored in one step with the assignment, from the records that read-committed readers see then.

**Resume** (`lean/Verif/Resume`). Model of where the fetching of a partition starts: `adjustOffsetsBeforeAssign` (`streams/source_consumer.go:118-131`) with the copy of the commit log that this process has read so far, the offset of the consumer group, and the worker that passes over what lies below the watermark.

One source partition, and one owner at a time whose transactions have ended when the next one comes (otherwise see C93 and C94). The client of the group calls `adjustOffsetsBeforeAssign` when the partition is assigned, which may be before anything of the commit log was read: reading starts with `ConsumeEvents`, joining with `NewEventSource` (`streams/source_consumer.go:91,270-272`). External (franz-go): without an offset of the group the client starts where `ConsumeResetOffset` says, by default at the start of the partition; marked records are committed to the group from time to time.

**Retry** (`lean/Verif/Retry`). Examples 6 and 7 of the documentation (`docs/asyncprocessing.md:362-417`): writes to an external database go through an `AsyncBatcher`, a failed write is kept in the state store, and a periodic interjection takes what is due out of the store and gives it to the batcher again. The library parts are the batcher (`streams/async_batcher.go`), the completion of asynchronous jobs (`streams/partition_worker.go:258-263`) and the timer of interjections (`streams/partition_worker.go:269-282`, `streams/interjection.go:65-82`).

Simplifications: one partition; each event makes one write; the batcher is what C22 to C26 say of it: items of one key run one after the other in the order in which they were added, all else in any order, and the callback of a batch comes when all its items have run.

**Route** (`lean/Verif/Route`). How an event gets to a processor: `streams/event_source.go:358-386` and the chain of `eventProcessorWrapper`s, 397-446.

Simplifications: a user's processor is a number with a table of results (`User.run`); what it does to the event context is not part of the model. Decoded values are not modelled: `User.decodes` says whether the decoder of the processor accepts the record. A call of a nil function is a panic.

**Sak** (`lean/Verif/Sak`). `streams/sak/util.go`, `streams/sak/pool.go`, `streams/sak/context.go`.

**Scheduler** (`lean/Verif/Scheduler`). Model of `streams/async_item_queue.go` and `streams/async_scheduler.go`.

The queue functions are sequential (they run under `headLock`).  The scheduler is a transition system: a state holds all shared variables and the program counter of every goroutine, and a step is one critical section or one channel operation of one goroutine. A theorem about `Reach` therefore speaks about every interleaving.

**Serial** (`lean/Verif/Serial`). The memory that belongs to one key of an `AsyncJobScheduler`: what the function of the application may use for the jobs of a key without locks of its own ("for a given key, all work is serial allowing the use of the single writer principle", `streams/async_scheduler.go:93-96`), the values of the jobs, and the fields of the scheduler and of the queues of its workers; which goroutine reads and writes them when, and what orders these accesses.

The state has the list of all accesses and of all that orders goroutines so far: `mux` of the scheduler, `headLock` of each queue, and the channels `workerChannel`, `queue` and `asyncJobs`. Simplifications: what happens under `mux` is one step (with the `headLock` inside it), and so is what happens under `headLock` alone; limits are left out, so that a queue may be full at any time and a key may always get a worker (more than the code allows); a goroutine of the pool may have several workers at once (more than the code allows); `SetMaxConcurrentKeys` is left out (C20, C92), also closing (C95): what is left in queues then is not touched any more. `depth` is an atomic number that nothing reads. Values are left out.

**Shared** (`lean/Verif/Shared`). The fields of event contexts: which goroutine reads and writes them when, and the channels through which the contexts are handed on.

A context is made by the goroutine `pushRecords` of a worker and goes two ways: through `buffer` to the goroutine of the pool that puts it into a producer node, with which it goes through `commitQueue` to the commit loop; and through `eventInput` (`interjectionEventInput`) to the goroutine `work`, which waits for its producer and gives it to the application. The application may give it to goroutines of its own.

The state has the list of all accesses and of all sends and receives so far. Simplifications: what channels contain may be received in any order, and sends never block (both allow more than the code does); only the synchronisation by channels is listed, not that by locks (so fewer accesses are ordered than in the code; a message is listed as received when it is sent by the application to itself). Values of fields are left out.

**Shutdown** (`lean/Verif/Shutdown`). Failing and stopping: `commitLoop` after an error (`streams/eos_producer.go:208-228`), `fail` (`streams/source.go:169-172`), `closeOnFail`, `Stop`, `StopNow`, `Done` (`streams/event_source.go:93-117,191-290`), `leave` and `stop` (`streams/source_consumer.go:379-399`).

Simplifications: of `commitLoop` only what it does with errors; of `leave` only that it ends at some time with the client closed. `ConsumeEvents` (93-97) has been called. Any number of goroutines can be in `StopNow` and in `<-es.Done()`; they are counted. A panic ends the process.

**Simple** (`lean/Verif/Simple`). The simple `Producer` (`streams/producer.go:38-87`): goroutines that call `Produce` and `ProduceAsync`, and the callbacks of `ProduceAsync`, which may call them too.

The Kafka client is external. It keeps the records it was given until their promises have returned, it ends every record it keeps sooner or later, with or without an error, in any order, it runs the promises one at a time, and its `Produce` waits while it keeps `MaxBufferedRecords` records.

Simplifications: of a record only the topic is kept; a goroutine stands for any caller; a context that is cancelled ends its record with an error, like any other failure.

**Stages** (`lean/Verif/Stages`). Several `AsyncJobScheduler`s one after the other, as in `docs/asyncprocessing.md`, examples 2 to 4: the handler schedules the event on the first one, the finalizer of each schedules it on the next one, the last one returns `Complete`. All of them give their finished jobs to the same channel of the worker, and the worker calls the handler and all finalizers.

Places of an event are numbered: the handler is 0, the finalizer of the `i`-th scheduler is `i + 1`. At each place the application may work on the store and produce.

Simplifications: as in `Verif.Keyed`: a transaction is what it is for one partition; `maxPending`, the room in `eventInput` and the wait for a producer are left out (they only delay); no interjections, no revocation.

**Stores** (`lean/Verif/Stores`). `streams/stores/simple_store.go` and `streams/stores/sharded_tree.go`.

**Sync** (`lean/Verif/Sync`). The synchronisation of a state store with its change log, `streams/state_store_consumer.go`, for one partition: the client's position, the loop `consume`, the channel `buffer`, the goroutines `populate`, the markers.

Simplifications: `log` is what a reader with isolation read-committed (`streams/topics.go:117`) gets from the partition, in order; `prep` is one step (its assignments, 130-144, are not interleaved with `consume`); `prep`, `cancel` are serialised by `mux`. Marks are fresh UUIDs: a new mark is different from all values in the log and from all marks before.

**TPSet** (`lean/Verif/TPSet`). `TopicPartitionSet`, `streams/topics.go:44-91`.

**Topics** (`lean/Verif/Topics`). Model of the creation and deletion of topics, `streams/topics.go:129-304`, by any number of instances of an application that start at the same time, against clusters that remember their topics.

`Verif.Config.Model` has the same functions for one instance and given answers of the brokers; here the answers come from the clusters, which all instances share, and every request is a step of its own.

**Whole** (`lean/Verif/Whole`). The parts put together: a group of consumers, each with all goroutines of its partition workers (`Verif.Worker`) and of its pool of transactional producers (`Verif.Eos`), interleaved in every possible way. In `Verif.Worker` the pool is an environment that decides when events get a producer and when they are finalized; in `Verif.Eos` and `Verif.Fleet` the workers are an environment that adds and completes events. Here each of these calls is a step of both.

Simplifications: those of the parts. The channel `buffer` of the pool has the events of each worker in order; between workers any order is possible. Kafka is external: a worker is sent the records of its partition from some offset on, in order, without gaps; that offset is not above the offset that is read from the commit log (the offsets that are marked for the group's protocol are behind the commit log, C73; without them the client starts at the beginning).

**Worker** (`lean/Verif/Worker`). The partition worker, `streams/partition_worker.go`, with its two goroutines (`pushRecords` and `work`), its channels, the slots `maxPending` and the `revocationWaiter`.

Simplifications: the pool of producers is an environment that gives producers to events in the order in which they were added and finalizes completed events some time later (the pool itself is modelled in `Verif.Eos`); its channel `buffer` is unbounded. The application obeys its contract: it completes each event at most once. Kafka's fetches arrive through `offer`/`send`.

### 4.2 Functions

A function counts as modelled if a definition cites its lines (also when it is inlined in a step of a
transition system). Test files and examples are not modelled.

| file | functions | modelled | not modelled (line) |
|---|---|---|---|
| `msk/cluster.go` | 10 | 4 | DefaultClientConfig (77), NewMskCluster (91), NewMskClusterWithClientConfig (98), WithTlsConfig (111), WithClientOptions (121), WithScramUserPass (130) |
| `streams/async_batcher.go` | 20 | 20 |  |
| `streams/async_item_queue.go` | 7 | 7 |  |
| `streams/async_scheduler.go` | 25 | 25 |  |
| `streams/balancer_options.go` | 1 | 1 |  |
| `streams/codec.go` | 13 | 13 |  |
| `streams/commit_log.go` | 15 | 13 | Revoked (97), Start (151) |
| `streams/eos_config.go` | 2 | 2 |  |
| `streams/eos_producer.go` | 25 | 25 |  |
| `streams/error_handling.go` | 2 | 2 |  |
| `streams/event_context.go` | 15 | 15 |  |
| `streams/event_source.go` | 25 | 24 | createChangeLogReceiver (354) |
| `streams/global_change_log.go` | 9 | 9 |  |
| `streams/group_state.go` | 18 | 18 |  |
| `streams/incr_rebalancer.go` | 24 | 21 | String (107), Balance (135), BalanceOrError (139) |
| `streams/interjection.go` | 5 | 5 |  |
| `streams/log.go` | 16 | 14 | String (79), Level (181) |
| `streams/metric.go` | 3 | 3 |  |
| `streams/partition_worker.go` | 19 | 19 |  |
| `streams/partitioned_store.go` | 9 | 9 |  |
| `streams/producer.go` | 12 | 12 |  |
| `streams/record.go` | 54 | 54 |  |
| `streams/sak/context.go` | 8 | 8 |  |
| `streams/sak/pool.go` | 3 | 3 |  |
| `streams/sak/util.go` | 13 | 13 |  |
| `streams/sak/yadll.go` | 23 | 23 |  |
| `streams/source.go` | 24 | 19 | Topic (174), GroupId (178), Config (182), BalanceStrategies (186), NumPartitions (190) |
| `streams/source_consumer.go` | 17 | 17 |  |
| `streams/state_store_consumer.go` | 22 | 22 |  |
| `streams/stores/min_max_heap.go` | 29 | 26 | Len (66), hasParent (158), hasGrandparent (162) |
| `streams/stores/sharded_tree.go` | 7 | 7 |  |
| `streams/stores/simple_store.go` | 9 | 9 |  |
| `streams/topics.go` | 20 | 20 |  |

### 4.3 Not modelled at all

Network, TLS/SASL handshakes, AWS SDK calls (opaque results), JSON text format, values of metrics,
text of log messages, garbage collection / memory use, real time (timers may fire at any moment), the inner
workings of franz-go and of the Kafka brokers.

## 5. Status and axioms

Letters in brackets: P `propext`, C `Classical.choice`, Q `Quot.sound`, – no axioms. 120 properties: 71 partial, 49 proved. 619 theorems in the manifest: 452 [PCQ], 117 [PQ], 40 [P], 10 [–].

**C01 Exactly-once effect across crashes** — proved. World model: one partition, any number of incarnations, arbitrary other partitions in the pool. Assumed: handlers are synchronous and deterministic, no interjections on the partition, all state changes go through the change log, the client stores every record of a transaction that it commits (C84 shows what happens otherwise), a new incarnation starts after the old transactions are resolved (hand-over between live processes is C07).

`Exact.C01_exactly_once` [PCQ]; `Exact.C01_restored_state` [PCQ]; `Exact.C01_local_state` [PCQ]

**C02 A transaction commits only finished events** — proved. Pool model of eos_producer.go, all interleavings, any pool size; the client is assumed to put every Produce call into the open transaction (for records that fail at the client see C84).

`Eos.C02_commit_only_finished` [PCQ]; `Eos.C02_records_in_their_transaction` [PCQ]; `Eos.C02_nothing_after_the_end` [PCQ]

**C03 Committed offset is the highest finished offset plus one** — proved. Exactly one record o+1 for the newest real event, none for interjections only; highest if arrivals have increasing offsets.

`Eos.C03_one_offset_record` [PCQ]; `Eos.C03_no_offset_record` [PCQ]; `Eos.C03_highest` [PCQ]

**C04 Transactions commit in order; no event is in two transactions** — proved. All interleavings, any pool size, error handler not answering Continue to a failed commit; C04_continue_skips shows what Continue does (documented data loss).

`Eos.C04_in_order` [PCQ]; `Eos.C04_prefix` [PCQ]; `Eos.C04_continue_skips` [PCQ]

**C05 Output order per source partition is kept across pooled transactions** — proved. All interleavings, any pool size.

`Eos.C05_transaction_order` [PCQ]; `Eos.C05_production_order` [PCQ]

**C06 MaxBatchSize bounds a transaction** — partial. False in general: shouldForceFlush compares with == and the record counter can step over the limit (violation theorem). Proved for runs where the record counter is at most MaxBatchSize when tryFlush looks.

`Eos.C06_violated` [PCQ]; `Eos.C06_bounded_partial` [PCQ]

**C07 Partition hand-over between consumers does not reprocess committed events** — partial. Exactly once across any number of hand-overs if the old consumer has produced its commit records before the new one sends its marker; the start offset is the last committed one before the marker. Violated: nothing waits for that, and nothing fences the old producers.

`Handover.C07_exactly_once_partial` [PCQ]; `Handover.C07_resume_partial` [PCQ]; `Handover.C07_violated` [P]; `Handover.C07_violated_watermark` [P]; `Handover.C07_start_partial` [PQ]

**C08 Each event handled once, in offset order, none below the watermark** — proved. Model of one worker with both goroutines, its channels and capacities. Assumed: the Kafka client delivers increasing offsets; for completeness, the pool keeps assigning producers (see C65), handlers return and asynchronous jobs complete. Completeness is termination of every schedule plus everything offered when no step is left.

`Worker.C08_initial_segment` [PCQ]; `Worker.C08_order` [PCQ]; `Worker.C08_all_offered` [PCQ]; `Worker.C08_drains` [PCQ]

**C09 In-flight events per partition are bounded and slots are balanced** — partial. Bound, at-most-once release, non-blocking release and termination of a revoked worker are proved for all schedules. Exactly-once release is false: a worker can finish with refused events still in its queue (C09_violated, C09_violated_forever). Exactly-once is proved without revocation and, under revocation, for every event that got a producer.

`Worker.C09_bound` [PCQ]; `Worker.C09_release_once` [PCQ]; `Worker.C09_release_enabled` [PCQ]; `Worker.C09_released_partial` [PCQ]; `Worker.C09_closed` [PCQ]; `Worker.C09_revoked_finishes` [PCQ]; `Worker.C09_violated` [PQ]; `Worker.C09_violated_forever` [PCQ]

**C10 Watermark recovery from the commit log** — partial. Recovery of watermarks proved for a consumer of one topic. With two topics in one group the watermarks collide (C10_two_topics_violated): they are kept by partition only.

`CommitLog.C10_watermark_after_sync` [PCQ]; `CommitLog.C10_watermark_exact` [PCQ]; `CommitLog.C10_released_iff` [PCQ]; `CommitLog.C10_two_topics_violated` [PCQ]

**C11 Commit-log encoding round trips** — proved. Round trip, injectivity of keys, log partition exists.

`CommitLog.C11_commit_record_roundtrip` [PCQ]; `CommitLog.C11_key_injective` [PCQ]; `CommitLog.C11_log_partition_exists` [PCQ]

**C12 State-store synchronisation is complete and exact** — partial. Exact, in order, frozen after activation and terminating for every synchronisation that starts with the partition at rest and whose markers are in order. A panic comes only from a closed channel, and kill never closes twice if executed alone. Violated in general: marker order, stale fetch, nil buffer, closed buffer, forgotten preparation, and kill interleaved with itself or with prep (double close; new channel cleared).

`Sync.C12_prefix_partial` [PCQ]; `Sync.C12_activated_partial` [PCQ]; `Sync.C12_prepared_partial` [PCQ]; `Sync.C12_first_partial` [PCQ]; `Sync.C12_completes_partial` [PCQ]; `Sync.C12_violated_order` [PCQ]; `Sync.C12_violated_stale` [PCQ]; `Sync.C12_violated_twice` [PCQ]; `Sync.C12_violated_blocked` [PCQ]; `Sync.C12_violated_panic` [PCQ]; `Sync.C12_panic_only_when_closed` [PCQ]; `Sync.C12_buffer_open` [PCQ]; `Sync.C12_kill_alone_partial` [PQ]; `Sync.C12_violated_double_close` [PQ]; `Sync.C12_violated_cleared` [PQ]; `Sync.C12_own_channel_partial` [PCQ]; `Sync.C12_violated_nil_channel` [PQ]; `Sync.C12_violated_shared_channel` [P]; `Sync.C12_violated_lost` [PCQ]

**C13 Replay of a change log rebuilds the store** — partial. Violated: ReceiveChange tests the error the wrong way round, a replayed store is always empty. Proved: replay of deletes; full replay and compaction proved for the repaired test.

`Stores.C13_violated` [P]; `Stores.C13_replay_always_empty` [PQ]; `Stores.C13_replay_partial` [PQ]; `Stores.C13_repaired_partial` [PQ]

**C14 One store per assigned partition** — partial. For every sequence of operations: created once per service period, own store per partition, Revoked at most once and always at revocation, events go to the serving store. Change-log entries go to it for legal orders only; violated for a preparation pending at revocation, on an assigned partition, or forgotten.

`Lifecycle.C14_created_once` [PQ]; `Lifecycle.C14_own_store` [PQ]; `Lifecycle.C14_revoked_once` [PCQ]; `Lifecycle.C14_revoked_called` [PQ]; `Lifecycle.C14_events` [PQ]; `Lifecycle.C14_changes_partial` [PQ]; `Lifecycle.C14_violated_split` [P]; `Lifecycle.C14_violated_refill` [P]; `Lifecycle.C14_violated_forgotten` [P]

**C15 Marker records never reach a store** — proved. Recognition for all header lists, and in every run of the store consumer no marker is applied and every other record taken is.

`Record.C15_marker_recognised` [PCQ]; `Record.C15_marker_arrives` [PCQ]; `Record.C15_marker_exact` [PCQ]; `Sync.C15_never_applied` [PCQ]; `Sync.C15_others_applied` [PCQ]

**C16 AsyncJobScheduler: one job per key at a time** — proved. Every interleaving, any number of callers and workers.

`Scheduler.C16_one_job_per_key` [PCQ]; `Scheduler.C16_history` [PCQ]

**C17 AsyncJobScheduler: per-key FIFO and no loss or duplication** — proved. Per key FIFO over every interleaving; no job lost or duplicated.

`Scheduler.C17_fifo` [PCQ]; `Scheduler.C17_no_loss` [PCQ]

**C18 AsyncJobScheduler: bounded number of concurrent keys** — proved. Bound on the keys held, and on the pool; the limit in force is the last one set.

`Scheduler.C18_bounded` [PCQ]; `Scheduler.C18_pool_empty` [PCQ]; `Scheduler.C18_limit_in_force` [PQ]

**C19 AsyncJobScheduler: every scheduled job is eventually processed** — partial. Violated: a job that was put into a full queue after the worker drained it stays there, its queue has lost its head (peek does not backfill, C19_violated), and the worker goroutine goes round for ever without doing anything (C19_violated_spins). Proved: while no queue has lost its head and the key limit was only raised, every schedule of the goroutines inside ends after a bounded number of steps (C19_bounded_partial) with every accepted job completed (C19_all_completed_partial, C19_every_schedule_partial); heads are lost only after a Schedule call found its queue full (C19_full_only_partial, C19_never_full_partial). No fairness is assumed beyond: as long as some goroutine can go on, one does.

`Scheduler.C19_no_lost_wakeup_partial` [PQ]; `Scheduler.C19_violated` [PCQ]; `Scheduler.C19_completable_partial` [PCQ]; `Scheduler.C19_bounded_partial` [PCQ]; `Scheduler.C19_all_completed_partial` [PCQ]; `Scheduler.C19_every_schedule_partial` [PCQ]; `Scheduler.C19_full_only_partial` [PQ]; `Scheduler.C19_never_full_partial` [PCQ]; `Scheduler.C19_violated_spins` [PQ]

**C20 SetMaxConcurrentKeys loses no work** — partial. Violated: lowering and raising the limit leaves workers in a closed channel. Proved for limits that only grow.

`Scheduler.C20_violated` [PCQ]; `Scheduler.C20_kept_partial` [PCQ]; `Scheduler.C20_no_deadlock_partial` [PCQ]

**C21 AsyncBatcher: batch size and concurrency limits** — proved. Every interleaving, maxBatchSize ≥ 1 (with 0 the limit is not effective: example).

`Batcher.C21_batch_size` [PCQ]; `Batcher.C21_concurrency` [PCQ]

**C22 AsyncBatcher: a key is never in two running batches** — proved. Every interleaving.

`Batcher.C22_keys_disjoint` [PCQ]; `Batcher.C22_call_in_progress` [PCQ]

**C23 AsyncBatcher: per-key order** — proved. Order per key over all calls, no duplicates; with C25 nothing is lost.

`Batcher.C23_order` [PCQ]; `Batcher.C23_once` [PCQ]; `Batcher.C23_completed_executed` [PCQ]

**C24 AsyncBatcher: callback exactly once after all items ran** — proved. Every distribution over batches; empty batches included.

`Batcher.C24_callback` [PCQ]

**C25 AsyncBatcher: no item is stranded** — proved. Whereabouts of every unfinished item; internal steps terminate; a quiet state has completed everything.

`Batcher.C25_not_stranded` [PCQ]; `Batcher.C25_terminates` [PCQ]; `Batcher.C25_quiet` [PCQ]

**C26 AsyncBatcher: completions of one key are in order** — partial. Violated: an empty BatchItems followed by a non-empty one of the same key in one executor is called back second. All other mixtures proved.

`Batcher.C26_violated` [PQ]; `Batcher.C26_order_partial` [PCQ]

**C27 BatchProducer: completion exactly once after all records** — partial. Violated: an empty list, or a nil callback, never completes the event. Proved for non-empty lists with a callback.

`Producer.C27_once_after_all_partial` [PCQ]; `Producer.C27_completes_partial` [PCQ]; `Producer.C27_topics` [PCQ]; `Producer.C27_empty_violated` [PCQ]; `Producer.C27_nil_callback_violated` [PCQ]

**C28 Every partition is assigned to exactly one member** — proved. For every report list with distinct ids (including stale and contradictory claims), every map order and random number. Member topic interests are ignored by the code and by the model.

`Props.Rebalance.C28_each_partition_one_member` [PCQ]; `Props.Rebalance.C28_nothing_invented` [PCQ]

**C29 Moves are prepared, donors and recipients are sound** — partial. Moves: full. Prepare: the recipient is never inactive, but a defunct member counts as active in the code (violation theorem); with only active and inactive members the full claim is proved.

`Props.Rebalance.C29_moved_only_when_ready` [PCQ]; `Props.Rebalance.C29_prepare_sound_partial` [PCQ]; `Props.Rebalance.C29_prepare_active_partial` [PCQ]; `Props.Rebalance.C29_violated_defunct_prepares` [PQ]

**C30 At most one partition in motion** — proved. Per topic, as in the code; the budget is not shared between topics.

`Props.Rebalance.C30_at_most_one_prepare` [PCQ]; `Props.Rebalance.C30_none_while_moving` [PCQ]

**C31 Incremental rebalancing converges to a balanced assignment** — partial. Rounds, preparation and take-up composed as cycles of three rounds; start: complete assignment to active members (and one round earlier for groups with unowned partitions). Violated after a crash of the owner during a preparation: a ready entry for an own partition stops all moves (C31_violated_stale).

`Props.Leave.C31_violated_stale` [PCQ]; `Props.Rebalance.C31_converges_partial` [PCQ]; `Props.Rebalance.C31_cycle_moves_one` [PCQ]; `Props.Rebalance.C31_unowned_assigned_first` [PCQ]

**C32 Members leaving the group receive nothing** — partial. Inactive members: proved (nothing new, no preparation, relieved first). Members reporting defunct are treated as active: violation theorem.

`Props.Rebalance.C32_leaving_gets_nothing_new` [PCQ]; `Props.Rebalance.C32_leaving_prepares_nothing` [PCQ]; `Props.Rebalance.C32_leaving_is_relieved` [PCQ]; `Props.Rebalance.C32_violated_defunct_gets_partition` [PQ]

**C33 Graceful leave signals once and only when empty** — proved. All sequences of leave, sync, prepared, failed and assigned calls.

`Props.Rebalance.C33_closed_once_when_left_and_empty` [PQ]; `Props.Rebalance.C33_leave_again_harmless` [P]; `Props.Rebalance.C33_stays_left` [PQ]

**C34 No partition is owned by two members at once** — proved. Protocol model with joins, crashes, arbitrary metadata changes, rounds and take-up in any order; the Kafka coordinator is assumed to start a round only when the last plan was taken up.

`Props.Rebalance.C34_never_two_owners` [PCQ]; `Props.Rebalance.C34_plan_waits_for_owner` [PCQ]; `Props.Rebalance.C34_given_up_is_assigned` [PCQ]

**C35 Prepare and forget instructions act on the named partitions** — partial. Prepare half full. Forget half: goroutines share the loop variable (go 1.19), so with two or more partitions one can be missed: violation theorem; proved for a single partition and for goroutines that run at once.

`Props.Rebalance.C35_prepare_exactly_named` [PCQ]; `Props.Rebalance.C35_forget_named_partial` [PCQ]; `Props.Rebalance.C35_violated_forget_misses` [PQ]; `Rebalance.C35_reported_sets` [PCQ]; `Rebalance.C35_change_forces_rebalance` [PQ]

**C36 MinMaxHeap returns true extremes** — proved. Every history of Push, Min, PopMin, PopMax from any contents, any strict weak order, followed by Max.

`Heap.C36_extremes` [PCQ]

**C37 MinMaxHeap.Max is an observation** — partial. Violated: Push after Max. Proved for histories in which a pop separates Max and Push, both as correctness of answers and as equality with the execution without Max.

`Heap.C37_violated` [PQ]; `Heap.C37_answers_partial` [PCQ]; `Heap.C37_observation_partial` [PCQ]

**C38 MinMaxHeap.Remove and Update act on the given item** — partial. Violated three ways (position of a pushed item; Update; Remove). Proved: exact contents for heaps not used with Push; order when the moved item fits its ancestors or dominates its descendants, in particular for the Min item.

`Heap.C38_violated_push_remove` [PQ]; `Heap.C38_violated_update` [PQ]; `Heap.C38_violated_remove` [PQ]; `Heap.C38_contents_partial` [PCQ]; `Heap.C38_update_order_partial` [PCQ]; `Heap.C38_update_min_partial` [PCQ]; `Heap.C38_remove_order_partial` [PCQ]; `Heap.C38_remove_min_partial` [PCQ]

**C39 Shard selection is total and stable** — proved. Shard exists for every supported exponent (bound shown sharp); refinement to one tree for every operation sequence.

`Stores.C39_shard_exists` [PCQ]; `Stores.C39_exponent_sharp` [PQ]; `Stores.C39_like_one_tree` [PCQ]

**C40 SimpleStore is a map** — proved. Get, change-log entries, one item per key, after every operation sequence.

`Stores.C40_get` [PQ]; `Stores.C40_entries` [PQ]; `Stores.C40_one_per_key` [PQ]; `Stores.C40_all_calls` [PQ]; `Stores.C40_receive_error` [P]

**C41 Yet-another linked list is a sequence** — proved. Pointer-level refinement to sequences for every program over any number of lists; Init on a list in use excluded (witness given).

`LinkedList.C41_refines` [PCQ]; `LinkedList.C41_neighbours` [PCQ]; `LinkedList.C41_foreign_no_effect` [PCQ]; `LinkedList.C41_init_stale_element` [P]

**C42 Pool never exceeds capacity or aliases** — proved. Sequential histories of well-behaved users.

`Sak.C42_capacity` [PQ]; `Sak.C42_borrow` [PQ]

**C43 RunStatus halting follows the tree** — proved. Every tree of forks and every history.

`Sak.C43_stopped_iff` [PQ]; `Sak.C43_permanent` [PQ]; `Sak.C43_fork_isolated` [PQ]

**C44 Numeric helpers** — partial. Violated: Abs of the minimum integer. Proved for all other integers; Min/Max/MinN/MaxN proved.

`Sak.C44_violated` [–]; `Sak.C44_abs_partial` [PQ]; `Sak.C44_min_max` [P]; `Sak.C44_minN_maxN` [PQ]

**C45 Integer codec round trips** — proved. All integers of each width; all byte strings.

`Codec.C45_intCodec_roundtrip` [PCQ]; `Codec.C45_intCodec_injective` [PCQ]; `Codec.C45_intCodec_defined_iff` [PQ]; `Codec.C45_bytesCodec_roundtrip` [P]

**C46 LexoInt64Codec round trips** — proved. Round trip, exact error condition, size.

`Codec.C46_lexo_roundtrip` [PQ]; `Codec.C46_lexo_error_iff` [P]; `Codec.C46_lexo_size` [P]

**C47 LexoInt64Codec preserves order** — partial. Violated for mixed signs (witnesses); order proved within one sign.

`Codec.C47_violated` [–]; `Codec.C47_violated_inverted` [–]; `Codec.C47_lexo_order_partial` [PQ]

**C48 Record type survives the trip** — proved. All builder call sequences.

`Record.C48_type_survives` [PCQ]; `Record.C48_headers_exact` [PCQ]; `Record.C48_fields_arrive` [PCQ]; `Record.C48_idempotent` [PCQ]; `Record.C48_setRecordType` [PCQ]

**C49 Recycled records are pristine** — proved. A recycled record equals a fresh one.

`Record.C49_newRecord_pristine` [PQ]

**C50 ToKafkaRecord keeps everything** — partial. Violated: the public ToKafkaRecord drops topic, partition, headers and record type (one witness each); key and value proved to be kept.

`Record.C50_violated` [PCQ]; `Record.C50_violated_components` [PCQ]; `Record.C50_toKafkaRecord_partial` [PCQ]

**C51 Manual partitions are respected** — proved. 

`Record.C51_manual_partition` [PCQ]; `Record.C51_auto_partition` [PCQ]

**C52 Events are routed to exactly one processor** — partial. Registered types go to exactly the first registered codec and processor. Violated: without a default handler an unknown type panics.

`Route.C52_registered` [PCQ]; `Route.C52_exactly_one_partial` [PCQ]; `Route.C52_forwarded_type` [PCQ]; `Route.C52_violated_unknown` [P]; `Route.C52_violated_nil` [PCQ]

**C53 Decode errors follow the configured handler** — partial. Violated: the deserialization handler is selected by testing the transaction handler. Proved when both or none are configured.

`Config.C53_violated_ignored` [–]; `Config.C53_violated_nil` [–]; `Config.C53_violated` [P]; `Config.C53_handlers_partial` [P]

**C54 TopicPartitionSet is an ordered set** — proved. Refinement to finite sets for valid partitions; sharpness of the domain shown.

`TPSet.C54_contains` [PCQ]; `TPSet.C54_items` [PCQ]; `TPSet.C54_results` [PCQ]; `TPSet.C54_domain_sharp` [P]

**C55 Source configuration defaults are coherent** — partial. Violated: min-insync 0 with several replicas and MinInSync unset. Everything else proved.

`Config.C55_replication` [PCQ]; `Config.C55_commitLogPartitions` [PCQ]; `Config.C55_minInSync_lt` [PQ]; `Config.C55_violated` [–]; `Config.C55_minInSync_partial` [PCQ]; `Config.C55_names` [PCQ]; `Config.C55_commitLog_injective` [PCQ]; `Config.C55_changeLog_name_collision` [PCQ]

**C56 EOS configuration validation** — proved. Validation accepts exactly the valid configurations; effective configuration always valid.

`Config.C56_validate_iff` [PCQ]; `Config.C56_effective` [PCQ]

**C57 Creating a source reports mismatching topics** — partial. Violated: non-network errors, including the mismatch, panic. Proved: what success, network errors and incomplete configurations give, for every sequence of broker answers.

`Config.C57_violated` [PCQ]; `Config.C57_other_error_panics` [PCQ]; `Config.C57_createSource_partial` [PCQ]; `Config.C57_commitLog_count_consistent` [PCQ]; `Config.C57_createDestination_always_retries` [PQ]

**C58 Interjections complete** — partial. False under revocation: an interjection that waits in the channel when the partition is revoked is dropped without signalling (two violation theorems, for all continuations). Proved: exactly once without revocation, at most once always.

`Worker.C58_at_most_once` [PCQ]; `Worker.C58_answered_partial` [PCQ]; `Worker.C58_violated` [PCQ]; `Worker.C58_violated_stopped` [PCQ]

**C59 Periodic interjections keep firing** — partial. One activation at a time; keeps firing while calls return Complete; stops after revocation; delay within jitter. Violated: after an asynchronously completed call it is never called again.

`Periodic.C59_delay` [PQ]; `Periodic.C59_delay_reached` [PCQ]; `Periodic.C59_single` [PCQ]; `Periodic.C59_keeps_firing_partial` [PCQ]; `Periodic.C59_violated_async` [PCQ]; `Periodic.C59_stops` [PCQ]; `Periodic.C59_no_leak` [PCQ]

**C60 Any documented balance strategy works** — partial. Violated: without the incremental strategy the first assignment panics. Exact condition proved.

`Config.C60_balancers` [PQ]; `Config.C60_violated` [P]; `Config.C60_assign_partial` [PQ]

**C61 MSK cluster configuration** — partial. Broker list per authentication type, caching and errors proved. Violated: credentials of the provider are dropped (inverted test); the first cluster with the name as a prefix is used.

`Msk.C61_split` [PQ]; `Msk.C61_config` [PQ]; `Msk.C61_cached` [PQ]; `Msk.C61_violated_credentials` [–]; `Msk.C61_violated_prefix` [P]

**C62 Loggers honour the level** — proved. 

`Config.C62_emits_iff` [PQ]; `Config.C62_kgo_level` [PQ]; `Config.C62_init_once` [P]

**C63 Metrics never slow down processing** — partial. Order kept, and EmitMetric waits only for the handler. Violated: a full channel blocks; a send after Stop panics.

`Metrics.C63_fifo` [PCQ]; `Metrics.C63_emit_partial` [PCQ]; `Metrics.C63_send_waits_for_handler_partial` [PCQ]; `Metrics.C63_violated_block` [PQ]; `Metrics.C63_violated_panic` [P]; `Metrics.C63_panic_only_after_stop` [PCQ]

**C64 Stop wakes every waiter** — partial. The stop sequence terminates; exactly one waiter is released per run. Violated: a second waiter stays blocked.

`Shutdown.C64_terminates` [PQ]; `Shutdown.C64_first_waiter_partial` [PCQ]; `Shutdown.C64_count` [PCQ]; `Shutdown.C64_violated` [PQ]; `Shutdown.C64_not_by_itself` [PQ]

**C65 Workers and producer pool never wait for each other** — partial. Without interjections: any state where nothing happens by itself has every arrived event completed and its transaction ended (C65_no_deadlock_partial), and every schedule of internal steps is bounded (C65_terminates_partial, C65_completes_partial). With interjections the claim is false: C65_violated_interjection is a run after which, whatever happens short of a Kafka failure, the event is never completed.

`Live.C65_no_deadlock_partial` [PCQ]; `Live.C65_terminates_partial` [PCQ]; `Live.C65_completes_partial` [PCQ]; `Live.C65_violated_interjection` [PCQ]; `Worker.C65_completions_while_waiting` [PCQ]

**C66 No send on a closed channel at revocation** — partial. False: the check in add and the send are not atomic (C66_violated). Proved for executions without a revocation between the two.

`Worker.C66_violated` [PQ]; `Worker.C66_no_panic_partial` [PCQ]

**C67 A store is not used after Revoked** — partial. Holds for assigned partitions; violated by workers and populate goroutines that are still running when Revoked is called.

`Lifecycle.C67_assigned_partial` [PQ]; `Lifecycle.C67_violated_worker` [P]; `Lifecycle.C67_violated_populate` [P]

**C68 A failing event source stops** — partial. Unhealthy iff an error was answered with something other than Continue; then it stops, the loop ends as asked and commits nothing more. Violated for answers other than the three constants given twice.

`Shutdown.C68_unhealthy` [PCQ]; `Shutdown.C68_failure_stops` [PCQ]; `Shutdown.C68_no_commit_after` [PQ]; `Shutdown.C68_loop_ends` [PQ]; `Shutdown.C68_violated_other` [PQ]

**C69 Interjections over all partitions** — partial. Targets are exactly the owned partitions; each runs or refuses exactly once before the call returns, nothing afterwards; the sequential version is sequential; all calls return if no worker is halted. Violated: a call never returns if its partition is revoked meanwhile; after StopNow the second interjection blocks for ever with workerMux held.

`Props.Interject.C69_targets` [PCQ]; `Props.Interject.C69_returned` [PCQ]; `Props.Interject.C69_at_most_once` [PCQ]; `Props.Interject.C69_sequential` [PCQ]; `Props.Interject.C69_returns_partial` [PCQ]; `Props.Interject.C69_violated_revoked` [PCQ]; `Props.Interject.C69_violated_stopped` [PCQ]

**C70 Partition callbacks tell the truth** — partial. Positional statements for all reachable traces; activation may come before OnPartitionAssigned and after OnPartitionRevoked, handlers may run after OnPartitionRevoked (violated witnesses). Async jobs, interjections and prepping left out.

`Props.Observe.C70_assigned` [PCQ]; `Props.Observe.C70_activated` [PCQ]; `Props.Observe.C70_revoked` [PCQ]; `Props.Observe.C70_paired` [PCQ]; `Props.Observe.C70_stopped_partial` [PCQ]; `Props.Observe.C70_violated_activated_before_assigned` [PQ]; `Props.Observe.C70_violated_activated_after_revoked` [PQ]; `Props.Observe.C70_violated_handler_after_revoked` [PQ]

**C71 No fetching while a store is filled** — partial. After the pause a fetch needs the resume of a synchronised worker of the partition; violated before the pause and by the resume of a stale worker.

`Props.Observe.C71_paused_partial` [PCQ]; `Props.Observe.C71_first_worker_partial` [PCQ]; `Props.Observe.C71_resumes` [PCQ]; `Props.Observe.C71_violated_before_pause` [PQ]; `Props.Observe.C71_violated_stale_resume` [PQ]

**C72 Global change logs replicate the topic** — partial. Prefix, completeness, resume and stop proved; Pause and ResumePartitionAt do not reach records that were already fetched (violated witnesses).

`Props.Global.C72_replica` [PCQ]; `Props.Global.C72_complete` [PCQ]; `Props.Global.C72_resume_partial` [PCQ]; `Props.Global.C72_resume_complete_partial` [PCQ]; `Props.Global.C72_paused_partial` [PCQ]; `Props.Global.C72_stop` [PQ]; `Props.Global.C72_stop_ends` [PQ]; `Props.Global.C72_violated_paused` [P]; `Props.Global.C72_violated_stale` [P]

**C73 Marks for the consumer group** — proved. Marks made by clearState, over the full model of the producer pool; the client keeps the highest marked offset (external, leader epochs left out). An error handler that answers Continue to a failed commit is excluded, as in C02.

`Marks.C73_marked` [PCQ]; `Marks.C73_off` [PCQ]; `Marks.C73_sequence` [PCQ]; `Marks.C73_agrees` [PCQ]; `Marks.C73_resume` [PCQ]

**C74 Topics are created as configured and known as they are** — partial. Creation as configured, existing topics kept and accuracy for instances with the same configuration are proved. Violated: different configurations, refusals, hidden topics, the default number of partitions, DeleteSource, CreateDestination.

`Topics.C74_existing_kept` [PCQ]; `Topics.C74_created` [PCQ]; `Topics.C74_accurate_partial` [PCQ]; `Topics.C74_violated_drift` [PCQ]; `Topics.C74_violated_refused` [PCQ]; `Topics.C74_violated_hidden` [PCQ]; `Topics.C74_violated_default_partitions` [PCQ]; `Topics.C74_requests` [PCQ]; `Topics.C74_delete_partial` [PCQ]; `Topics.C74_delete_others` [PCQ]; `Topics.C74_violated_delete` [PCQ]; `Topics.C74_violated_destination` [–]; `Topics.C74_destination_last_partial` [PQ]

**C75 Record objects are recycled safely** — proved. For applications that keep to the rule of not touching a record after handing it over. The client calls each callback once and Flush waits for the callbacks (external). Contents are one number per object; an error handler that answers Continue to a failed commit is excluded, as in C02.

`Recycle.C75_intact` [PCQ]; `Recycle.C75_calls` [PCQ]; `Recycle.C75_once` [PCQ]; `Recycle.C75_all_released` [PCQ]; `Recycle.C75_new` [PCQ]; `Recycle.C75_mine` [PCQ]; `Recycle.C75_free` [PCQ]; `Recycle.C75_no_leak` [PCQ]

**C76 Exactly-once effects with asynchronous handlers** — proved. Transition system over any number of incarnations on top of the pool of C02-C06; handlers may complete events asynchronously in any order, produce anything, interjections at any time. The error handler does not answer Continue to a failed commit (see C04_continue_skips for what happens otherwise); the client stores every record of a transaction that it commits (see C84); partitions stay assigned until the process dies (hand-over: C07); the contents of stores are in C01, C12, C13.

`Effects.C76_atomic` [PCQ]; `Effects.C76_log` [PCQ]; `Effects.C76_once` [PCQ]; `Effects.C76_none` [PCQ]; `Effects.C76_resume` [PCQ]; `Effects.C76_final` [PCQ]

**C77 Client settings** — partial. Precedence of options, the settings the library relies on, defaults and the missing configuration are proved for all clusters and options. The code violates the claim for the isolation level (not reserved) and for the partitioner of Forward (options never reach the transactional producers): C77_violated_isolation, C77_violated_partitioner; C77_isolation_partial states what remains.

`Clients.C77_unique` [PQ]; `Clients.C77_precedence` [P]; `Clients.C77_defaults` [PQ]; `Clients.C77_error` [P]; `Clients.C77_reserved` [PQ]; `Clients.C77_isolation_partial` [PQ]; `Clients.C77_violated_isolation` [PQ]; `Clients.C77_violated_partitioner` [PQ]

**C78 Event context and change-log entries** — partial. Changes, outputs, identity of contexts, round trip and restoration are proved for all entries, codecs and partitioners. The code violates the claim for items with an empty encoding (tombstones) and for the mock contexts: C78_violated_tombstone, C78_violated_mocks; C78_tombstone_partial and C78_mock_partial state what remains.

`Context.C78_change` [PCQ]; `Context.C78_partition` [PCQ]; `Context.C78_stateless` [P]; `Context.C78_forward` [PQ]; `Context.C78_identity` [PCQ]; `Context.C78_roundtrip` [PCQ]; `Context.C78_restored` [PCQ]; `Context.C78_bad_entry` [PCQ]; `Context.C78_tombstone_partial` [PCQ]; `Context.C78_violated_tombstone` [PCQ]; `Context.C78_violated_mocks` [PCQ]; `Context.C78_mock_interjection_partial` [–]; `Context.C78_mock_partial` [PCQ]

**C79 A graceful leave comes to its end** — partial. Holds from any complete assignment in which those who stay have nothing in motion (C79_ends_partial, C79_one_at_a_time, C79_balanced_partial), and in one round if all members leave (C79_all_leave); violated if a partition is assigned to a member that is still preparing it: the late PartitionPrepared leaves a ready entry that blocks the group for ever (C79_violated_stale, general form C79_stale_stuck).

`Props.Leave.C79_ends_partial` [PCQ]; `Props.Leave.C79_leave_partial` [PCQ]; `Props.Leave.C79_one_at_a_time` [PCQ]; `Props.Leave.C79_balanced_partial` [PCQ]; `Props.Leave.C79_all_leave` [PCQ]; `Props.Leave.C79_stale_stuck` [PCQ]; `Props.Leave.C79_violated_stale` [PCQ]

**C80 The change log has the changes in the order in which the store saw them** — partial. Proved for applications that handle the events of a partition one after the other in the order of arrival (and, weaker, that finish the events of earlier transactions first): the log is a prefix of the changes in the order in which they were made, a restored store is an earlier state of the store, for every store. For all applications: the log has the committed changes, each once, and is in order iff no change of a later transaction was made before one of an earlier one. Violated in general: an interjection of a later transaction can be handled before source records of an earlier one, and finalizers of asynchronous jobs can run late; then the restored store differs from the store.

`Effects.C80_same_changes` [PCQ]; `Effects.C80_in_order_iff` [PCQ]; `Effects.C80_settled_partial` [PCQ]; `Effects.C80_serial_partial` [PCQ]; `Effects.C80_restored_partial` [PCQ]; `Effects.C80_violated_interjection` [PCQ]; `Effects.C80_violated_async` [PCQ]

**C81 The locks of a consumer never block each other for ever** — partial. Proved for callbacks that do not interject: no deadlock, and everything ends in exactly as many steps as are left. Violated for callbacks that call Interject: they run under workerMux, which Interject takes; such a job never ends, in any run. The calls of the Kafka client are taken to come one at a time; the blocking send under workerMux is C69.

`Locks.C81_no_deadlock_partial` [PCQ]; `Locks.C81_ends_partial` [PCQ]; `Locks.C81_violated_callback` [PQ]; `Locks.C81_violated_for_ever` [PQ]

**C82 Stop leaves gracefully if the group uses the incremental protocol** — partial. Proved: closed at most once and before the signal, graceful means that a later incremental round took everything, ends by itself after that, never waits when another protocol is in use, decision right if the coordinator answers with a known protocol. Violated: abrupt leave if the request fails or a rebalance is being prepared; endless wait if the protocol changes after the decision.

`Depart.C82_once` [PCQ]; `Depart.C82_surrendered` [PCQ]; `Depart.C82_ends` [PCQ]; `Depart.C82_decision_partial` [PCQ]; `Depart.C82_never_wait_for_another` [PCQ]; `Depart.C82_violated_abrupt` [PQ]; `Depart.C82_other_rounds` [PQ]; `Depart.C82_violated_changed` [PQ]

**C83 Metrics tell what happened** — partial. Transactions: everything holds (C83_figures_partial, C83_times_partial, C83_arrivals_partial, C83_one_each_partial, C83_none_partial), on top of the model of the pool. Preparations: the counters are exact and the count covers all changes before the marker (C83_counters_partial, C83_prepared_partial), but the bytes of the metric are read later than its count (C83_violated_prepared). Durations: C83_durations_partial for times within 292 years of one another (Go limits differences to an int64; an example shows that this is needed), C83_no_execution_partial without a limit. Records that the client fails to produce are not modelled.

`Meter.C83_figures_partial` [PCQ]; `Meter.C83_times_partial` [PCQ]; `Meter.C83_arrivals_partial` [PCQ]; `Meter.C83_one_each_partial` [PCQ]; `Meter.C83_none_partial` [PCQ]; `Meter.C83_size` [PQ]; `Meter.C83_counters_partial` [PCQ]; `Meter.C83_prepared_partial` [PCQ]; `Meter.C83_violated_prepared` [PCQ]; `Meter.C83_durations_partial` [PQ]; `Meter.C83_no_execution_partial` [PQ]

**C84 A transaction is committed only with all its records** — partial. Violated: a transaction with a failed record is committed (C84_violated_committed, C84_violated_waiting). Proved: transactions without failed records are seen completely and in order, exactly the failed records are missing from the others, no error is lost below 1024, and no transaction ends after an answer other than Continue. External: the client ends every record once, Flush waits for that, EndTransaction commits what was stored.

`Loss.C84_complete_partial` [PCQ]; `Loss.C84_missing_partial` [PCQ]; `Loss.C84_errors_partial` [PCQ]; `Loss.C84_answer_partial` [PCQ]; `Loss.C84_violated_committed` [PCQ]; `Loss.C84_violated_waiting` [PCQ]

**C85 A value that cannot be encoded never passes for a deletion** — partial. Violated: the two JSON functions ignore encoding errors, and an empty value buffer is a tombstone; shown for every item that cannot be encoded, up to the rebuilt store. Proved: successful non-empty encodings round trip, CreateChangeLogEntry tells every error, SimpleStore panics.

`Encode.C85_encoded_partial` [PCQ]; `Encode.C85_roundtrip_partial` [PCQ]; `Encode.C85_told_partial` [P]; `Encode.C85_store_panics_partial` [P]; `Encode.C85_violated_record` [PCQ]; `Encode.C85_violated_entry` [PCQ]; `Encode.C85_violated_empty` [PCQ]

**C86 Comparison, hash and number helpers** — partial. Violated by NaN (C86_violated_nan, C86_violated_min). Proved for all strings, all integers of every width and all floating-point numbers without NaN, on bit patterns of any IEEE 754 format; Abs for all of them.

`Helpers.C86_integers` [PCQ]; `Helpers.C86_floats_partial` [PCQ]; `Helpers.C86_strings` [PCQ]; `Helpers.C86_min_max_partial` [PCQ]; `Helpers.C86_abs` [PCQ]; `Helpers.C86_violated_nan` [P]; `Helpers.C86_violated_min` [P]

**C87 Slice, pointer and map helpers** — proved. Fresh distinct pointers, independence of writes, inverse, map helpers for every iteration order.

`Helpers.C87_pointers` [PCQ]; `Helpers.C87_structs` [PQ]; `Helpers.C87_maps` [PQ]; `Helpers.C87_rest` [PQ]

**C88 Partition workers and an AsyncJobScheduler never wait for each other** — partial. Proved while MaxBatchSize*PoolSize is at most the capacity of asyncJobs plus one, that is at most 401; false for every larger configuration, including the default (C88_violated, C88_violated_default; C88_exact_sizes and C88_exact_numbers give the exact bound): a worker blocked in Schedule and a goroutine blocked in AsyncJobComplete wait for each other until the scheduler is closed. Lost heads (C19) and lowered limits (C20) are excluded by hypotheses.

`Backlog.C88_post_never_blocks_partial` [PCQ]; `Backlog.C88_all_completed_partial` [PCQ]; `Backlog.C88_every_schedule_ends_partial` [PCQ]; `Backlog.C88_few_slots` [PCQ]; `Backlog.C88_violated` [PCQ]; `Backlog.C88_exact_sizes` [PCQ]; `Backlog.C88_exact_numbers` [PCQ]; `Backlog.C88_violated_default` [PCQ]

**C89 Workers and a BatchProducer never wait for each other for ever** — partial. Every schedule ends and nothing is completed twice, for all sizes; everything is completed at rest iff MaxBatchSize*PoolSize is at most the capacity of asyncJobs plus one (C89_exact_sizes). False for larger sizes including the default (C89_violated, C89_violated_default).

`Promise.C89_post_never_blocks_partial` [PCQ]; `Promise.C89_every_schedule_ends` [PCQ]; `Promise.C89_all_completed_partial` [PCQ]; `Promise.C89_completed_once` [PCQ]; `Promise.C89_violated` [PCQ]; `Promise.C89_violated_default` [PCQ]; `Promise.C89_comes_to_rest` [PCQ]; `Promise.C89_exact_sizes` [PCQ]; `Promise.C89_exact_numbers` [PCQ]

**C90 Workers and an AsyncBatcher never wait for each other for ever** — proved. Handlers never wait, every schedule ends, at rest everything is completed exactly once, for all sizes with at least one item per batch and one executor.

`Gather.C90_add_never_blocks` [P]; `Gather.C90_full_channel_moves` [PCQ]; `Gather.C90_every_schedule_ends` [PCQ]; `Gather.C90_all_completed` [PCQ]; `Gather.C90_completed_once` [PCQ]

**C91 The simple Producer tells every caller the outcome of its own record and leaves nobody waiting** — partial. Topics, outcomes, callbacks and termination proved for all schedules; everything is served if no callback calls the producer. Violated for callbacks that call Produce, or ProduceAsync with a full client: the client stops for ever (C91_violated_nested, C91_violated_full; C91_at_rest: these are the only cases).

`Simple.C91_topic` [PCQ]; `Simple.C91_returns_own_outcome` [PCQ]; `Simple.C91_callback_once` [PCQ]; `Simple.C91_every_schedule_ends` [PCQ]; `Simple.C91_at_rest` [PCQ]; `Simple.C91_all_served_partial` [PCQ]; `Simple.C91_violated_nested` [PCQ]; `Simple.C91_violated_full` [PCQ]

**C92 No data races on shared fields** — partial. Race freedom is proved for all executions with any number of goroutines for every modelled field except five: buffer and the counters of a change-log partition, highestOffset, produceCnt, workerChannel; for each of these a reachable race is proved (C92_violated_...). Fields handed over through channels are not modelled.

`Races.C92_no_race_partial` [PCQ]; `Races.C92_all_released` [PCQ]; `Races.C92_locks_exclude` [PCQ]; `Races.C92_violated_buffer` [P]; `Races.C92_violated_buffer_writes` [P]; `Races.C92_violated_counts` [P]; `Races.C92_violated_highestOffset` [P]; `Races.C92_violated_produceCnt` [PQ]; `Races.C92_violated_channel` [P]

**C93 A group of consumers skips nothing** — proved. Any number of consumers with their own pools, partitions moving in any way: nothing below an offset record is uncommitted, nothing uncommitted is out of reach of the consumer that has the partition, commits stay. No conditions.

`Fleet.C93_not_skipped` [PCQ]; `Fleet.C93_covered` [PCQ]; `Fleet.C93_atomic` [PCQ]; `Fleet.C93_kept` [PCQ]

**C94 A group of consumers handles every record exactly once** — partial. Proved for all runs in which a worker starts only when no living consumer has a worker or uncommitted records of the partition, at the newest offset record. Violated without it (C94_violated, C94_violated_back): revocation does not wait for open transactions.

`Fleet.C94_once_partial` [PCQ]; `Fleet.C94_none_partial` [PCQ]; `Fleet.C94_resume_partial` [PCQ]; `Fleet.C94_final_partial` [PCQ]; `Fleet.C94_violated` [PCQ]; `Fleet.C94_violated_back` [PCQ]

**C95 Closing a job scheduler releases everybody** — partial. No start after closing is proved without conditions; the rest for limits that are never lowered: all goroutines get out except callers in waitForWorker, and with one calling goroutine all get out. Violated for two waiting callers, in every configuration (C95_two_waiting, C95_violated).

`Scheduler.C95_rest_partial` [PCQ]; `Scheduler.C95_single_partial` [PCQ]; `Scheduler.C95_no_start` [PQ]; `Scheduler.C95_worker_ends_partial` [PCQ]; `Scheduler.C95_two_waiting` [PCQ]; `Scheduler.C95_violated` [PQ]

**C96 The parts fit together** — proved. Composite of the models of workers, pool and group; refinement to each of them and the invariant that ties them together. Simplifications: those of the parts; the assignment of a partition that already has a worker is left out (see C12); the calls of Done at the end of a transaction happen together with its end.

`Whole.C96_refines` [PCQ]; `Whole.C96_handled` [PCQ]; `Whole.C96_completes` [PCQ]; `Whole.C96_forwards` [PCQ]; `Whole.C96_done` [PCQ]; `Whole.C96_waiter` [PCQ]

**C97 A worker that has ended leaves nothing open** — partial. Violated when a partition returns to the same consumer while the transaction with events of its former worker is open (C97_violated). Proved: every event of an ended worker is completed and passed; transactions that it has alone have ended; with orderly hand-overs everything of it is committed, and every source record is committed exactly once.

`Whole.C97_completed_partial` [PCQ]; `Whole.C97_committed_partial` [PCQ]; `Whole.C97_orderly_partial` [PCQ]; `Whole.C97_once_partial` [PCQ]; `Whole.C97_violated` [PCQ]

**C98 A consumer that is left alone comes to rest with everything done** — proved. C98_ends bounds the own steps of a consumer from every reachable state; C98_rest shows that a state without own steps has everything completed, committed, and revoked workers ended; C98_completes and C98_reaches combine them. Interjections are excluded in the statement (C65_violated_interjection).

`Whole.C98_ends` [PCQ]; `Whole.C98_rest` [PCQ]; `Whole.C98_completes` [PCQ]; `Whole.C98_reaches` [PCQ]

**C99 An open transaction does not wait longer than BatchDelay** — partial. The timer is modelled together with the pool (area Delay), the deadlines of transactions and the commit loop in area Deadline. C99_timer_set and C99_no_panic hold in all executions; C99_attempts bounds the time between attempts, C99_age_partial the age of a transaction if the queue has room (missing to the claim: executions in which the queue is full); for these C99_violated_full_queue shows 28 seconds with a BatchDelay of 10 ms, and C99_age_full_queue proves 2 BatchDelay + 29 s. C99_idle bounds the wake-ups of an idle pool, C99_same_pool relates the clocked pool to the one of C02-C06.

`Props.Delay.C99_no_panic` [PCQ]; `Props.Delay.C99_timer_set` [PCQ]; `Props.Delay.C99_attempts` [PCQ]; `Props.Delay.C99_age_partial` [PCQ]; `Props.Delay.C99_attempt_succeeds` [PCQ]; `Props.Delay.C99_idle` [PCQ]; `Props.Delay.C99_same_pool` [PCQ]; `Props.Delay.C99_age_full_queue` [PCQ]; `Props.Delay.C99_commit_loop` [PCQ]; `Props.Delay.C99_violated_full_queue` [PCQ]

**C100 The batcher keeps its delays** — partial. Proved for all timed interleavings: an open batch is executed within delay + 2L of its first item, a pending item with p before it gets in within (p+1)E, an item added with p pending is completed within delay + 2L + (p+2)E (all three bounds are attained in the examples), the clock adds no behaviour, and the value of the delay. The other direction (not before the delay has elapsed) is violated: a timer function that was stopped too late executes the following batch at its first item (C100_violated_early); C100_not_early_partial shows that this is the only way.

`Props.Flush.C100_batch_in_time` [PCQ]; `Props.Flush.C100_pending_in_time` [PCQ]; `Props.Flush.C100_item_in_time` [PCQ]; `Props.Flush.C100_not_early_partial` [PCQ]; `Props.Flush.C100_not_early_clean` [PCQ]; `Props.Flush.C100_same_batcher` [PQ]; `Props.Flush.C100_delay` [PQ]; `Props.Flush.C100_violated_early` [PCQ]

**C101 Periodic interjections keep to their interval** — partial. Calls do not overlap, are spaced by at least the interval less the jitter (counted from the end of a call), the rate is bounded, and with bounded latencies the next call comes in time, for all draws and interleavings. Violated as documented: the interval counts from the end of a call, so consecutive calls can begin further apart than the interval plus the jitter even without any latency (C101_violated_interval).

`Cadence.C101_not_early` [PCQ]; `Cadence.C101_rate` [PCQ]; `Cadence.C101_not_late` [PCQ]; `Cadence.C101_comes` [PCQ]; `Cadence.C101_violated_interval` [PQ]

**C102 A partition that was fetched to its end is handled to its end** — proved. At rest, with the partition fetched to its end, every source record was handled and committed (all histories); exactly once with orderly hand-overs; and every schedule comes to rest. The conditions (no interjections in the consumer, commits do not fail, handlers complete) are those of C98; orderly hand-over is that of C97.

`Whole.C102_rest` [PCQ]; `Whole.C102_once` [PCQ]; `Whole.C102_completes` [PCQ]

**C103 A closed transaction is committed in bounded time** — partial. A transaction in the commit queue is taken in turn, within (place + 1) transaction timeouts, and over within (place + 2), for all executions in which the loops are not late by more than L, whatever the application does. Violated: its own limit of 29 seconds runs while it waits for earlier ones, which may have got their limit later; a transaction whose events were complete at once is taken after its limit.

`Props.Queue.C103_taken` [PCQ]; `Props.Queue.C103_over` [PCQ]; `Props.Queue.C103_violated_limit` [PCQ]

**C104 Every event is committed in bounded time, or the consumer fails** — proved. For every accepted configuration and every execution in which nobody in the pool is late by more than L, an event is in a transaction that has ended with success, or the commit loop has given up, within 2 BatchDelay + (PendingTxnCount + 3) * 29 s and some L after it came. Executions in which the error handler answers Continue to a failed commit are left out (documented to lose data).

`Props.Latency.C104_decided` [PCQ]; `Props.Latency.C104_default` [PCQ]; `Props.Latency.C104_same` [PCQ]

**C105 The fields of a producer node are handed over with the node** — proved. Assumes that no event produces a record after it was completed and that Flush of the Kafka client returns without error only after all callbacks have returned. The race of produceCnt between forwarder and events is the one of C92.

`Nodes.C105_only_race` [PCQ]; `Nodes.C105_one_place` [PCQ]; `Nodes.C105_quiet` [PCQ]

**C106 The pointers of the producer pool are what they stand for** — proved. Step-for-step equivalence of the pool with pointers and the pool with lists, for every sequence of labels; chains, memory and ring as separate theorems. Event contexts are new objects when they are given to the pool (each is made for one event and sent once); an example shows that this is needed.

`Chain.C106_same_runs` [PCQ]; `Chain.C106_chains` [PCQ]; `Chain.C106_empty` [PCQ]; `Chain.C106_bounded_memory` [PCQ]; `Chain.C106_ring` [PCQ]

**C107 Starting an event source uses no pointer before it is set, gives every worker its interjections, and leaves nothing behind when it fails** — partial. Violated: an assignment before NewEventSource has returned panics (C107_violated_stores, C107_violated_consumer); a partition assigned before ScheduleInterjection never has the interjection (C107_violated_interjection); a failed NewClient leaves the pool and the state store consumer running (C107_violated_leak). Proved: no panic when no partition is assigned before the return; exactly which dereferences can fail; what is set after the return; workers made after ConsumeEvents have all interjections. That the client joins when it is made is a fact about franz-go.

`Boot.C107_no_crash_partial` [PCQ]; `Boot.C107_sites` [PCQ]; `Boot.C107_complete` [PCQ]; `Boot.C107_violated_stores` [PCQ]; `Boot.C107_violated_consumer` [PCQ]; `Boot.C107_interjections` [PCQ]; `Boot.C107_all_interjections_partial` [PQ]; `Boot.C107_violated_interjection` [PQ]; `Boot.C107_violated_leak` [PCQ]; `Boot.C107_source_failed` [PQ]

**C108 A partition is taken up exactly where it was left, however much of the commit log has been read** — partial. Violated: with the option to start at the end, a partition assigned before the commit log was read loses the records since the watermark (C108_violated_end); the whole partition may be fetched again (C108_violated_reread, for every length); a partition that was with a traditional consumer in between has its records handled twice (C108_violated_mixed). Proved for all other executions: no gap and no repetition, completeness of a worker that was given everything, positions never beyond the watermark, exact positions once the commit log was read. One owner at a time, as C93 and C94 treat the others.

`Resume.C108_in_order_partial` [PCQ]; `Resume.C108_all_partial` [PCQ]; `Resume.C108_end_partial` [PCQ]; `Resume.C108_start` [PCQ]; `Resume.C108_resume_partial` [PCQ]; `Resume.C108_never_again` [PCQ]; `Resume.C108_violated_end` [PCQ]; `Resume.C108_violated_reread` [PCQ]; `Resume.C108_violated_mixed` [PQ]

**C109 A group of consumers computes what one process would compute** — partial. Proved for every execution with hand-overs in order: visible records, stores at every handler call, restored stores and the records of each source record are those of the sequential run; groups that have come equally far show the same. Missing: the condition on hand-overs (C109_violated shows a run without it), asynchronous handlers and interjections (C80 shows why not).

`Replica.C109_sequential_partial` [PCQ]; `Replica.C109_store_partial` [PCQ]; `Replica.C109_restored_partial` [PCQ]; `Replica.C109_record_partial` [PCQ]; `Replica.C109_same_partial` [PCQ]; `Replica.C109_complete_partial` [PCQ]; `Replica.C109_violated` [PCQ]

**C110 No state of the group is beyond recovery** — partial. Proved from every state reached with hand-overs in order: the visible records are a prefix of the sequential result, only grow, and a new consumer can complete them. This is possibility, not fairness: nothing is said about when. Missing: the condition on hand-overs (C110_violated: a state from which no continuation gives the result), handlers that fail or never return (C57, C74), asynchronous handlers and interjections.

`Replica.C110_recovers_partial` [PCQ]; `Replica.C110_grows_partial` [PCQ]; `Replica.C110_violated` [PCQ]

**C111 Event contexts are handed on without data races** — partial. Proved for all executions: accesses that conflict are ordered by channels, except for reads of the producer by the commit loop; without time-outs of transactions there is no exception. Violated otherwise: C111_violated, and C111_only_the_text shows that it is the only kind. Left out: values of fields, the records and stores that contexts point to (C92, C105), synchronisation by locks (not needed).

`Props.Shared.C111_race_free_partial` [PCQ]; `Props.Shared.C111_prompt_race_free` [PCQ]; `Props.Shared.C111_only_the_text` [PCQ]; `Props.Shared.C111_orderly` [PQ]; `Props.Shared.C111_violated` [PQ]

**C112 Keyed asynchronous processing computes for every key what sequential processing computes** — partial. Proved for all executions in which no handler schedules on a scheduler that has ended: visible records and store of every key are those of sequential processing, all records of a key being scheduled or none (C112_needs_uniform shows that this is needed; the documentation demands it). Violated otherwise: C112_violated_stop. Left out: revocation, interjections, and the limits that only delay (C88).

`Props.Keyed.C112_visible_partial` [PCQ]; `Props.Keyed.C112_store_partial` [PCQ]; `Props.Keyed.C112_store_completed_partial` [PCQ]; `Props.Keyed.C112_same_with_and_without_partial` [PCQ]; `Props.Keyed.C112_can_be_completed_partial` [PCQ]; `Props.Keyed.C112_violated_stop` [PQ]; `Props.Keyed.C112_needs_uniform` [PQ]

**C113 Chained asynchronous stages keep the order of every key and compute what sequential processing computes** — partial. Proved for all executions in which no handler or finalizer schedules on a scheduler that has ended: order of every key at every stage, all stages passed before a commit, and (store used at one place of the chain, as the documentation demands; C113_needs_one_place shows that this is needed) equality with sequential processing. Violated otherwise: C113_violated_stop. Left out: revocation, interjections, and the limits that only delay (C88).

`Props.Stages.C113_in_sequence_partial` [PCQ]; `Props.Stages.C113_all_places_partial` [PCQ]; `Props.Stages.C113_visible_partial` [PCQ]; `Props.Stages.C113_store_partial` [PCQ]; `Props.Stages.C113_can_be_completed_partial` [PCQ]; `Props.Stages.C113_violated_stop` [PQ]; `Props.Stages.C113_needs_one_place` [PQ]

**C114 Processing through a batcher computes for every key what sequential processing computes** — partial. Proved for all executions: order and completeness of the execution of items (C114_items_in_order, C114_executed), without restriction. Equality with sequential processing, the state of the store, and that the result can be completed are proved when no record with items follows one without items of the same key; violated otherwise: C114_violated_empty. Left out: AddWithKey with other keys than that of the batch, revocation, interjections, and the limits that only delay.

`Props.Batches.C114_visible_partial` [PCQ]; `Props.Batches.C114_store_partial` [PCQ]; `Props.Batches.C114_store_completed_partial` [PCQ]; `Props.Batches.C114_items_in_order` [PCQ]; `Props.Batches.C114_executed` [PCQ]; `Props.Batches.C114_can_be_completed_partial` [PCQ]; `Props.Batches.C114_violated_empty` [PQ]

**C115 State stores need no locks: all that is done with a store is ordered** — partial. Proved for all executions: the making of a store happens before everything else (C115_made_first), and the traces obey the order of sending and receiving (C115_orderly). Proved for all calm executions: all accesses but Revoked are ordered, every race is one with Revoked, stores are filled before they are used, and no two goroutines are about to use one store. Violated by Revoked and in executions that are not calm: C115_violated_worker, C115_violated_populate, C115_violated_forgotten, C115_violated_early, C115_violated_refilled; C115_needs_no_worker shows that the remaining condition of calm is needed. Left out: asynchronous jobs that keep an event context after their completion, and interjections (they run in the worker).

`Props.Confine.C115_made_first` [PCQ]; `Props.Confine.C115_in_order_partial` [PCQ]; `Props.Confine.C115_races_are_revoked` [PCQ]; `Props.Confine.C115_race_free` [PCQ]; `Props.Confine.C115_filled_first` [PCQ]; `Props.Confine.C115_alone` [PCQ]; `Props.Confine.C115_orderly` [PCQ]; `Props.Confine.C115_violated_worker` [PQ]; `Props.Confine.C115_violated_populate` [PQ]; `Props.Confine.C115_violated_forgotten` [PQ]; `Props.Confine.C115_violated_early` [PQ]; `Props.Confine.C115_violated_refilled` [PQ]; `Props.Confine.C115_needs_no_worker` [PQ]

**C116 The documented retrying of failed writes loses none and keeps their order** — partial. Proved for all executions: each write is at exactly one place (C116_none_lost), none is made twice (C116_written_once), only a write that failed before can come after a newer one of its key (C116_order_partial, C116_order_without_failures), and before the first retry everything can still be written (C116_recovers_partial). Violated: after the first retry the interjector is never called again (C116_once, C116_violated_once); a retried write can follow a newer one (C116_violated_order). Left out: crashes, and the recording of changes, which the examples show only in part.

`Props.Retry.C116_none_lost` [PCQ]; `Props.Retry.C116_written_once` [PCQ]; `Props.Retry.C116_order_partial` [PCQ]; `Props.Retry.C116_order_without_failures` [PCQ]; `Props.Retry.C116_recovers_partial` [PCQ]; `Props.Retry.C116_once` [PCQ]; `Props.Retry.C116_violated_once` [PCQ]; `Props.Retry.C116_violated_order` [PQ]

**C117 The documented migration from a database computes what sequential processing computes** — partial. Proved for all executions of applications that do not delete: Example 3 with crashes at any moment (C117_single_partial), Example 4 unless the process ends between the first write of a key to the database and its commit (C117_careful_partial, C117_store); store and database without crashes (C117_both). Violated: C117_violated_crash, C117_violated_deleted. Left out: errors of the reads and writes, which the examples ignore; schedulers that are stopped (C112, C113).

`Props.Migrate.C117_single_partial` [PCQ]; `Props.Migrate.C117_careful_partial` [PCQ]; `Props.Migrate.C117_store` [PCQ]; `Props.Migrate.C117_both` [PCQ]; `Props.Migrate.C117_violated_crash` [–]; `Props.Migrate.C117_violated_deleted` [P]

**C118 Batch items are handed on without data races** — proved. For all executions: no data race (C118_race_free); executor lists, result fields and locked fields are with one goroutine at a time (C118_in_order); the order used is that of the messages really sent (C118_orderly). The condition that batches are not added to after they were given is needed: C118_condition_needed. What is under the lock is one step; limits and keys are left out, so that more moves are allowed than in the code.

`Props.Items.C118_race_free` [PCQ]; `Props.Items.C118_in_order` [PCQ]; `Props.Items.C118_orderly` [PCQ]; `Props.Items.C118_condition_needed` [PQ]

**C119 All work for a key of a scheduler is ordered, without locks of the application** — proved. For all executions: accesses to the memory of a key, to a job, to a queue and to the fields of the scheduler are ordered (C119_in_order), so there is no data race (C119_race_free); at most one job of a key is being processed (C119_alone); the order used is that of the messages really sent (C119_orderly). That finalizers are not part of the single writer: C119_condition_needed. What is under mux, or under headLock alone, is one step; limits are left out, so that more is allowed than in the code.

`Props.Serial.C119_in_order` [PCQ]; `Props.Serial.C119_race_free` [PCQ]; `Props.Serial.C119_orderly` [PCQ]; `Props.Serial.C119_alone` [PCQ]; `Props.Serial.C119_condition_needed` [PQ]

**C120 Objects of records are handed on and used again without data races** — proved. For all executions: accesses to an object and to the free list are ordered (C120_in_order), so there is no data race (C120_race_free); the order used is that of the messages really sent (C120_orderly). The rule that applications do not use records they handed over is needed: C120_condition_needed. Assumed: the client orders the hand-over of a record before its callback and does not touch the record afterwards; each buffered record is handed to it once (C75); the records of a batch are different objects.

`Props.Loan.C120_in_order` [PCQ]; `Props.Loan.C120_race_free` [PCQ]; `Props.Loan.C120_orderly` [PCQ]; `Props.Loan.C120_condition_needed` [PQ]

## 6. Where the code and the properties disagree

Each item is proved by a `…_violated…` theorem (or another named one), unless it says "observation".

* **Rebalancer** (`group_state.go`, `incr_rebalancer.go`). Members that leave (`Defunct`) are counted as
  active (C29, C32). The `Forget` loop starts goroutines that capture the loop variable (`incr_rebalancer.go:413-416`, go 1.19),
  so the wrong partitions are forgotten (C35). Observations: the budget is per topic; the interests of members are ignored;
  without an active member the plan is empty; `PartitionPreparationFailed` is never called.
* **Topics and configuration** (`topics.go`, `source.go`). `isNetworkError` dereferences a nil pointer for errors that are
  not network errors (C57). `CreateDestination` always makes 15 attempts. `deserializationErrorHandler` tests the wrong field
  (`source.go:151`, C53). Minimum in-sync replicas of 0 (C55).
* **Event routing** (`event_source.go`). A processor that returns an unknown state falls through to the default one; a decode error
  that is not answered by `Continue` leaves the event incomplete for ever (observation); a nil default processor panics (C52).
* **Stopping** (`event_source.go`). `done` has room for one token: only one of several waiters is woken (C64). The metrics channel is
  closed on stop while senders are alive: their sends panic (C63). An answer of the error handler that is none of the three
  constants blocks `commitLoop` the second time (C68).
* **Interjections** (`interjection.go`, `partition_worker.go`). `processAsyncJob` never calls `tick`: after an asynchronous call a
  periodic interjection never fires again (C59). Interjections of a revoked partition are never answered on some paths (C58).
* **Hand-over** (`source_consumer.go`, `partition_worker.go`). A revocation only halts the run status; nothing waits for pending transactions,
  and transactional ids are random (`eos_producer.go:276`), so nothing fences the old owner. Events are processed twice and
  the watermark can go back (C07).
* **Asynchronous scheduler** (`async_scheduler.go`). A job put into a full queue that was drained meanwhile stays there, and its worker goroutine loops
  without doing anything until another job of the key arrives (C19: `peek` does not backfill); lowering the limit and raising it again leaves workers in a closed channel (C20); raising the
  limit does not wake waiting callers; the one-token signal collapses two releases; limit 0 waits for ever.
* **Partition worker** (`partition_worker.go`). An event still queued when its worker stops never gives back its slot (C09).
* **Commit log** (`commit_log.go:91`). Watermarks are kept per partition number only: two source topics in one commit log overwrite each other (C10_two_topics_violated).
* **Records** (`record.go`). `ToKafkaRecord` drops topic, partition, headers and record type (C50).
* **Producer pool** (`eos_producer.go`). `shouldForceFlush` compares with `==` and can step over the limit (C06); `Continue` after a failed commit loses
  the node and its events (C04_continue_skips); with interjections, the pool may wait until the 30 s transaction timeout (C65).
* **Consumer** (`source_consumer.go`). `PrepareTopicPartition` does not look at the active workers and `revokePartitions` does not clear
  the prepared ones, so a partition can have two stores (C14); the store gets events and changes after `Revoked` (C67); a record can be
  sent on a closed channel (C66); `incrBalancer` may be nil (`source_consumer.go:220`, C60).
* **State stores** (`state_store_consumer.go`, `simple_store.go`). Synchronisation: see the C12/C15 `violated` theorems (`Props/Sync.lean`). `SimpleStore.ReceiveChange` applies
  a change only if decoding *failed* (C13). Observation: the error of `sendMarkerMessage` is ignored, `sync` then waits for ever.
* **Batcher and producer** (`async_batcher.go`, `producer.go`). C26, and C27 for an empty list or a nil callback, which never complete.
* **Utilities**. `Abs` of the minimum (C44); `lexoInt64Codec` does not sort negative numbers (C47); `Init` of a list leaves stale elements
  (`C41_init_stale_element`); `topicPartitionLess` overflows for extreme partitions (C54); the heap's `Update`/`Remove` (C37, C38).
* **MSK** (`cluster.go:171`). The error test of `saslIamAuth` is inverted; the first cluster whose name has the wanted prefix is taken (C61).
* **Interjections over all partitions** (`source_consumer.go:289-348`). A one-off interjection that is dropped because its partition was revoked never closes its
  channel, because `interject` never sets `callback`: `InterjectAll` does not return (C69_violated_revoked). After `StopNow` the second interjection blocks in the send of line 302 while it
  holds `workerMux`; the revocation in `client.Close` then waits for ever, and with it `StopNow` (C69_violated_stopped).
* **Partition callbacks** (`source.go:86-97`, `source_consumer.go:190-242`, `partition_worker.go:206-233`). `OnPartitionActivated` can come before
  `OnPartitionAssigned` and, when the revocation meets a worker that is still filling its store, after `OnPartitionRevoked`. `OnPartitionRevoked` is called without
  waiting for the worker: a handler may be running, and further events that already had a producer are handled afterwards (C70_violated_…).
* **Pausing** (`partition_worker.go:212-224`). The partition is paused by the goroutine of the worker, so records may be fetched before; and a stale worker resumes a
  partition that its successor has paused (C71_violated_…). The records then wait in `partitionInput` and can block the poll loop.
* **Global change log** (`global_change_log.go:81-129`). `Pause` and `ResumePartitionAt` act on the client only: records of the partition that the current poll has
  returned are still forwarded, also after the offset was set (C72_violated_paused, C72_violated_stale).
* **Topic creation** (`topics.go:129-133,229-282`). Refusals of a single topic are in the response of `CreateTopics`, which is only logged. So a source is returned
  although its topic was not created, or with the configured number of partitions although another instance created the topic with another number
  (C74_violated_refused, C74_violated_drift, C74_violated_hidden, C74_violated_default_partitions).
* **CreateDestination** (`topics.go:147-158`) passes no topic name: nothing is ever created (C74_violated_destination). **DeleteSource** (`topics.go:299-303`) returns
  nil although nothing was deleted (C74_violated_delete).
* **Options given to `NewEventSource`** (`event_source.go:61-72`) reach only the consumer: the transactional producers are made without them (`eos_producer.go:272-278`), so the
  documented way to set the partitioner for `Forward` has no effect (C77_violated_partitioner).
* **The isolation level is not reserved** (`topics.go:93,114-128`): a cluster configuration that sets it makes the readers of commit log and change log read uncommitted
  records (C77_violated_isolation).
* **Items with an empty encoding** become tombstones in the change log (`record.go:418-425,237-256`) (C78_violated_tombstone).
* **Mock contexts**: the input of `MockEventContext` has neither topic, partition nor headers, and `MockInterjectionEventContext` drops its context
  (`event_context.go:62-101`) (C78_violated_mocks).
* **A partition that is ready and owned at the same time blocks the group** (`source_consumer.go:147-158`, `incr_rebalancer.go:295-301,320-335`): if the owner crashes
  while a member prepares the partition, the next round gives the orphan to that member and removes it from `preparing`; when the preparation ends, `PartitionPrepared`
  inserts it into `ready` unconditionally, and nothing takes it out again as long as the member keeps the partition. The member then counts as receiving for ever, so no
  further move is planned: members that leave gracefully wait for ever, new members never get a partition (C79_violated_stale, C79_stale_stuck, C31_violated_stale).
* **A restored store can differ from the store** (`partition_worker.go:65-67,193-204,233-253`, `eos_producer.go:450-470,494-512`): the change log has the changes transaction
  by transaction, the store gets them when the handlers run. Interjections have a channel of their own, so an interjection of a later transaction can be handled before
  source records of an earlier one that wait in `eventInput`; the finalizer of an asynchronous job can run after the handler of an event of a later transaction. If both
  change the same entry, the value that survives a restart or rebalance is not the one that the store had (C80_violated_interjection, C80_violated_async).
- **C81 (callbacks that interject).** `OnPartitionAssigned`, `OnPartitionWillRevoke`, `OnPartitionRevoked` and the method `Revoked` of a store are called with `workerMux` locked
  (`streams/source_consumer.go:190-242`), and `Interject`, `InterjectAll`, `InterjectAllSync` begin by locking it (`streams/source_consumer.go:289-291,318-320,334-336`). A
  callback that interjects, e.g. `OnPartitionWillRevoke` to have a last look at the store, never returns; the group goroutine of the Kafka client and the poll loop stop for
  ever (C81_violated_callback, C81_violated_for_ever). The comments on the callbacks do not forbid it (`streams/source.go:86-97`).
- **C82 (abrupt leave, endless wait).** With more than one balance strategy `Stop` asks the coordinator for the protocol. If the request fails, or if a rebalance is being
  prepared, the member leaves abruptly although the group uses the incremental protocol (`streams/source_consumer.go:353-376`, the comment there says so for the second case;
  the documentation of `Stop` does not, `streams/event_source.go:254-256`): C82_violated_abrupt. If the group changes its protocol after the decision, nobody closes the
  channel, because `ParseSyncAssignment` of the rebalancer is not called any more; the member waits for ever and so does `<-Done()`: C82_violated_changed.
- **C83 (metric of a preparation).** The goroutine of `PrepareTopicPartition` reads the count right after the synchronisation and the bytes only when it builds the metric, after
  the rebalancer has been told (`streams/source_consumer.go:153,167`), while changes keep arriving: count and bytes of one metric are about different sets of records
  (C83_violated_prepared).
- **C84 (records that cannot be produced).** `commit` calls `Flush`, which waits for the records but says nothing of their outcome, and then commits
  (`streams/eos_producer.go:376-385`). The callback of a failed record only offers its error to `errorChannel` (524-530), which the commit loop reads between
  transactions, in a `select` that may prefer the next transaction (210-214). So a transaction is committed with the offset of an event and without its record
  (C84_violated_committed), even when the error was known before the commit began (C84_violated_waiting); the default answer `FailConsumer` comes after the commit, and the restarted
  process goes on behind the event. The same holds for change-log records. The guarantees of C01, C02 and C76 are about records that the client accepts and stores.
* **C85** `JsonItemEncoder` and `EncodeJsonChangeLogEntryValue` ignore the error of the codec (`streams/codec.go:55`, `67`). The value buffer stays empty, and `toKafkaRecord` leaves the
  value of an empty buffer nil (`streams/record.go:241-246`): the record deletes the key (C85_violated_record), and the entry deletes the item when a store is rebuilt (C85_violated_entry).
  `CreateChangeLogEntry` returns the error, and `SimpleStore` panics; but an item whose encoding is empty, such as the empty string with the string codec, is a deletion for all of them (C85_violated_empty).
* **C86** `NumberLess` is offered for all number types (`streams/stores/sharded_tree.go:41`). On floating-point numbers NaN is equal to every key: inserting it replaces another key of the tree, and lookups of other
  keys find it (C86_violated_nan). `Min` and `Max`, described as generic versions of `math.Min` and `math.Max`, depend on the order of their arguments if one is NaN (C86_violated_min).
* **C88** The channel for finished jobs has `4*max(MaxBatchSize/10, 100)` places (`streams/partition_worker.go:91-92,103`), 4000 by default, but up to `MaxBatchSize*PoolSize` events (30000 by
  default) may be in work. The worker's `select` (234-252) may take events while finished jobs wait. Once the channel is full, the scheduler's goroutines block in `AsyncJobComplete` (57-59), the
  queue of a key fills up, and the next event of that key blocks its handler in `Schedule` (`streams/async_scheduler.go:61-67`). The worker then waits for the scheduler and the scheduler for the
  worker, until the source is stopped: no event of this partition is handled any more (C88_violated for every configuration with more slots than places, C88_violated_default). It cannot happen if
  `MaxBatchSize*PoolSize` is at most 401, and this bound is exact (C88_all_completed_partial, C88_exact_numbers).
- A handler that uses a `BatchProducer` may block for ever together with the Kafka client of the producer: the promise of a record calls `AsyncJobComplete`, which waits while `asyncJobs` of the worker
  is full (4000 places by default, but 30000 slots); the client runs promises one at a time, so its buffer fills (10000 records by default), `client.Produce` blocks the handler, and the worker never
  takes a job again. All other partitions that produce with this client stop too (C89_violated, C89_violated_default). The exact condition is `MaxBatchSize*PoolSize > 401`
  (C89_exact_sizes, C89_exact_numbers).
- C91: `Producer.Produce` called from a callback of `ProduceAsync` waits for ever: the client runs one promise at a time, so the promise of the inner record runs only when the callback has returned. From then on no record of this client ends, whoever produced it (`C91_violated_nested`). `ProduceAsync` called from a callback does the same when the client keeps `MaxBufferedRecords` records (`C91_violated_full`). Neither is mentioned in the documentation of `ProduceAsync`. Without such calls every schedule serves every caller (`C91_all_served_partial`), and these are the only two ways to get stuck (`C91_at_rest`).
- C12: `stateStorePartition.kill` reads `buffer`, closes it and clears it without a lock that `populate` would hold. If a synchronisation ends while the consumer stops or cancels the partition, both close: the process panics (`C12_violated_double_close`). If the partition is prepared again in between, the new channel is cleared and the new `populate` waits for ever (`C12_violated_cleared`). Executed one at a time it is safe (`C12_kill_alone_partial`, `C12_buffer_open`).
- C92: five fields are accessed without a common lock and have data races: `buffer` of a change-log partition (`state_store_consumer.go:63,77-79,134,167`), its `count` and `byteCount`
  (plain writes in 132-133, atomic additions in 187-188), `highestOffset` of a worker (`partition_worker.go:170,311`), `produceCnt` of a producer node (plain increment in `eos_producer.go:496`, atomic read without
  the lock in 174 and 178) and `workerChannel` of the job scheduler (`async_scheduler.go:284` without `updateRWLock`, 346). All other modelled fields are free of races for every execution.
- C12: `populate` evaluates `ssp.buffer` only when its goroutine runs (`state_store_consumer.go:143,167`). If the partition is forgotten before, it waits at the nil channel for ever; if the partition is prepared
  again before, two `populate` goroutines share one channel and the new store misses changes.
- C94: a partition that changes hands while its old consumer has events of it in an open transaction is handled twice: `revokePartitions` does not wait for open transactions, and the transactional ids are random, so that the old transaction is
  not fenced. If the old consumer commits last, the offset in the commit log goes back, and the next consumer repeats even more.
- C95: when a job scheduler is closed while two or more goroutines wait for a free worker (the limit of keys is reached), all but one of them can wait for ever: the ending workers signal on a channel of
  capacity one, and a goroutine that is woken returns without passing the signal on (async_scheduler.go:255-258, 289-299). Partition workers that call `Schedule` never end then.
- **C97, a revoked worker can end before the transaction with its events.** `addEventContext` enters a transaction into the revocation waiter of the worker whose event is the *first* of its partition there (`streams/eos_producer.go:316`), and `clearState` calls `Done` on that one only (397-398). If a partition is revoked and assigned again to the same consumer while the transaction is open, events of the new worker join it behind the root of the old one. When the new worker is revoked too, it waits for its events to be finalized (354) but not for `EndTransaction`, and ends while its records are not committed (`C97_violated`). Entering each new *worker*, not each new partition, would repair it.
- **C99, `BatchDelay` is not the maximum time before a commit** (`eos_config.go:50-55`, `eos_producer.go:181-204`). It holds while the commit queue has room. Behind a full queue a transaction can be on deck for up to 29 s more (the context of the transaction being committed): `C99_violated_full_queue` shows 28 s with a `BatchDelay` of 10 ms, `C99_age_full_queue` proves the bound 2·BatchDelay + 29 s. The comment in line 201 speaks of an hour, the constant is a minute.
- **A batch may be executed with one item the moment it is begun, although nothing is late** (C100, `streams/async_batcher.go:250-269`). `conditionallyExecuteBatch` stops the timer of a batch that became full, but if the timer has fired already its function is waiting for `mux` and only checks that the executor is not executing. If the full batch has been executed by then and the executor has begun the next one, that batch is executed at once; its own timer is stopped. The comment in line 251 sees the race but only half of it. Nothing is lost or reordered (C21–C26 hold), but the batch is smaller than documented; `C100_not_early_partial` shows that this is the only way and that it happens only within the time the function waited for the lock.
- **The interval of a periodic interjection is counted from the end of a call** (C101, `streams/event_source.go:291-302`, `streams/interjection.go:65-82`, `streams/partition_worker.go:277-280`). `ScheduleInterjection(f, time.Second, 100*time.Millisecond)` is documented as "executed every 900ms - 1100ms", but `tick` follows the completion of a call, so its duration and the waiting for a producer are added each time: `C101_violated_interval` shows two calls 1200 ms apart without any latency. A jitter above the interval makes the delay negative, which expires at once.
- **The limit of a transaction runs while it waits for others** (`streams/eos_producer.go:482-492,514-520`): the context of 29 seconds is created with the first record that is sent, but a transaction that has produced nothing gets it only when its commit begins. Transactions are committed one after another, so the limit of a transaction that has sent its records early can pass while an earlier one is committed well within its own limit. The commit of the former then fails although its events were complete at once (`C103_violated_limit`).
- **The consumer group is joined before the event source is complete** (C107, `streams/source_consumer.go:91-110`, `streams/event_source.go:88`). `kgo.NewClient` starts to join at once; `producerPool`, `incrBalancer`, `stateStoreConsumer` and, after the return, `es.consumer` are stored later, without synchronization. An assignment in that window panics in `assignPartitions` (211, nil `stateStoreConsumer`) or in the goroutine of the worker (`partition_worker.go:212`, nil `es.consumer`). With remote brokers the window is mostly shorter than a join, but creating the pool makes `PoolSize` clients in it. Repair: make the client last, or call `client.AddConsumeTopics` in `start`.
- **An interjection scheduled after NewEventSource can be missing in a partition for ever** (C107, `streams/partition_worker.go:113`, `streams/event_source.go:304-310`). The worker keeps the slice header of its making; a partition that is assigned between `NewEventSource` and `ScheduleInterjection` never runs the interjection. (The append is also a data race with the reading in `newPartitionWorker`.)
- **A failed NewClient leaves goroutines and clients behind** (C107, `streams/source_consumer.go:91-114`). `err` is checked only after the producer pool (with all its clients and its two goroutines) and the state store consumer were started; both the commit log and they keep running, `NewEventSource` returns a non-nil event source without consumer next to the error.
- **With ConsumeResetOffset(AtEnd) a restart can lose records** (C108, `streams/source_consumer.go:81-83,118-131,270-272`). The position of a partition is taken from the commit log as far as this process has read it, without waiting for it (`Watermark`, not `lastProcessed`); joining begins in `NewEventSource`, reading the commit log in `ConsumeEvents`. If nothing was read yet and the group has no offset (`CommitOffsets` false), the client's reset position applies. With the default (start of the partition) the whole partition is fetched and passed over (slow, but correct); with `AtEnd`, everything between the watermark and the end is skipped for ever. Repair: use `lastProcessed` in `adjustOffsetsBeforeAssign`.
- **In a mixed fleet records are handled twice** (C108, `streams/source_consumer.go:123-127`, `streams/source.go:65-75`). `CommitOffsets` is documented for mixed fleets: a partition goes to a traditional consumer and back, or a deployment is rolled back and tried again. The event source then goes by its commit log even though the offset of the group is further, and handles again what the traditional consumer has handled and committed. Repair: take the larger of both, in the position and in `highestOffset`.
- **After an overlapping hand-over the state is wrong for good** (C109, same places as C94). If a consumer still has uncommitted events of a partition when another starts with it, both commit; the change log then contains the changes of the same source record twice, and every later owner restores a store that no sequential run has (`C109_violated`: a sum that counts a record twice).
- **After an overlapping hand-over nothing helps** (C110, same places as C94 and C109). What readers have seen twice stays seen; no continuation of the group, with any crashes and restarts, gives the result of the sequential run (`C110_violated`).
- **The text of the time-out error is a data race** (C111, `streams/eos_producer.go:342-343`, `streams/partition_worker.go:294-296`). When the transaction times out, the commit loop formats the event context with `%+v`, which reads all its fields, among them the interface `producer`, two words; the worker may be writing it at that moment (it waits for its producer while `eventInput` is long). Reading half of an interface can crash the process or print anything. It is the only race on fields of contexts (`C111_only_the_text`). Repair: print topic, partition and offset.
- **`StopNow` can lose records** (C112, `streams/event_source.go:282-289`, `streams/async_scheduler.go:232-234`). `StopNow` halts the run status first, which ends every `AsyncJobScheduler`; workers may be inside handlers at that time, and transactions still commit. `Schedule` of a scheduler that has ended returns `Complete`, without any processing: the event counts as done, its offset is committed, and no process handles the record again (`C112_violated_stop`). `Stop` halts only after the client has left. Repair: return `Incomplete` in `Schedule`, or halt after `consumer.stop()`.
- **A stop between two stages skips the later ones** (C113, `streams/async_scheduler.go:232-234`, `docs/asyncprocessing.md:260-273`). With chained schedulers, the finalizer of the first calls `Schedule` of the second; after `StopNow` that returns `Complete`, so a record that was processed by the first stage only counts as done and is committed (`C113_violated_stop`). The repair is the one for C112.
- **Empty batches, as the documentation recommends them, break the order of a key** (C114, `streams/async_batcher.go:277-284`, `docs/asyncprocessing.md:353-358`). The documentation says to add an empty batch with the right key for events that need no execution, so that "all events are flowing through the batcher as one to maintain order". `executeBatch` completes the empty batches after all items, so the callback of a later record of the key can come before that of an earlier empty one; its effects are committed in that order and differ from sequential processing (`C114_violated_empty`). A repair: keep items and placeholders of an executor in one list and complete them in that order.
- **State stores are not confined to one goroutine at a time** (C115, `docs/asyncprocessing.md:45-52`, `streams/partitioned_store.go`, `streams/source_consumer.go`, `streams/state_store_consumer.go`). In calm executions everything but `Revoked` is ordered. `Revoked` runs in the goroutine that handles the revocation while the worker can still be in a handler (`C115_violated_worker`) or `populate` still applies changes (`C115_violated_populate`), so a store whose `Revoked` clears it needs a lock. `ForgetPreparedTopicPartition` keeps the store and does not wait for `populate`; preparing again makes two goroutines fill the same store (`C115_violated_forgotten`). A partition assigned before its preparation is complete lets the worker begin while `populate` goes on (`C115_violated_early`), and so does a revocation during the filling followed by a new assignment (`C115_violated_refilled`). A repair: close the worker and end `populate` before `Revoked` is called, and give every filling its own state instead of one per partition.
- **The documented retrying works once and can put older values over newer ones** (C116, `docs/asyncprocessing.md:362-417`). The interjector of Example 7 returns what `AsyncBatcher.Add` returns, `Incomplete`; `handleInterjection` starts the timer again only after `Complete`, and `processAsyncJob` does not start it (`streams/partition_worker.go:258-282`). So after the first retry the interjector is never called again on this worker, and all writes that fail then stay in the store for ever (`C116_once`, `C116_violated_once`). Apart from that, a retried write comes after newer ones of its key, so the database can end with the older value (`C116_violated_order`). Repairs: call `tick` when the context of a periodic interjection completes; retry only what has no newer write.
- **The documented migration can apply an event twice, or miss the database** (C117, `docs/asyncprocessing.md:149-303`). Example 4 writes to the external database before the commit; if the process ends in between, the next one has no such key in its store, reads the database with the effect already in it and applies the event again (`C117_violated_crash`). In Example 3 an event that deletes the key can lie between the look of the handler and the finalizer; then nothing was read and the finalizer begins with nothing, unlike sequential processing (`C117_violated_deleted`). Without deletions Example 3 is correct under all interleavings and crashes (`C117_single_partial`). Repairs: make the write idempotent (for instance with the offset of the event), or seed and write in separate transactions; look at the store only in the finalizer and schedule the read again if needed.
- **Adding to a batch in its own callback is a data race** (C118, `streams/async_batcher.go:82-86`). `completeItem` counts with an atomic operation and then reads `len(b.items)`; the execution that was not the last one may do the latter while the callback already runs in the worker (`C118_condition_needed`). Harmless today, since the length can only grow and the comparison only becomes false; but the race detector will complain. Repair: read the length before counting, or keep the number of items in a field of its own when the batch is given to `Add`.
- **The single writer principle covers the processing function only** (C119, `streams/async_scheduler.go:93-96`). Finalizers run in the partition worker, while the pool may already process the next job of the same key; a finalizer that uses the same memory of the key without a lock is a data race (`C119_condition_needed`). Not an error of the code; the documentation does not say it.
