import Verif.Base
/-
The settings of the Kafka clients that the library makes: `NewClient` and its callers.

An option of franz-go assigns fields of the configuration; `kgo.NewClient` applies the options in order (library contract), so that the last
assignment of a field counts. Simplifications: what a field is set to is a number; the checks that `kgo.NewClient` makes on the whole configuration
are left out; options that set several fields at once are several assignments.
-/
namespace Verif.Clients

/-- The fields that matter here. `other` stands for all the rest (addresses, TLS, credentials, …). Set in `streams/topics.go:115-119`,
`streams/source_consumer.go:71-89`, `streams/eos_producer.go:273-278`, `streams/state_store_consumer.go:215-221`,
`streams/global_change_log.go:58-64`. -/
inductive Field where
  | logger | compression | isolation | linger | partitioner
  | balancers | group | topics | onAssigned | onRevoked | sessionTimeout | maxWait | adjustOffsets
  | autoCommitMarks | autoCommitInterval | autoCommitOff
  | txnId | txnTimeout | partitions
  | other (n : Nat)
  deriving DecidableEq, Repr

/-- One assignment. See `Field` (`streams/topics.go:115-119`). -/
structure Opt where
  field : Field
  value : Nat
  deriving DecidableEq, Repr

/-- The values the library uses: numbers that stand for the objects in `streams/topics.go:115-119`, `streams/source_consumer.go:71-89`. -/
structure Lib where
  logger : Nat
  /-- `kgo.NoCompression()` -/
  noCompression : Nat
  /-- `kgo.ReadCommitted()` -/
  readCommitted : Nat
  /-- `kgo.ReadUncommitted()` -/
  readUncommitted : Nat
  linger : Nat
  /-- `NewOptionalPartitioner(kgo.StickyKeyPartitioner(nil))` -/
  optional : Nat
  /-- `kgo.ManualPartitioner()` -/
  manual : Nat
  balancers : Nat
  onAssigned : Nat
  onRevoked : Nat
  adjust : Nat

/-- `Cluster.Config`, `streams/topics.go:93-97`: an error, or options. -/
abbrev Cluster := Option (List Opt)

/-- `SimpleCluster.Config`, `streams/topics.go:108-110`: only the addresses. -/
def simpleCluster (seeds : Nat) : Cluster := some [⟨.other 0, seeds⟩]

/-- The first options of every client, `streams/topics.go:115-119`. -/
def defaults (l : Lib) : List Opt :=
  [⟨.logger, l.logger⟩, ⟨.compression, l.noCompression⟩, ⟨.isolation, l.readCommitted⟩, ⟨.linger, l.linger⟩, ⟨.partitioner, l.optional⟩]

/-- `NewClient`, `streams/topics.go:114-128`; `none`: an error. -/
def newClient (l : Lib) (cluster : Cluster) (options : List Opt) : Option (List Opt) :=
  match cluster with
  | none => none
  | some clusterOpts => some (defaults l ++ clusterOpts ++ options)

/-- What matters of the configuration of a source (`streams/source.go:29-83`). -/
structure Source where
  group : Nat
  topic : Nat
  sourceCluster : Cluster
  stateConfig : Option Cluster
  commitOffsets : Bool

/-- `stateCluster`, `streams/source.go:208-213`. -/
def Source.stateCluster (s : Source) : Cluster :=
  match s.stateConfig with
  | none => s.sourceCluster
  | some c => c

/-- The options of the consumer, `streams/source_consumer.go:71-89`. -/
def consumerOpts (l : Lib) (s : Source) (additional : List Opt) : List Opt :=
  let opts : List Opt :=
    [⟨.balancers, l.balancers⟩, ⟨.group, s.group⟩, ⟨.topics, s.topic⟩, ⟨.onAssigned, l.onAssigned⟩, ⟨.onRevoked, l.onRevoked⟩,
     ⟨.sessionTimeout, 6000⟩, ⟨.maxWait, 1000⟩, ⟨.adjustOffsets, l.adjust⟩]
  let opts := if additional.length > 0 then opts ++ additional else opts
  if s.commitOffsets then opts ++ [⟨.autoCommitMarks, 1⟩, ⟨.autoCommitInterval, 5000⟩] else opts ++ [⟨.autoCommitOff, 1⟩]

/-- The client that fetches the source topic, `streams/source_consumer.go:91-92`. -/
def consumerClient (l : Lib) (s : Source) (additional : List Opt) : Option (List Opt) :=
  newClient l s.sourceCluster (consumerOpts l s additional)

/-- The client of a transactional producer, `streams/eos_producer.go:272-278`; `id` is the new UUID. The options given to `NewEventSource` are not
passed to it. -/
def txnClient (l : Lib) (s : Source) (id : Nat) : Option (List Opt) :=
  newClient l s.stateCluster [⟨.partitioner, l.optional⟩, ⟨.txnId, id⟩, ⟨.txnTimeout, 30000⟩]

/-- The client that reads the change log, `streams/state_store_consumer.go:215-221`. -/
def changeLogClient (l : Lib) (s : Source) (assignments : Nat) : Option (List Opt) :=
  newClient l s.stateCluster [⟨.partitions, assignments⟩, ⟨.maxWait, 1000⟩, ⟨.partitioner, l.manual⟩]

/-- The client of a `GlobalChangeLog`, `streams/global_change_log.go:58-64`; the commit log is one (`streams/commit_log.go:64-73`, on the state
cluster). -/
def globalClient (l : Lib) (cluster : Cluster) (assignments : Nat) : Option (List Opt) :=
  newClient l cluster [⟨.partitions, assignments⟩, ⟨.partitioner, l.manual⟩]

/-- The client of a `Producer` or `BatchProducer`, `streams/producer.go:47-57,104-114`. -/
def producerClient (l : Lib) (cluster : Cluster) (opts : List Opt) : Option (List Opt) := newClient l cluster opts

/-- All clients of an event source: consumer, transactional producers, change log and commit log. Made in `streams/event_source.go:67-96`,
`streams/source_consumer.go:48-116`. `additional` are the options given to `NewEventSource`. -/
structure Clients where
  consumer : List Opt
  txn : List Opt
  changeLog : List Opt
  commitLog : List Opt

/-- `NewEventSource`, `streams/event_source.go:67-96`, as far as the clients are concerned; `none`: an error or a panic. -/
def newEventSource (l : Lib) (s : Source) (id assignments : Nat) (additional : List Opt) : Option Clients :=
  match consumerClient l s additional, txnClient l s id, changeLogClient l s assignments, globalClient l s.stateCluster assignments with
  | some a, some b, some c, some d => some ⟨a, b, c, d⟩
  | _, _, _, _ => none

end Verif.Clients
