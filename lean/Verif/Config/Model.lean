import Verif.Base
/-
Model of the configuration and topic-creation logic: `streams/source.go`, `streams/eos_config.go`,
`streams/balancer_options.go`, `streams/topics.go`, `streams/error_handling.go`, `streams/log.go`.
Go `int` values are modelled by `Int`; the only arithmetic is a decrement of a value known to be
greater than one, so overflow cannot occur.
-/
namespace Verif.Config

/-! ### source.go -/

/-- `EventSourceConfig`, `streams/source.go:43-100`, the fields the derived settings read.
Clusters are opaque identifiers, `none` = nil. -/
structure SourceConfig where
  groupId : Bytes := []
  topic : Bytes := []
  stateStoreTopic : Bytes := []
  numPartitions : Int := 0
  replicationFactor : Int := 0
  minInSync : Int := 0
  commitLogPartitions : Int := 0
  sourceCluster : Option Nat := none
  stateCluster : Option Nat := none
deriving DecidableEq, Repr

/-- `replicationFactorConfig`, `streams/source.go:226-231`. -/
def replicationFactorConfig (c : SourceConfig) : Int :=
  if c.replicationFactor ≤ 0 then 1 else c.replicationFactor

/-- `minInSyncConfig`, `streams/source.go:215-224`. -/
def minInSyncConfig (c : SourceConfig) : Int :=
  let factor := replicationFactorConfig c
  if factor ≤ 1 then 1
  else if c.minInSync ≥ factor then c.replicationFactor - 1
  else c.minInSync

/-- `commitLogPartitionsConfig`, `streams/source.go:233-238`. -/
def commitLogPartitionsConfig (c : SourceConfig) : Int :=
  if c.commitLogPartitions ≤ 0 then 5 else c.commitLogPartitions

/-- `CommitLogTopicNameForGroupId`, `streams/source.go:195-197`. -/
def commitLogTopicName (c : SourceConfig) : Bytes := ascii "gkes_commit_log_" ++ c.groupId

/-- `StateStoreTopicName`, `streams/source.go:200-205`. -/
def stateStoreTopicName (c : SourceConfig) : Bytes :=
  if c.stateStoreTopic.length > 0 then c.stateStoreTopic
  else ascii "gkes_change_log_" ++ c.topic ++ ascii "_" ++ c.groupId

/-- `stateCluster`, `streams/source.go:208-213`. -/
def stateCluster (c : SourceConfig) : Option Nat :=
  match c.stateCluster with
  | none => c.sourceCluster
  | some s => some s

/-! ### error handlers -/

/-- `ErrorResponse`, `streams/error_handling.go:18-35`. `other` stands for any other integer. -/
inductive ErrorResponse
  | continue | failConsumer | fatallyExit | other
deriving DecidableEq, Repr

/-- The two handler fields of the configuration; `none` = nil. Handlers are functions of an opaque
error (a `Nat`). `streams/source.go:43-102` (`DeserializationErrorHandler`, `TxnErrorHandler`). -/
structure Handlers where
  txn : Option (Nat → ErrorResponse) := none
  deserialization : Option (Nat → ErrorResponse) := none

/-- `DefaultDeserializationErrorHandler`, `streams/error_handling.go:44-47`. -/
def defaultDeserializationErrorHandler : Nat → ErrorResponse := fun _ => .continue

/-- `DefaultTxnErrorHandler`, `streams/error_handling.go:50-53`. -/
def defaultTxnErrorHandler : Nat → ErrorResponse := fun _ => .failConsumer

/-- `eosErrorHandler`, `streams/source.go:143-148`. -/
def eosErrorHandler (h : Handlers) : Nat → ErrorResponse :=
  match h.txn with
  | none => defaultTxnErrorHandler
  | some f => f

/-- `deserializationErrorHandler`, `streams/source.go:150-155`. The result is `none` when the code
returns a nil function (calling it panics). Note that line 151 tests `TxnErrorHandler`. -/
def deserializationErrorHandler (h : Handlers) : Option (Nat → ErrorResponse) :=
  match h.txn with
  | none => some defaultDeserializationErrorHandler
  | some _ => h.deserialization

/-! ### eos_config.go -/

/-- `EosConfig`, `streams/eos_config.go:40-56`. `batchDelay` in nanoseconds. -/
structure EosConfig where
  poolSize : Int := 0
  pendingTxnCount : Int := 0
  targetBatchSize : Int := 0
  maxBatchSize : Int := 0
  batchDelay : Int := 0
deriving DecidableEq, Repr

/-- `IsZero`, `streams/eos_config.go:59-76`. -/
def EosConfig.isZero (c : EosConfig) : Bool :=
  if c.poolSize ≠ 0 then false
  else if c.pendingTxnCount ≠ 0 then false
  else if c.targetBatchSize ≠ 0 then false
  else if c.maxBatchSize ≠ 0 then false
  else if c.batchDelay ≠ 0 then false
  else true

/-- `validate`, `streams/eos_config.go:78-97`: `true` = returns normally, `false` = panics. -/
def EosConfig.validate (c : EosConfig) : Bool :=
  if c.poolSize < 1 then false
  else if c.pendingTxnCount < 1 then false
  else if c.targetBatchSize < 1 then false
  else if c.maxBatchSize < 1 then false
  else if c.batchDelay < 1000000 then false
  else if c.targetBatchSize > c.maxBatchSize then false
  else true

/-- `DefaultEosConfig`, `streams/eos_config.go:99-111`. -/
def defaultEosConfig : EosConfig :=
  { poolSize := 3, pendingTxnCount := 1, targetBatchSize := 1000, maxBatchSize := 10000, batchDelay := 10000000 }

/-- The configuration a consumer starts with, `streams/source_consumer.go:94-100`: the default when
the given one is zero; `none` if validation panics. -/
def effectiveEosConfig (c : EosConfig) : Option EosConfig :=
  let c := if c.isZero then defaultEosConfig else c
  if c.validate then some c else none

/-! ### topics.go -/

/-- Errors returned by clients: network errors (`*net.OpError` in the chain) or anything else. `streams/topics.go:189-205` tells them apart. -/
inductive Err
  | network | other
deriving DecidableEq, Repr

/-- `isNetworkError`, `streams/topics.go:189-201`; `none` = panic (line 198 dereferences the nil
`opError` when the error is not a network error). -/
def isNetworkError : Option Err → Option Bool
  | none => some false
  | some .network => some true
  | some .other => none

/-- What the brokers answer during one attempt of `createSource`. `listSource` / `listEos` are the
results of `ListTopicsWithInternal`; a topic entry is present only if it has no error. The calls are in `streams/topics.go:170-187` and `229-284`. -/
structure Broker where
  /-- `NewClient` for the source cluster. -/
  sourceClient : Option Err := none
  /-- `NewClient` for the state cluster. -/
  eosClient : Option Err := none
  /-- Source topic: (partitions, replicas). -/
  listSource : Except Err (Option (Int × Int))
  createSourceTopic : Option Err := none
  /-- Commit-log partitions and change-log partitions. -/
  listEos : Except Err (Option Int × Option Int)
  createCommitLog : Option Err := none
  createChangeLog : Option Err := none

/-- Creation of a topic: nil error continues, otherwise the error is returned. `streams/topics.go:248-281` (each `if err != nil { return source, err }`). -/
def orFail (e : Option Err) : Except Err Unit :=
  match e with
  | none => .ok ()
  | some e => .error e

/-- `resolveOrCreateTopics`, `streams/topics.go:229-282`. The `Source` is updated in place, so the
(possibly changed) configuration is returned also in the error case. -/
def resolveOrCreateTopics (c : SourceConfig) (b : Broker) : SourceConfig × Except Err Unit :=
  match b.listSource with
  | .error e => (c, .error e)
  | .ok src =>
    let (c, r) : SourceConfig × Except Err Unit := match src with
      | some (n, rf) => ({ c with numPartitions := n, replicationFactor := rf }, .ok ())
      | none => (c, orFail b.createSourceTopic)
    match r with
    | .error e => (c, .error e)
    | .ok () =>
      match b.listEos with
      | .error e => (c, .error e)
      | .ok (commitLog, changeLog) =>
        let (c, r) : SourceConfig × Except Err Unit := match commitLog with
          | some n => ({ c with commitLogPartitions := n }, .ok ())
          | none => (c, orFail b.createCommitLog)
        match r with
        | .error e => (c, .error e)
        | .ok () =>
          if (stateStoreTopicName c).length > 0 then
            match changeLog with
            | some n => if n ≠ c.numPartitions then (c, .error .other) else (c, .ok ())
            | none => (c, orFail b.createChangeLog)
          else (c, .ok ())

/-- `createSource`, `streams/topics.go:170-187`. -/
def createSource (c : SourceConfig) (b : Broker) : SourceConfig × Except Err Unit :=
  match b.sourceClient with
  | some e => (c, .error e)
  | none => match b.eosClient with
    | some e => (c, .error e)
    | none => resolveOrCreateTopics c b

/-- Result of `CreateSource`: a source, an error, or a panic. `streams/topics.go:207-227`. -/
inductive CreateResult
  | source (c : SourceConfig)
  | error (e : Err)
  | invalidConfig
  | panic
deriving DecidableEq, Repr

/-- The error part of a result. `streams/topics.go:207-227` (the named result `err`). -/
def errOf : Except Err Unit → Option Err
  | .ok () => none
  | .error e => some e

/-- The retry loop of `CreateSource`, `streams/topics.go:218-226`. `brokers k` is what the brokers
answer at attempt `k`; `n` attempts are left. Returns the result and the number of attempts. -/
def retry (brokers : Nat → Broker) : Nat → Nat → SourceConfig → Option Err → CreateResult × Nat
  | 0, k, c, last => (match last with | none => .source c | some e => .error e, k)
  | n + 1, k, c, _ =>
    let (c', r) := createSource c (brokers k)
    match isNetworkError (errOf r) with
    | none => (.panic, k + 1)
    | some true => retry brokers n (k + 1) c' (errOf r)
    | some false => (.source c', k + 1)

/-- `CreateSource`, `streams/topics.go:207-227`. -/
def createSourceTop (c : SourceConfig) (brokers : Nat → Broker) : CreateResult × Nat :=
  if c.groupId.length = 0 then (.invalidConfig, 0)
  else if c.topic.length = 0 then (.invalidConfig, 0)
  else if c.sourceCluster = none then (.invalidConfig, 0)
  else retry brokers 15 0 c none

/-- `CreateDestination`, `streams/topics.go:160-168`: there is no `break`, so all fifteen attempts are
made. `errs k` is the error of attempt `k`. Result: last error (or panic) and number of attempts. -/
def createDestination (errs : Nat → Option Err) : Nat → Nat → Option (Option Err) → Option (Option Err) × Nat
  | 0, k, r => (r, k)
  | n + 1, k, _ =>
    match isNetworkError (errs k) with
    | none => (none, k + 1)
    | some _ => createDestination errs n (k + 1) (some (errs k))

/-! ### balancer_options.go and assignment -/

/-- `BalanceStrategy`, `streams/balancer_options.go:19,38-43` (any `int`). -/
abbrev BalanceStrategy := Int

/-- The balancers that can result. `streams/source_consumer.go:50-86` together with `streams/balancer_options.go:17-45`. -/
inductive Balancer
  | range | roundRobin | cooperativeSticky | incremental
deriving DecidableEq, Repr

/-- One iteration of the loop of `toGroupBalancers`, `streams/balancer_options.go:24-33`. -/
def toBalancer (s : BalanceStrategy) : Option Balancer :=
  if s = 0 then some .range
  else if s = 1 then some .roundRobin
  else if s = 2 then some .cooperativeSticky
  else if s = 3 then some .incremental
  else none

/-- `toGroupBalancers`, `streams/balancer_options.go:21-36`. -/
def toGroupBalancers (rs : List BalanceStrategy) : List Balancer :=
  rs.foldl (fun acc s => match toBalancer s with | some b => acc ++ [b] | none => acc) []

/-- The balancers of a new consumer, `streams/source_consumer.go:64-69`
(`DefaultBalanceStrategies`, `streams/balancer_options.go:45`). -/
def consumerBalancers (rs : List BalanceStrategy) : List Balancer :=
  toGroupBalancers (if rs.length = 0 then [3] else rs)

/-- `sc.incrBalancer` is set iff one of the balancers is incremental,
`streams/source_consumer.go:103-108`. -/
def hasIncrBalancer (rs : List BalanceStrategy) : Bool := (consumerBalancers rs).any (· == .incremental)

/-- The tail of `assignPartitions`, `streams/source_consumer.go:220-222`: `false` = panic (method call
on a nil interface). -/
def assignPartitionsReturns (rs : List BalanceStrategy) : Bool := hasIncrBalancer rs

/-! ### log.go -/

/-- `LogLevel`, `streams/log.go:25-34`: None = 0, Trace = 1, Debug = 2, Info = 3, Warn = 4, Error = 5. -/
abbrev LogLevel := Int

/-- The message levels, one per method of `Logger` (`streams/log.go:66-72`). -/
inductive Msg
  | trace | debug | info | warn | error
deriving DecidableEq, Repr

/-- Loggers: `SimpleLogger(level)` (`streams/log.go:85-113`), `logWrapper` (`streams/log.go:116-174`),
or a user's logger, an arbitrary predicate on messages. -/
inductive Logger
  | simple (level : LogLevel)
  | wrap (level : LogLevel) (inner : Logger)
  | user (emits : Msg → Bool)

/-- Whether a message of the given method is written out. Each method of `SimpleLogger` and of
`logWrapper` has the same guard with its own level constant (`streams/log.go:85-113,146-174`). -/
def Logger.emits : Logger → Msg → Bool
  | .simple l, .trace => decide (1 ≥ l ∧ l ≠ 0)
  | .simple l, .debug => decide (2 ≥ l ∧ l ≠ 0)
  | .simple l, .info => decide (3 ≥ l ∧ l ≠ 0)
  | .simple l, .warn => decide (4 ≥ l ∧ l ≠ 0)
  | .simple l, .error => decide (5 ≥ l ∧ l ≠ 0)
  | .wrap l i, .trace => decide (1 ≥ l ∧ l ≠ 0) && i.emits .trace
  | .wrap l i, .debug => decide (2 ≥ l ∧ l ≠ 0) && i.emits .debug
  | .wrap l i, .info => decide (3 ≥ l ∧ l ≠ 0) && i.emits .info
  | .wrap l i, .warn => decide (4 ≥ l ∧ l ≠ 0) && i.emits .warn
  | .wrap l i, .error => decide (5 ≥ l ∧ l ≠ 0) && i.emits .error
  | .user f, m => f m

/-- `kgo.LogLevel`: None 0, Error 1, Warn 2, Info 3, Debug 4 (franz-go). Mapped in `streams/log.go:37-64`. -/
abbrev KgoLevel := Int

/-- `toKgoLoglevel`, `streams/log.go:37-50`. -/
def toKgoLoglevel (l : LogLevel) : KgoLevel :=
  if l = 1 ∨ l = 2 then 4
  else if l = 3 then 3
  else if l = 4 then 2
  else if l = 5 then 1
  else 0

/-- `kgoLogWrapper.Log`, `streams/log.go:185-196`: the method used for a message of the Kafka client. -/
def kgoToMsg (l : KgoLevel) : Option Msg :=
  if l = 4 then some .debug
  else if l = 3 then some .info
  else if l = 2 then some .warn
  else if l = 1 then some .error
  else none

/-- `InitLogger`, `streams/log.go:198-218`: a `sync.Once`; the state is (done, logger). Returns the
new state; the installed logger is its second component. -/
def initLogger (s : Bool × Logger) (l : Logger) : Bool × Logger := if s.1 then s else (true, l)

end Verif.Config
