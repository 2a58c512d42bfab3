import Verif.Config.Model
/-
Model of the creation and deletion of topics, `streams/topics.go:129-304`, by any number of instances of an application that
start at the same time, against clusters that remember their topics.

`Verif.Config.Model` has the same functions for one instance and given answers of the brokers; here the answers come from the
clusters, which all instances share, and every request is a step of its own.
-/
namespace Verif.Topics
open Verif Verif.Config

/-- A topic as it exists in a cluster: the settings passed in `streams/topics.go:129-145`. `dirty` is
`min.cleanable.dirty.ratio` in percent. -/
structure Topic where
  parts : Int
  rf : Int
  minIsr : Int
  compact : Bool
  dirty : Option Nat
  deriving DecidableEq, Repr

/-- The clusters with their topics by name (external; what `kadm.Client` talks to in `streams/topics.go:129-304`). -/
abbrev World := Option Nat → Bytes → Option Topic

/-- A topic that comes into being. Stands for the effect of `CreateTopics` in `streams/topics.go:130`. -/
def World.set (w : World) (c : Option Nat) (n : Bytes) (t : Option Topic) : World :=
  fun c' n' => if c' = c ∧ n' = n then t else w c' n'

/-- Go's conversions `int32(x)` and `int16(x)` in `streams/topics.go:144,151`. -/
def wrap (bits : Nat) (x : Int) : Int := Int.bmod x (2 ^ bits)

/-- `createTopic`, `streams/topics.go:135-145`: the request for one topic. -/
def topicSpec (parts rf minIsr : Int) (compact : Bool) (dirty : Nat) : Topic :=
  { parts := wrap 32 parts, rf := wrap 16 rf, minIsr := minIsr, compact := compact,
    dirty := if compact then some dirty else none }

/-- What a cluster does with the request to create a topic (external): an existing topic stays as it is; the number of partitions
must be positive, or -1 for the cluster's default `dflt`; the cluster may refuse for other reasons. In all cases the request as a
whole succeeds: refusals are in the response, which `createTopicFromConfigMap` only logs (`streams/topics.go:129-133`). -/
def create (w : World) (c : Option Nat) (n : Bytes) (t : Topic) (refused : Bool) (dflt : Int) : World :=
  if (w c n).isSome then w
  else if refused then w
  else if t.parts = -1 then w.set c n (some { t with parts := dflt })
  else if t.parts ≤ 0 then w
  else w.set c n (some t)

/-- Where an instance is in `CreateSource` (`streams/topics.go:207-282`), with the number of failed attempts. -/
inductive Pc where
  /-- line 233 -/
  | list (k : Nat)
  /-- line 241 -/
  | mk (k : Nat)
  /-- line 252 -/
  | list2 (k : Nat)
  /-- line 259, with the partitions of the change log that line 252 found -/
  | mkCommit (k : Nat) (change : Option Int)
  /-- line 274 -/
  | mkChange (k : Nat)
  /-- a source was returned -/
  | done
  /-- an error was returned -/
  | failed (e : Err)
  /-- `isNetworkError` panicked (198) -/
  | panicked
  /-- the configuration was rejected (208-216) -/
  | invalid
  deriving DecidableEq, Repr

/-- An instance: its configuration as given, `Source.config` as it is now, and where it is. `streams/topics.go:217`. -/
structure Inst where
  given : SourceConfig
  cur : SourceConfig
  pc : Pc
  deriving DecidableEq, Repr

/-- All instances and the clusters they share (`streams/topics.go:207-282`). -/
structure St where
  world : World
  insts : List Inst

/-- The checks at the beginning of `CreateSource`, `streams/topics.go:208-217`. -/
def Inst.start (c : SourceConfig) : Inst :=
  { given := c, cur := c,
    pc := if c.groupId.length = 0 ∨ c.topic.length = 0 ∨ c.sourceCluster = none then .invalid else .list 0 }

/-- The beginning: some topics exist, the instances start (`streams/topics.go:207-217`). -/
def St.init (w : World) (cs : List SourceConfig) : St := { world := w, insts := cs.map Inst.start }

/-- The answer to one request: whether the listing reports an error for the first and the second topic (`val.Err != nil`, as
`streams/topics.go:237,255,267` test; for instance because the broker does not know yet), whether the cluster refuses to create the topic,
and the cluster's default number of partitions. -/
structure Ans where
  hideA : Bool := false
  hideB : Bool := false
  refused : Bool := false
  dflt : Int := 1
  deriving DecidableEq, Repr

/-- The steps: the current request of an instance succeeds, fails, or is carried out but its response is lost. The requests are
in `streams/topics.go:171-181,229-282`. -/
inductive Label where
  | ok (i : Nat) (a : Ans)
  | err (i : Nat) (e : Err)
  | lost (i : Nat) (a : Ans)
  deriving DecidableEq, Repr

/-- The number of failed attempts, if the instance is still running (`streams/topics.go:218`). -/
def Pc.attempt : Pc → Option Nat
  | .list k | .mk k | .list2 k | .mkCommit k _ | .mkChange k => some k
  | _ => none

/-- An attempt has failed, `streams/topics.go:219-224`: after a network error the next attempt starts from the beginning, with
the same `Source`, up to fifteen attempts; for any other error `isNetworkError` panics (198). -/
def afterErr (k : Nat) : Err → Pc
  | .network => if k + 1 < 15 then .list (k + 1) else .failed .network
  | .other => .panicked

/-- What line 267 does with the number of partitions of the change log that was found, `streams/topics.go:266-280`. The name of the
change log is never empty (`streams/source.go:200-205`), so that 247 and 266 are always true. -/
def checkChange (i : Inst) (k : Nat) : Option Int → Inst
  | some n => if n ≠ i.cur.numPartitions then { i with pc := afterErr k .other } else { i with pc := .done }
  | none => { i with pc := .mkChange k }

/-- The request that the instance makes now succeeds, `streams/topics.go:229-282`. -/
def Inst.go (w : World) (i : Inst) (a : Ans) : Option (World × Inst) :=
  match i.pc with
  | .list k =>
    match w i.cur.sourceCluster i.cur.topic, a.hideA with
    | some t, false =>
      some (w, { i with cur := { i.cur with numPartitions := t.parts, replicationFactor := t.rf }, pc := .list2 k })
    | _, _ => some (w, { i with pc := .mk k })
  | .mk k =>
    some (create w i.cur.sourceCluster i.cur.topic
        (topicSpec i.cur.numPartitions (replicationFactorConfig i.cur) (minInSyncConfig i.cur) false 100) a.refused a.dflt,
      { i with pc := .list2 k })
  | .list2 k =>
    let change := if a.hideB then none else (w (stateCluster i.cur) (stateStoreTopicName i.cur)).map Topic.parts
    match w (stateCluster i.cur) (commitLogTopicName i.cur), a.hideA with
    | some t, false => some (w, checkChange { i with cur := { i.cur with commitLogPartitions := t.parts } } k change)
    | _, _ => some (w, { i with pc := .mkCommit k change })
  | .mkCommit k change =>
    some (create w (stateCluster i.cur) (commitLogTopicName i.cur)
        (topicSpec (commitLogPartitionsConfig i.cur) (replicationFactorConfig i.cur) (minInSyncConfig i.cur) true 90)
        a.refused a.dflt,
      checkChange i k change)
  | .mkChange _ =>
    some (create w (stateCluster i.cur) (stateStoreTopicName i.cur)
        (topicSpec i.cur.numPartitions (replicationFactorConfig i.cur) (minInSyncConfig i.cur) true 50) a.refused a.dflt,
      { i with pc := .done })
  | _ => none

/-- The step function; `none` means that the step is not possible. `streams/topics.go:207-282`. -/
def step (s : St) : Label → Option St
  | .ok i a =>
    match s.insts[i]? with
    | some x => match x.go s.world a with
      | some (w, x') => some { world := w, insts := s.insts.set i x' }
      | none => none
    | none => none
  | .err i e =>
    match s.insts[i]? with
    | some x => match x.pc.attempt with
      | some k => some { s with insts := s.insts.set i { x with pc := afterErr k e } }
      | none => none
    | none => none
  | .lost i a =>
    match s.insts[i]? with
    | some x => match x.go s.world a, x.pc.attempt with
      | some (w, _), some k => some { world := w, insts := s.insts.set i { x with pc := afterErr k .network } }
      | _, _ => none
    | none => none

/-- A sequence of steps of the instances (`streams/topics.go:207-282`). -/
def run (s : St) : List Label → Option St
  | [] => some s
  | l :: ls => (step s l).bind fun s' => run s' ls

/-- The states that can be reached from the given topics and configurations (`streams/topics.go:207-282`). -/
inductive Reach (w : World) (cs : List SourceConfig) : St → Prop where
  | init : Reach w cs (St.init w cs)
  | step {s s' : St} (l : Label) : Reach w cs s → step s l = some s' → Reach w cs s'

/-! ### DeleteSource -/

/-- `DeleteTopics` on one cluster (external): the topics with these names disappear, unless the request fails or the cluster
refuses to delete a name. `streams/topics.go:299-302`. -/
def deleteTopics (w : World) (c : Option Nat) (names : List Bytes) (failed : Bool) (refused : Bytes → Bool) : World :=
  fun c' n' => if c' = c ∧ n' ∈ names ∧ failed = false ∧ refused n' = false then none else w c' n'

/-- `DeleteSource`, `streams/topics.go:286-304`: `clientA` and `clientB` are the errors of `NewClient`; errors of the deletion
are not looked at. Returns the clusters and the error. -/
def deleteSource (w : World) (cfg : SourceConfig) (clientA clientB : Option Err) (failedA failedB : Bool)
    (refused : Bytes → Bool) : World × Option Err :=
  match clientA with
  | some e => (w, some e)
  | none =>
    match clientB with
    | some e => (w, some e)
    | none =>
      let w := deleteTopics w cfg.sourceCluster [cfg.topic] failedA refused
      let w := deleteTopics w (stateCluster cfg) [commitLogTopicName cfg, stateStoreTopicName cfg] failedB refused
      (w, none)

/-! ### CreateDestination -/

/-- `Destination`, `streams/producer.go:25-36`. -/
structure Destination where
  defaultTopic : Bytes
  numPartitions : Int
  replicationFactor : Int
  minInSync : Int
  cluster : Option Nat
  deriving DecidableEq, Repr

/-- `CreateTopics` for a list of names (external): every name is requested with the same settings. Called in
`streams/topics.go:130`. -/
def createAll (w : World) (c : Option Nat) (t : Topic) (refused : Bytes → Bool) (dflt : Int) : List Bytes → World
  | [] => w
  | n :: ns => createAll (create w c n t (refused n) dflt) c t refused dflt ns

/-- `createDestination`, `streams/topics.go:147-158`: the call in 151-153 passes no topic name, and its error is not looked at.
`client` is the error of `NewClient`. -/
def createDestination (w : World) (d : Destination) (client : Option Err) (refused : Bytes → Bool) (dflt : Int) :
    World × Option Err :=
  let t : Topic := { parts := wrap 32 d.numPartitions, rf := wrap 16 d.replicationFactor, minIsr := d.minInSync,
                     compact := false, dirty := none }
  match client with
  | some e => (w, some e)
  | none => (createAll w d.cluster t refused dflt [], none)

/-- `CreateDestination`, `streams/topics.go:160-168`: fifteen attempts; `none` for the error means a panic of `isNetworkError`.
`client k` is the error of `NewClient` in attempt `k`. -/
def createDestinationTop (d : Destination) (client : Nat → Option Err) (refused : Bytes → Bool) (dflt : Int) :
    Nat → Nat → World → Option Err → World × Option (Option Err)
  | 0, _, w, e => (w, some e)
  | n + 1, k, w, _ =>
    let (w', e) := createDestination w d (client k) refused dflt
    match isNetworkError e with
    | none => (w', none)
    | some _ => createDestinationTop d client refused dflt n (k + 1) w' e

/-- `AsDestination`, `streams/source.go:115-121`. -/
def asDestination (c : SourceConfig) : Destination :=
  { defaultTopic := c.topic, numPartitions := c.numPartitions, replicationFactor := 0, minInSync := 0,
    cluster := c.sourceCluster }

end Verif.Topics
