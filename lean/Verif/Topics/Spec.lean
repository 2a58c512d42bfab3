import Verif.Topics.Model
/-
What C74 says about the topics.
-/
namespace Verif.Topics
open Verif Verif.Config

/-- Where the three topics of an application live: cluster and name (`streams/source.go:195-213`). -/
def srcKey (c : SourceConfig) : Option Nat × Bytes := (c.sourceCluster, c.topic)
def commitKey (c : SourceConfig) : Option Nat × Bytes := (stateCluster c, commitLogTopicName c)
def changeKey (c : SourceConfig) : Option Nat × Bytes := (stateCluster c, stateStoreTopicName c)

/-- The topic with this key. -/
def World.at (w : World) (k : Option Nat × Bytes) : Option Topic := w k.1 k.2

/-- The three topics of the application are three. -/
def Distinct (c : SourceConfig) : Prop := srcKey c ≠ commitKey c ∧ srcKey c ≠ changeKey c ∧ commitKey c ≠ changeKey c

/-- A number that `int32` can hold and that a topic can have as its number of partitions. -/
def Fits (n : Int) : Prop := 0 < n ∧ n < 2 ^ 31

/-- The cluster hides and refuses nothing. -/
def Ans.clean (a : Ans) : Prop := a.hideA = false ∧ a.hideB = false ∧ a.refused = false

/-- A step in which the cluster hides and refuses nothing; requests may still fail and responses get lost. -/
def Label.clean : Label → Prop
  | .ok _ a => a.clean
  | .lost _ a => a.clean
  | .err _ _ => True

/-- The states reached by such steps. -/
inductive CleanReach (w : World) (cs : List SourceConfig) : St → Prop where
  | init : CleanReach w cs (St.init w cs)
  | step {s s' : St} (l : Label) : CleanReach w cs s → l.clean → Topics.step s l = some s' → CleanReach w cs s'

/-- A source is as the clusters have it: the three topics exist, the numbers of partitions that the source works with are the real
ones, and the change log has as many as the source topic. -/
def Accurate (w : World) (c : SourceConfig) : Prop :=
  ∃ src com chg, w.at (srcKey c) = some src ∧ w.at (commitKey c) = some com ∧ w.at (changeKey c) = some chg ∧
    src.parts = c.numPartitions ∧ com.parts = commitLogPartitionsConfig c ∧ chg.parts = c.numPartitions

/-- The configuration as it is after the source topic was looked for: unless the topic is missing, its number of partitions and its
replication factor count. -/
def Resolved (w : World) (c : SourceConfig) (n r : Int) : Prop :=
  (n = c.numPartitions ∧ r = c.replicationFactor) ∨ ∃ t, w.at (srcKey c) = some t ∧ n = t.parts ∧ r = t.rf

/-- The topic is as an instance with this configuration asks for it: the number of partitions (a number that is not proper may be
replaced by the cluster's default), the replication factor, `min.insync.replicas` and the cleanup policy. -/
def AsAsked (w : World) (c : SourceConfig) (k : Option Nat × Bytes) (t : Topic) : Prop :=
  (k = srcKey c ∧ t.compact = false ∧ (Fits c.numPartitions → t.parts = c.numPartitions) ∧
    t.rf = wrap 16 (replicationFactorConfig c) ∧ t.minIsr = minInSyncConfig c) ∨
  (∃ n r, Resolved w c n r ∧ t.rf = wrap 16 (replicationFactorConfig { c with replicationFactor := r }) ∧
    t.minIsr = minInSyncConfig { c with replicationFactor := r } ∧
    ((k = commitKey c ∧ t.compact = true ∧ t.dirty = some 90 ∧ (c.commitLogPartitions ≤ 0 → t.parts = 5) ∧
        (Fits c.commitLogPartitions → t.parts = c.commitLogPartitions)) ∨
     (k = changeKey c ∧ t.compact = true ∧ t.dirty = some 50 ∧ (Fits n → t.parts = n))))

end Verif.Topics
