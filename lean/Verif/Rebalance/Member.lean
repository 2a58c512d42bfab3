import Verif.Rebalance.Model
/-
The member's half of `streams/incr_rebalancer.go`: the state of an `incrementalRebalancer`, and the group
protocol in which the leader's plan and the members' reports alternate.
-/
namespace Verif.Rebalance

/-- `TopicPartitionSet.Insert` seen as a set operation (`streams/topics.go:66-69`; the ordered set itself
is verified in `Verif.TPSet`). -/
def insTP (tp : TP) (l : List TP) : List TP := if tp ∈ l then l else l ++ [tp]

/-- `TopicPartitionSet.Remove` seen as a set operation (`streams/topics.go:78-81`). -/
def delTP (tp : TP) (l : List TP) : List TP := l.filter fun x => x ≠ tp

/-- `incrementalRebalancer`, `streams/incr_rebalancer.go:238-248`. `closes` counts how often `gracefulChan`
was closed (a second close would panic); `owned` is the current assignment of the source topic, which is kept by
the Kafka client and passed to `JoinGroupMetadata`. The lock makes the methods atomic. -/
structure Mb where
  id : Nat
  owned : List Int
  status : Int
  leaveTime : Int
  preparing : List TP
  ready : List TP
  closes : Nat
  deriving DecidableEq, Repr

/-- `IncrementalRebalancer`, `streams/incr_rebalancer.go:274-291`. -/
def Mb.new (id : Nat) : Mb :=
  { id := id, owned := [], status := activeMember, leaveTime := 0, preparing := [], ready := [], closes := 0 }

/-- `PartitionPrepared`, `streams/incr_rebalancer.go:295-301`. -/
def Mb.partitionPrepared (m : Mb) (tp : TP) : Mb :=
  { m with preparing := delTP tp m.preparing, ready := insTP tp m.ready }

/-- `PartitionPreparationFailed`, `streams/incr_rebalancer.go:304-317`; the result says whether a rebalance is
forced. -/
def Mb.partitionPreparationFailed (m : Mb) (tp : TP) : Mb × Bool :=
  ({ m with preparing := delTP tp m.preparing, ready := delTP tp m.ready },
    decide (tp ∈ m.preparing) || decide (tp ∈ m.ready))

/-- `PartitionsAssigned`, `streams/incr_rebalancer.go:320-335`. -/
def Mb.partitionsAssigned : Mb → List TP → Mb × Bool
  | m, [] => (m, false)
  | m, tp :: tps =>
    let r := Mb.partitionsAssigned
      { m with preparing := delTP tp m.preparing, ready := delTP tp m.ready } tps
    (r.1, decide (tp ∈ m.preparing) || decide (tp ∈ m.ready) || r.2)

/-- `GracefullyLeaveGroup`, `streams/incr_rebalancer.go:342-351`, at time `now`. -/
def Mb.gracefullyLeave (m : Mb) (now : Int) : Mb :=
  if m.status = activeMember then { m with status := inactiveMember, leaveTime := now } else m

/-- The loop over `instructions.Prepare`, `streams/incr_rebalancer.go:399-403`: the new set and the
partitions for which `go PrepareTopicPartition(tp)` was started (the argument is evaluated at once). -/
def prepareLoop : List TP → List TP → List TP × List TP
  | pr, [] => (pr, [])
  | pr, tp :: tps =>
    if tp ∈ pr then prepareLoop pr tps
    else
      let r := prepareLoop (insTP tp pr) tps
      (r.1, tp :: r.2)

/-- The loop over `instructions.Forget`, `streams/incr_rebalancer.go:409-420`: the new sets and the numbers
of the iterations that started a goroutine. The goroutine refers to the loop variable (413-416). -/
def forgetLoop : List TP → List TP → Nat → List TP → (List TP × List TP) × List Nat
  | pr, rd, _, [] => ((pr, rd), [])
  | pr, rd, k, tp :: tps =>
    let r := forgetLoop (delTP tp pr) (delTP tp rd) (k + 1) tps
    (r.1, if tp ∈ pr ∨ tp ∈ rd then k :: r.2 else r.2)

/-- What `ParseSyncAssignment` sets off. -/
structure Effects where
  /-- arguments of the calls of `PrepareTopicPartition` -/
  prepare : List TP
  /-- the iterations of the Forget loop that started a goroutine -/
  forget : List Nat
  deriving DecidableEq, Repr

/-- `ParseSyncAssignment`, `streams/incr_rebalancer.go:365-426`, for an assignment that could be decoded;
`parsed` are the partitions by topic. -/
def Mb.parseSync (m : Mb) (parsed : List (Bytes × List Int)) (ins : Instr) : Mb × Effects :=
  if m.status = inactiveMember ∧ (parsed.all fun e => e.2.length = 0) = true then
    ({ m with status := defunct, closes := m.closes + 1 }, ⟨[], []⟩)
  else
    let p := prepareLoop m.preparing ins.prepare
    let f := forgetLoop p.1 m.ready 0 ins.forget
    ({ m with preparing := f.1.1, ready := f.1.2 }, ⟨p.2, f.2⟩)

/-- The calls of `ForgetPreparedTopicPartition` made by the goroutines of `streams/incr_rebalancer.go:413-416`.
With the `go 1.19` of `streams/go.mod` the loop variable is shared by all iterations, so the goroutine started
in iteration `k` sees the value of the iteration `at k` that is current when it runs. -/
def forgetCalls (loop : List TP) (goroutines : List Nat) (at' : Nat → Nat) : List (Option TP) :=
  goroutines.map fun k => loop[at' k]?

/-- The moments at which the goroutines can run: not before they are started; after the loop the variable keeps
its last value. -/
def Timing (loop : List TP) (at' : Nat → Nat) : Prop := ∀ k, k < loop.length → k ≤ at' k ∧ at' k < loop.length

/-- `userData` and `JoinGroupMetadata`, `streams/incr_rebalancer.go:437-465`: what the member reports. The JSON
and Kafka encodings are not modelled. -/
def Mb.report (m : Mb) (topic : Bytes) : Input :=
  { id := m.id, owned := [(topic, m.owned)],
    user := .ok { preparing := m.preparing, ready := m.ready, status := m.status, leftAt := m.leaveTime } }

/-- A member receiving its part of the plan: `ParseSyncAssignment`, then the Kafka client revokes what is no longer
assigned and calls the assignment callback with the partitions that are new
(`streams/source_consumer.go:220,244-249`). -/
def Mb.sync (m : Mb) (topic : Bytes) (parts : List Int) (ins : Instr) : Mb :=
  let m1 := (m.parseSync [(topic, parts)] ins).1
  let new := (parts.filter fun p => p ∉ m.owned).map fun p => (⟨p, topic⟩ : TP)
  { (m1.partitionsAssigned new).1 with owned := parts }

/-! ### The group protocol -/

/-- A consumer group. `pend` holds the plans that were sent to the members but not yet taken up. -/
structure Group where
  members : List Mb
  pend : Nat → Option (List Int × Instr)

/-- The reports of the members. -/
def Group.reports (g : Group) (topic : Bytes) : List Input := g.members.map fun m => m.report topic

/-- The leader computes a plan (`Balance`, `streams/incr_rebalancer.go:148-176`) and it is sent to the members. -/
def Group.startRound (g : Group) (o : Sched) (count : Nat) (topic : Bytes) : Group :=
  { g with
    pend := fun i =>
      if i ∈ g.members.map Mb.id then
        some ((Rebalance.round o (g.reports topic) count topic).parts i,
          (Rebalance.round o (g.reports topic) count topic).instr i)
      else none }

/-- What can happen in a group. Kafka's group coordinator is external: a round starts when all members have taken
up the previous plan and have sent their reports; members take up the plan in any order; a member can join, and
can leave or crash at any time, with which its ownership ends. Whatever a member does to its own metadata
(`change`: preparing, being ready, announcing to leave, with any values at all) does not touch what it owns. -/
inductive GStep (count : Nat) (topic : Bytes) : Group → Group → Prop where
  | join (g : Group) (id : Nat) (h : id ∉ g.members.map Mb.id) (hp : g.pend id = none) :
      GStep count topic g { g with members := g.members ++ [Mb.new id] }
  | gone (g : Group) (id : Nat) :
      GStep count topic g
        { members := g.members.filter fun m => m.id ≠ id
          pend := fun i => if i = id then none else g.pend i }
  | change (g : Group) (f : Mb → Mb) (h : ∀ m, (f m).id = m.id ∧ (f m).owned = m.owned) :
      GStep count topic g { g with members := g.members.map f }
  | round (g : Group) (o : Sched) (h : ∀ m ∈ g.members, g.pend m.id = none) :
      GStep count topic g (g.startRound o count topic)
  | sync (g : Group) (id : Nat) (parts : List Int) (ins : Instr) (h : g.pend id = some (parts, ins)) :
      GStep count topic g
        { members := g.members.map fun m => if m.id = id then m.sync topic parts ins else m
          pend := fun i => if i = id then none else g.pend i }

/-- The groups that can arise, starting without members. -/
inductive GReach (count : Nat) (topic : Bytes) : Group → Prop where
  | init : GReach count topic ⟨[], fun _ => none⟩
  | step {g g' : Group} : GReach count topic g → GStep count topic g g' → GReach count topic g'

end Verif.Rebalance
