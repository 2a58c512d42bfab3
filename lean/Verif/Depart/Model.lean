import Verif.Config.Model
import Verif.Rebalance.Member
/-
How a consumer leaves its group: `currentProtocolIsIncremental` and `leave` (`streams/source_consumer.go:350-399`), which `Stop` calls once
(`streams/event_source.go:262-273`), with the member of the group (`Verif/Rebalance/Member.lean`) and the rounds of the group.

Simplifications: the coordinator is external. It knows the protocol in use, except while a rebalance is being prepared; a round ends with one of the protocols the
consumer supports and gives it any partitions. With a protocol other than the incremental one `ParseSyncAssignment` of the Kafka client runs instead of that of the
rebalancer. The library's `StopNow` is not part of this (`Verif/Shutdown`).
-/
namespace Verif.Depart
open Verif.Config Verif.Rebalance

/-- What `DescribeGroups` answers (`streams/source_consumer.go:364-374`): an error or no group; or the protocol of the group, `none` if it is empty. -/
inductive Answer where
  | failed
  | protocol (b : Option Balancer)
  deriving DecidableEq

/-- `currentProtocolIsIncremental`, `streams/source_consumer.go:353-376`; `rs` are the configured strategies. `IncrementalCoopProtocol` is the name of the incremental
balancer only (`streams/incr_rebalancer.go:28`). -/
def isIncremental (rs : List BalanceStrategy) (a : Answer) : Bool :=
  if hasIncrBalancer rs = false then false
  else if rs.length ≤ 1 then true
  else match a with
    | .failed => false
    | .protocol b => decide (b = some .incremental)

/-- Where `leave` is (`streams/source_consumer.go:379-393`): not called; its goroutine before `GracefullyLeaveGroup` (388), waiting for the channel (388); before
`stop` (383, 389); before the signal (384, 390); over. -/
inductive Phase where
  | off | starting | waiting | closing | closed | over
  deriving DecidableEq

/-- The consumer, its member and what the coordinator knows. `elected`: the protocol in use, `none` while a rebalance is being prepared. `closes`, `signals`: how often
the client was closed and the signal was sent. `streams/source_consumer.go:28-44`. -/
structure Dep where
  conf : List BalanceStrategy
  elected : Option Balancer
  mb : Mb
  phase : Phase
  closes : Nat
  signals : Nat

/-- A consumer that has just been made (`streams/source_consumer.go:48-112`). -/
def Dep.init (rs : List BalanceStrategy) (id : Nat) : Dep := ⟨rs, none, Mb.new id, .off, 0, 0⟩

/-- What can happen: a rebalance begins; a round ends with protocol `b`, the partitions `parts` and the instructions `ins`; `leave` is called, `ok`: the coordinator can
be asked; the steps of its goroutine. `streams/source_consumer.go:353-399`, `streams/incr_rebalancer.go:342-426`. -/
inductive Label where
  | prepare
  | round (b : Balancer) (parts : List Int) (ins : Instr)
  | leave (ok : Bool)
  | ask (now : Int)
  | wake
  | close
  | signal

/-- The member after a round: see `Mb.sync`; with another protocol only the callbacks for assignments concern the rebalancer (`streams/source_consumer.go:220,244-249`). -/
def after (m : Mb) (topic : Bytes) (b : Balancer) (parts : List Int) (ins : Instr) : Mb :=
  if b = .incremental then m.sync topic parts ins
  else { (m.partitionsAssigned ((parts.filter fun p => p ∉ m.owned).map fun p => (⟨p, topic⟩ : TP))).1 with owned := parts }

/-- One step; see `Label`. `streams/source_consumer.go:353-399`, `streams/incr_rebalancer.go:342-426`. -/
def step (topic : Bytes) (s : Dep) : Label → Option Dep
  | .prepare => if s.closes = 0 then some { s with elected := none } else none
  | .round b parts ins =>
    if s.closes = 0 ∧ b ∈ consumerBalancers s.conf then some { s with elected := some b, mb := after s.mb topic b parts ins } else none
  | .leave ok =>
    if s.phase = .off then
      some { s with phase := if isIncremental s.conf (if ok then .protocol s.elected else .failed) then .starting else .closing }
    else none
  | .ask now => if s.phase = .starting then some { s with phase := .waiting, mb := s.mb.gracefullyLeave now } else none
  | .wake => if s.phase = .waiting ∧ 0 < s.mb.closes then some { s with phase := .closing } else none
  | .close => if s.phase = .closing then some { s with phase := .closed, closes := s.closes + 1 } else none
  | .signal => if s.phase = .closed then some { s with phase := .over, signals := s.signals + 1 } else none

/-- Several steps (`streams/source_consumer.go:353-399`). -/
def run (topic : Bytes) (s : Dep) : List Label → Option Dep
  | [] => some s
  | l :: ls => (step topic s l).bind fun s' => run topic s' ls

end Verif.Depart
