import Mathlib.Tactic.Common
import Mathlib.Data.List.Nodup
/-
Model of the pool of transactional producers, `streams/eos_producer.go`.

The goroutines are: the forwarding loop (162-171), the commit loop (207-227), and the partition workers (and whatever
goroutines the application uses) that call `ProduceRecord` and complete events. A step is what happens inside one
critical section. Kafka's transactional client is external: `Produce` appends to the open transaction, `EndTransaction`
makes the transaction visible as a whole or fails.
-/
namespace Verif.Eos

/-- `EventContext` as seen by the pool: identity, partition and offset (`none` for an interjection, whose `Offset()`
is -1), `streams/event_context.go:35-50,113-118`. -/
structure Ev where
  id : Nat
  part : Nat
  off : Option Nat
  deriving DecidableEq, Repr

/-- A record handed to `ProduceRecord`: one of the application (`x` stands for topic, key and value) or an offset record
of the commit log (`streams/commit_log.go:76-82`: partition and offset + 1; its encoding is modelled in
`Verif.CommitLog`). -/
inductive Rec where
  | user (x : Nat)
  | commit (part off : Nat)
  deriving DecidableEq, Repr

/-- `producerNode`, `streams/eos_producer.go:246-270`. `evs` are the events of `currentPartitions`; the list of a
partition (`eventContextDll`) is `evs` restricted to it. `buf` is `recordsToProduce`, `opened` is `txnContext != nil`.
Timestamps, callbacks, byte counts and metrics are left out. -/
structure Node where
  evs : List Ev
  cnt : Nat
  buf : List (Nat × Rec)
  opened : Bool
  produceCnt : Nat
  deriving DecidableEq, Repr

/-- A new node, `streams/eos_producer.go:280-293`. -/
def Node.new : Node := ⟨[], 0, [], false, 0⟩

/-- The part of `EosConfig` that matters here, `streams/eos_config.go:42-60`. -/
structure Cfg where
  poolSize : Nat
  pending : Nat
  target : Nat
  max : Nat

/-- Where the forwarding goroutine is, `streams/eos_producer.go:144-205`. -/
inductive Fwd where
  /-- in the `select` of 164-169 -/
  | idle
  /-- after line 151 -/
  | added (e : Ev)
  /-- after line 153 -/
  | given
  /-- at line 182 -/
  | trying
  /-- blocked at line 185 -/
  | force
  /-- at line 186 or 193: the node has been sent, a new one is awaited -/
  | swap
  deriving DecidableEq, Repr

/-- Where the commit goroutine is, `streams/eos_producer.go:207-240,336-392,394-467`. -/
inductive Com where
  /-- in the `select` of 210-214 -/
  | idle
  /-- at line 359 -/
  | begun (p : Nat)
  /-- in the loops of 370-375 and 339-355: the events of the current partition still to be waited for, whether the
  offset record was produced, and the partitions that follow -/
  | fin (p : Nat) (cur : List Ev) (flag : Bool) (rest : List Nat)
  /-- after line 385 succeeded: the partitions still to be relinquished -/
  | relinq (p : Nat) (rest : List Nat)
  /-- at line 238 -/
  | back (p : Nat)
  /-- the loop has returned (220) -/
  | stopped
  deriving DecidableEq, Repr

/-- One call of `Produce` or `ProduceRecord`: the number of the transaction, the source partition, the record. `streams/eos_producer.go:494-536`. -/
structure Out where
  gen : Nat
  part : Nat
  r : Rec
  deriving DecidableEq, Repr

/-- `eosProducerPool`, `streams/eos_producer.go:82-95`, with the nodes addressed by their index in `producerNodes`.
`done` are the events whose `done` channel is closed, `asg` says which node an event's `producerChan` delivered.

The rest records what happened and is not looked at by the steps: `gen` numbers the transactions in the order in which they
are filled (the one on deck now), `nodeGen` is the transaction a node works for, `added` the events with
their transaction, `calls` and `sent` the calls of `ProduceRecord` and of the client's `Produce`, `ended` the transactions
that ended with success, in order, and whether they were committed (or aborted for having no records). -/
structure Pool where
  nodes : Nat → Node
  onDeck : Nat
  free : List Nat
  cq : List Nat
  owner : Nat → Option Nat
  fwd : Fwd
  com : Com
  done : List Nat
  asg : Nat → Option Nat
  gen : Nat
  nodeGen : Nat → Nat
  added : List (Ev × Nat)
  calls : List Out
  sent : List Out
  ended : List (Nat × Bool)

/-- `newEOSProducerPool`, `streams/eos_producer.go:97-133`: the nodes are queued in the order of their creation and the
first one is taken on deck. -/
def Pool.init (c : Cfg) : Pool :=
  { nodes := fun _ => Node.new, onDeck := 0, free := (List.range c.poolSize).drop 1, cq := [], owner := fun _ => none,
    fwd := .idle, com := .idle, done := [], asg := fun _ => none, gen := 0, nodeGen := fun _ => 0, added := [],
    calls := [], sent := [], ended := [] }

/-- Assignment to an entry of a table (no counterpart in the code). Stands for the map and slice writes of `streams/eos_producer.go:38-62`, `296-324`. -/
def upd {α : Type} (f : Nat → α) (i : Nat) (a : α) : Nat → α := fun j => if j = i then a else f j

/-- The nodes met by `for nextNode := p.next; nextNode != p; nextNode = nextNode.next`
(`streams/eos_producer.go:448`; the ring is built in 116-128). -/
def ring (n p : Nat) : List Nat := (List.range (n - 1)).map fun k => (p + 1 + k) % n

/-- The keys of `currentPartitions`. `streams/eos_producer.go:246-294`. -/
def Node.has (nd : Node) (tp : Nat) : Bool := nd.evs.any fun e => e.part = tp

/-- The keys of `currentPartitions`, each once, in some order. The `range` in `streams/eos_producer.go:394-492`. -/
def Node.parts (nd : Node) : List Nat := (nd.evs.map Ev.part).dedup

/-- The events of a partition from the newest to the oldest: the order in which `finalizeEventContexts` follows `prev`
(`streams/eos_producer.go:339`). -/
def Node.chain (nd : Node) (tp : Nat) : List Ev := (nd.evs.filter fun e => e.part = tp).reverse

/-- `ProduceRecord`, `streams/eos_producer.go:494-512`, on node `p` for an event of partition `tp`: the whole body is under
`produceLock`. -/
def produce (s : Pool) (p tp : Nat) (r : Rec) : Pool :=
  let nd := { s.nodes p with produceCnt := (s.nodes p).produceCnt + 1 }
  let o : Out := ⟨s.nodeGen p, tp, r⟩
  if s.owner tp = some p then
    { s with nodes := upd s.nodes p { nd with opened := true }, calls := s.calls ++ [o], sent := s.sent ++ [o] }
  else
    { s with nodes := upd s.nodes p { nd with buf := nd.buf ++ [(tp, r)] }, calls := s.calls ++ [o] }

/-- `flushPartition`, `streams/eos_producer.go:469-480`. -/
def flushPartition (s : Pool) (q tp : Nat) : Pool :=
  let hit := (s.nodes q).buf.filter fun e => e.1 = tp
  { s with
    nodes := upd s.nodes q { s.nodes q with
      buf := (s.nodes q).buf.filter fun e => e.1 ≠ tp
      opened := (s.nodes q).opened || !hit.isEmpty }
    sent := s.sent ++ hit.map fun e => ⟨s.nodeGen q, e.1, e.2⟩ }

/-- The first half of `commit`, `streams/eos_producer.go:364-369`, under `produceLock`: `flushRemaining` (482-492, which does
not empty the buffer) and the ownership of the node's partitions. -/
def beginCommit (s : Pool) (p : Nat) : Pool :=
  { s with
    nodes := upd s.nodes p { s.nodes p with opened := true }
    sent := s.sent ++ (s.nodes p).buf.map fun e => ⟨s.nodeGen p, e.1, e.2⟩
    owner := fun tp => if (s.nodes p).has tp then some p else s.owner tp }

/-- One iteration of the loop in `relinquishOwnership`, `streams/eos_producer.go:446-463`. -/
def relinquish (n : Nat) (s : Pool) (p tp : Nat) : Pool :=
  let s' :=
    match (ring n p).find? fun q => (s.nodes q).has tp with
    | some q => let s1 := flushPartition s q tp; { s1 with owner := upd s1.owner tp (some q) }
    | none => { s with owner := upd s.owner tp none }
  { s' with nodes := upd s'.nodes p { s'.nodes p with evs := (s'.nodes p).evs.filter fun e => e.part ≠ tp } }

/-- The rest of `clearState`, `streams/eos_producer.go:424-429`, and of the transaction (395-396). -/
def Node.clear (nd : Node) : Node := { nd with cnt := 0, produceCnt := 0, buf := [], opened := false }

/-- The larger of the two counters, as compared in `streams/eos_producer.go:173-179`. -/
def Node.load (nd : Node) : Nat := Nat.max nd.cnt nd.produceCnt

/-- What can happen. The places in `streams/eos_producer.go:136-536` are given at each constructor. -/
inductive Label where
  /-- `doForwardExecutionContexts` up to line 151 for an event that is not revoked -/
  | add (e : Ev)
  /-- lines 152-153 -/
  | give
  /-- line 155 -/
  | check
  /-- `tryFlush` called by the timer, line 167 -/
  | tick
  /-- lines 182-202 -/
  | tryFlush
  /-- line 185 gets through -/
  | forced
  /-- lines 186 and 193 receive -/
  | swapIn
  /-- line 211 -/
  | take
  /-- `commit` up to line 369; `order` is the iteration order of the map in 370 -/
  | beginCommit (order : List Nat)
  /-- one iteration of 339-355, or the next partition of 370 -/
  | wait
  /-- lines 376-389 succeed; `order` is the iteration order of the map in 446 -/
  | endTxn (order : List Nat)
  /-- one partition of 446-463, or the end of `clearState` -/
  | release
  /-- line 238 -/
  | giveBack
  /-- `commit` fails (371, 376, 385); the error handler's answer is `Continue` or not -/
  | commitFail (cont : Bool)
  /-- an error arrives on `errorChannel` (213) and the answer is not `Continue` -/
  | asyncFail
  /-- the application produces a record for an event it was given, before completing it -/
  | produce (e : Ev) (x : Nat)
  /-- the application completes an event (`streams/event_context.go:186-188`) -/
  | complete (e : Ev)
  deriving DecidableEq, Repr

/-- The iteration order of a map with these keys. For the `range` over a Go map in `streams/eos_producer.go:394-492`. -/
def IsOrder (order keys : List Nat) : Prop := order.Perm keys

instance (a b : List Nat) : Decidable (IsOrder a b) := inferInstanceAs (Decidable (a.Perm b))

/-- The step function; `none` means the step is not possible now. The places in `streams/eos_producer.go:136-536` are given in `Label`. -/
def step (c : Cfg) (s : Pool) : Label → Option Pool
  | .add e =>
    -- `addEventContext` (296-324) needs the node's `partitionLock`, which `relinquishOwnership` holds for all other nodes
    match s.fwd, s.com with
    | .idle, .relinq _ _ => none
    | .idle, _ =>
      if e.id ∈ s.added.map (fun a => a.1.id) then none else
      some { s with
        nodes := upd s.nodes s.onDeck { s.nodes s.onDeck with
          evs := (s.nodes s.onDeck).evs ++ [e], cnt := (s.nodes s.onDeck).cnt + 1 }
        fwd := .added e
        added := s.added ++ [(e, s.gen)] }
    | _, _ => none
  | .give =>
    match s.fwd with
    | .added e => some { s with
        owner := if s.owner e.part = none then upd s.owner e.part (some s.onDeck) else s.owner
        asg := upd s.asg e.id (some s.onDeck)
        fwd := .given }
    | _ => none
  | .check =>
    match s.fwd with
    | .given => some { s with fwd := if c.target ≤ (s.nodes s.onDeck).load then .trying else .idle }
    | _ => none
  | .tick =>
    match s.fwd with
    | .idle => some { s with fwd := .trying }
    | _ => none
  | .tryFlush =>
    match s.fwd with
    | .trying =>
      if (s.nodes s.onDeck).load = c.max then some { s with fwd := .force }
      else if 0 < (s.nodes s.onDeck).cnt then
        if s.cq.length < c.pending then some { s with cq := s.cq ++ [s.onDeck], fwd := .swap }
        else some { s with fwd := .idle }
      else some { s with fwd := .idle }
    | _ => none
  | .forced =>
    match s.fwd with
    | .force => if s.cq.length < c.pending then some { s with cq := s.cq ++ [s.onDeck], fwd := .swap } else none
    | _ => none
  | .swapIn =>
    match s.fwd, s.free with
    | .swap, q :: free => some { s with
        onDeck := q, free := free, fwd := .idle, gen := s.gen + 1, nodeGen := upd s.nodeGen q (s.gen + 1) }
    | _, _ => none
  | .take =>
    match s.com, s.cq with
    | .idle, p :: cq => some { s with cq := cq, com := .begun p }
    | _, _ => none
  | .beginCommit order =>
    match s.com with
    | .begun p =>
      if IsOrder order (s.nodes p).parts then some { beginCommit s p with com := .fin p [] false order } else none
    | _ => none
  | .wait =>
    match s.com with
    | .fin p (e :: es) flag rest =>
      if e.id ∈ s.done then
        match flag, e.off with
        | false, some o => some { produce s p e.part (.commit e.part (o + 1)) with com := .fin p es true rest }
        | _, _ => some { s with com := .fin p es flag rest }
      else none
    | .fin p [] _ (tp :: rest) => some { s with com := .fin p ((s.nodes p).chain tp) false rest }
    | _ => none
  | .endTxn order =>
    match s.com with
    | .fin p [] _ [] =>
      if IsOrder order (s.nodes p).parts then
        some { s with
          ended := s.ended ++ [(s.nodeGen p, decide ((s.nodes p).produceCnt ≠ 0))]
          com := .relinq p order }
      else none
    | _ => none
  | .release =>
    match s.com with
    | .relinq p (tp :: rest) => some { relinquish c.poolSize s p tp with com := .relinq p rest }
    | .relinq p [] => some { s with nodes := upd s.nodes p (s.nodes p).clear, com := .back p }
    | _ => none
  | .giveBack =>
    match s.com with
    | .back p => some { s with free := s.free ++ [p], com := .idle }
    | _ => none
  | .commitFail cont =>
    match s.com with
    | .fin _ _ _ _ => some { s with com := if cont then .idle else .stopped }
    | _ => none
  | .asyncFail =>
    match s.com with
    | .idle => some { s with com := .stopped }
    | _ => none
  | .produce e x =>
    match s.asg e.id with
    | some p =>
      if e ∈ s.added.map Prod.fst ∧ e.id ∉ s.done then some (produce s p e.part (.user x)) else none
    | none => none
  | .complete e =>
    match s.asg e.id with
    | some _ =>
      if e ∈ s.added.map Prod.fst ∧ e.id ∉ s.done then some { s with done := s.done ++ [e.id] } else none
    | none => none

/-- A sequence of steps. Interleaving of the goroutines of `streams/eos_producer.go:136-536`. -/
def run (c : Cfg) (s : Pool) : List Label → Option Pool
  | [] => some s
  | l :: ls => (step c s l).bind fun s' => run c s' ls

/-- The states that can be reached if the error handler never answers `Continue` to a failed commit (`Continue` is
documented to lose data, `streams/error_handling.go:21-24`). -/
inductive Reach (c : Cfg) : Pool → Prop where
  | init : Reach c (Pool.init c)
  | step {s s' : Pool} (l : Label) : Reach c s → l ≠ .commitFail true → step c s l = some s' → Reach c s'

end Verif.Eos
