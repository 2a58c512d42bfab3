import Mathlib.Tactic.Common
/-
The fields of the producer nodes and the goroutines that use them: the forwarder, the commit loop, the goroutines that handle the events, and the callbacks of the Kafka client.

Most of these fields have no lock of their own: a node is handed from the forwarder to the commit loop and back through two channels, and the commit loop waits for the events of the node and for the client
before it resets the node. As in `Verif.Races`, a goroutine is the list of what it does with shared fields, locks and channels; conditions are left open, so that both branches are possible, except for the
condition `txnContext == nil`, which is evaluated.

Assumptions: no event calls `ProduceRecord` after it was completed; `Flush` of the Kafka client returns without an error only after all callbacks have returned.
-/
namespace Verif.Nodes

/-- The locks of node `n`: `commitWaiter`, `partitionLock`, `produceLock`, `streams/eos_producer.go:262-264`. -/
inductive Lock where
  | commit (n : Nat) | part (n : Nat) | produce (n : Nat)
  deriving DecidableEq, Repr

/-- The fields of a node, `streams/eos_producer.go:249-265`: `txnContext` with `txnContextCancel`, `recordsToProduce`, `produceCnt`, `byteCount`, `eventContextCnt`, `currentPartitions`, `firstEvent`. -/
inductive Field where
  | ctx | records | produced | bytes | events | parts | first
  deriving DecidableEq, Repr

/-- A plain read, a plain write or an operation of `sync/atomic`, `streams/eos_producer.go:174,525`. -/
inductive Acc where
  | read | write | atomic
  deriving DecidableEq, Repr

/-- What a goroutine does: a lock, an access to a field of node `n`; the condition `txnContext == nil` (`ensure`, a read) with the assignment if it holds (`setCtx`), `streams/eos_producer.go:482-487,516-521`; the
assignment of `nil`, `403`; the hand-over of the node to the goroutine of an event (`grant`, `153`); `client.Produce` (`produce`, `522`); the hand-overs of the node, `186,195,238`; the places at which `commit` waits
for the events and the client (`343-345,375`), and those at which it may fail (`371,378,387`). -/
inductive Instr where
  | lock (l : Lock)
  | unlock (l : Lock)
  | rlock (l : Lock)
  | runlock (l : Lock)
  | acc (n : Nat) (f : Field) (a : Acc)
  | ensure (n : Nat)
  | setCtx (n : Nat)
  | clearCtx (n : Nat)
  | grant (n : Nat)
  | produce (n : Nat)
  | enqueue (n : Nat)
  | giveBack (n : Nat)
  | lose (n : Nat)
  | waitEvents (n : Nat)
  | waitClient (n : Nat)
  | mayFail (n : Nat)
  deriving DecidableEq, Repr

/-- The goroutines: the forwarder (`streams/eos_producer.go:162-171`), the commit loop (`208-227`), the goroutine of an open event of node `n` (`streams/partition_worker.go:289-330`), a callback of the client for a record of node `n`
(`streams/eos_producer.go:522-537`), and one that has ended. -/
inductive Role where
  | forwarder | committer | event (n : Nat) | callback (n : Nat) | gone
  deriving DecidableEq, Repr

/-- A goroutine with the locks it holds (`true`: exclusively) and what it still does, `streams/eos_producer.go:131-132`. -/
structure Thread where
  role : Role
  held : List (Lock × Bool)
  rest : List Instr
  deriving DecidableEq, Repr

/-! ### The functions -/

/-- `l.Lock(); …; l.Unlock()`, as in `streams/eos_producer.go:363-368`. -/
def within (l : Lock) (is : List Instr) : List Instr := .lock l :: is ++ [.unlock l]

/-- `addEventContext` of node `n`, `streams/eos_producer.go:296-324`; `first`: it is the first event of the transaction. -/
def addEvent (n : Nat) (first : Bool) : List Instr :=
  within (.commit n) (within (.part n) (.acc n .events .read :: (if first then [.acc n .first .write] else []) ++ [.acc n .events .read, .acc n .events .write, .acc n .parts .read, .acc n .parts .write]))

/-- `shouldTryFlush`, `shouldForceFlush`, `streams/eos_producer.go:173-179`. -/
def full (n : Nat) : List Instr := [.acc n .events .read, .acc n .produced .atomic]

/-- `tryFlush`, `streams/eos_producer.go:181-206`: `sends`: the node is put into the queue, by force or because there is room. -/
def tryFlush (n : Nat) (force sends : Bool) : List Instr := full n ++ (if force then [.enqueue n] else .acc n .events .read :: if sends then [.enqueue n] else [])

/-- What the forwarder does next with the node on deck: an event, with or without `tryFlush`, or the timer. `streams/eos_producer.go:143-171`. -/
inductive Turn where
  | event (first : Bool) (flush : Option (Bool × Bool))
  | timer (force sends : Bool)
  deriving DecidableEq, Repr

/-- `forwardExecutionContexts`, one turn, `streams/eos_producer.go:143-171`. (An event of a revoked partition does not touch the node.) -/
def turn (n : Nat) : Turn → List Instr
  | .event first flush => addEvent n first ++ .grant n :: full n ++ match flush with
    | some (force, sends) => tryFlush n force sends
    | none => []
  | .timer force sends => tryFlush n force sends

/-- `produceKafkaRecord` of node `n`, `streams/eos_producer.go:515-538`. -/
def send (n : Nat) : List Instr := [.ensure n, .acc n .ctx .read, .produce n]

/-- `ProduceRecord` of node `n`, `streams/eos_producer.go:494-512`; `owned`: the node owns the partition. -/
def produceRecord (n : Nat) (owned : Bool) : List Instr :=
  within (.produce n) (.acc n .produced .read :: .acc n .produced .write :: if owned then send n else [.acc n .records .read, .acc n .records .write])

/-- `flushRemaining` of node `n` with `k` records, `streams/eos_producer.go:481-491`. -/
def flushRemaining (n k : Nat) : List Instr := .ensure n :: .acc n .records .read :: (List.replicate k (send n)).flatten

/-- `finalizeEventContexts`, `streams/eos_producer.go:336-357`, for one event: `commits` says whether the commit record is produced here. The waiting for all events of the node is put after the last one: fewer waits. -/
def finalizeOne (n : Nat) (commits : Bool) : List Instr := .acc n .ctx .read :: .mayFail n :: if commits then produceRecord n true else []

/-- `flushPartition` of node `m` with `k` records, `streams/eos_producer.go:469-479`. -/
def flushPartition (m k : Nat) : List Instr := .acc m .records .read :: (List.replicate k (send m)).flatten ++ [.acc m .records .read, .acc m .records .write]

/-- `relinquishOwnership` looks at node `m` for a partition, `streams/eos_producer.go:449-457`; with `some k` it finds it and flushes `k` records. -/
def lookAt (m : Nat) (found : Option Nat) : List Instr := within (.produce m) (.acc m .parts .read :: match found with
  | some k => flushPartition m k
  | none => [])

/-- `relinquishOwnership` of node `n`, `streams/eos_producer.go:442-467`; `tps`: for each partition at which nodes it looks and with which result. -/
def relinquish (n : Nat) (others : List Nat) (tps : List (List (Nat × Option Nat))) : List Instr :=
  (others.map fun m => Instr.rlock (.part m)) ++ .acc n .parts .read ::
    (tps.map fun l => (l.map fun x => lookAt x.1 x.2).flatten ++ [.acc n .parts .write]).flatten ++ (others.map fun m => Instr.runlock (.part m))

/-- `clearState` of node `n`, `streams/eos_producer.go:401-431`. -/
def clearState (n : Nat) (others : List Nat) (tps : List (List (Nat × Option Nat))) : List Instr :=
  [.acc n .ctx .read, .clearCtx n, .acc n .parts .read, .acc n .parts .read] ++ relinquish n others tps ++
    [.acc n .produced .read, .acc n .first .read, .acc n .produced .read, .acc n .bytes .read, .acc n .produced .write, .acc n .events .write, .acc n .bytes .write, .acc n .records .read, .acc n .records .write]

/-- How a commit runs: records that wait, the events (`true`: with a commit record), and the partitions. `streams/eos_producer.go:359-399`. -/
structure Plan where
  waiting : Nat
  finals : List Bool
  tps : List (List (Nat × Option Nat))
  deriving DecidableEq, Repr

/-- `commit` of node `n`, `streams/eos_producer.go:359-399` with `229-240`. -/
def commit (n : Nat) (others : List Nat) (p : Plan) : List Instr :=
  within (.commit n) (within (.produce n) (flushRemaining n p.waiting ++ [.acc n .parts .read]) ++ .acc n .parts .read :: (p.finals.map (finalizeOne n)).flatten ++
    [.waitEvents n, .acc n .ctx .read, .mayFail n, .waitClient n, .acc n .produced .read, .acc n .ctx .read, .mayFail n] ++ clearState n others p.tps) ++ [.giveBack n]

/-! ### Executions -/

/-- The pool: the node on deck (none while the forwarder waits for one), `commitQueue`, the node of the running commit, `producerNodeQueue`, the nodes whose commit has failed, whose `txnContext` is not nil, and the
goroutines, of which the first two are the forwarder and the commit loop. `streams/eos_producer.go:81-133`. -/
structure Pool where
  size : Nat
  cap : Nat
  deck : Option Nat
  queue : List Nat
  current : Option Nat
  free : List Nat
  lost : List Nat
  set : Nat → Bool
  threads : List Thread

/-- `newEOSProducerPool` with `size` nodes (at least one, see `Verif.Config`) and a queue of `cap`, `streams/eos_producer.go:96-134`. -/
def init (size cap : Nat) : Pool :=
  { size, cap, deck := some 0, queue := [], current := none, free := (List.range size).drop 1, lost := [], set := fun _ => false, threads := [⟨.forwarder, [], []⟩, ⟨.committer, [], []⟩] }

/-- The other nodes, in the order of `next`, `streams/eos_producer.go:113-128,443`. -/
def Pool.others (s : Pool) (n : Nat) : List Nat := (List.range s.size).filter (· ≠ n)

/-- Goroutine `i` is replaced. (`streams/eos_producer.go:131-132`) -/
def Pool.put (s : Pool) (i : Nat) (t : Thread) : Pool := { s with threads := s.threads.set i t }

/-- A new goroutine: of an event, which waits for its node (`streams/eos_producer.go:153`), or of the client (`522`). -/
def Pool.spawn (s : Pool) (t : Thread) : Pool := { s with threads := s.threads ++ [t] }

/-- Goroutine `i` (`t`) does its next step, if it can. Go's locks and channels, as in `streams/eos_producer.go:181-240,342-399`. -/
def exec (s : Pool) (i : Nat) (t : Thread) : Option Pool :=
  match t.rest with
  | [] => none
  | .lock l :: is => if ∀ u ∈ s.threads, (l, true) ∉ u.held ∧ (l, false) ∉ u.held then some (s.put i ⟨t.role, (l, true) :: t.held, is⟩) else none
  | .rlock l :: is => if ∀ u ∈ s.threads, (l, true) ∉ u.held then some (s.put i ⟨t.role, (l, false) :: t.held, is⟩) else none
  | .unlock l :: is => some (s.put i ⟨t.role, t.held.erase (l, true), is⟩)
  | .runlock l :: is => some (s.put i ⟨t.role, t.held.erase (l, false), is⟩)
  | .acc _ _ _ :: is => some (s.put i ⟨t.role, t.held, is⟩)
  | .ensure n :: is => some (s.put i ⟨t.role, t.held, if s.set n then is else .setCtx n :: is⟩)
  | .setCtx n :: is => some ({ s with set := fun m => if m = n then true else s.set m }.put i ⟨t.role, t.held, is⟩)
  | .clearCtx n :: is => some ({ s with set := fun m => if m = n then false else s.set m }.put i ⟨t.role, t.held, is⟩)
  | .grant n :: is => some ((s.put i ⟨t.role, t.held, is⟩).spawn ⟨.event n, [], []⟩)
  | .produce n :: is => some ((s.put i ⟨t.role, t.held, is⟩).spawn ⟨.callback n, [], [.acc n .bytes .atomic]⟩)
  | .enqueue n :: is => if s.queue.length < s.cap then some ({ s with deck := none, queue := s.queue ++ [n] }.put i ⟨t.role, t.held, is⟩) else none
  | .giveBack n :: is => some ({ s with current := none, free := s.free ++ [n] }.put i ⟨t.role, t.held, is⟩)
  | .lose n :: is => some ({ s with current := none, lost := s.lost ++ [n] }.put i ⟨t.role, t.held, is⟩)
  | .waitEvents n :: is => if ∀ u ∈ s.threads, u.role ≠ .event n then some (s.put i ⟨t.role, t.held, is⟩) else none
  | .waitClient n :: is => if ∀ u ∈ s.threads, u.role ≠ .callback n then some (s.put i ⟨t.role, t.held, is⟩) else none
  | .mayFail _ :: is => some (s.put i ⟨t.role, t.held, is⟩)

/-- What can happen: a turn of the forwarder (`streams/eos_producer.go:162-171`); it gets a node (`187,196`); the commit loop gets a node (`212`); the commit fails (`371,378,387`) and the handler of errors says `Continue` (`217`); an
event calls `ProduceRecord` (`494`); an event or a callback ends (`streams/event_context.go:187`, `streams/eos_producer.go:537`); a goroutine does its next step. -/
inductive Act where
  | turn (t : Turn)
  | takeFree
  | takeQueued (p : Plan)
  | fail
  | produce (i : Nat) (owned : Bool)
  | finish (i : Nat)
  | go (i : Nat)
  deriving DecidableEq, Repr

/-- One step. `streams/eos_producer.go:143-240`. -/
def step (s : Pool) : Act → Option Pool
  | .turn x =>
    match s.deck, s.threads[0]? with
    | some n, some (Thread.mk r h []) => some (s.put 0 ⟨r, h, turn n x⟩)
    | _, _ => none
  | .takeFree =>
    match s.deck, s.free, s.threads[0]? with
    | none, n :: fs, some (Thread.mk _ _ []) => some { s with deck := some n, free := fs }
    | _, _, _ => none
  | .takeQueued p =>
    match s.current, s.queue, s.threads[1]? with
    | none, n :: q, some (Thread.mk r h []) =>
      if ∀ l ∈ p.tps, ∀ x ∈ l, x.1 ∈ s.others n then some ({ s with current := some n, queue := q }.put 1 ⟨r, h, commit n (s.others n) p⟩) else none
    | _, _, _ => none
  | .fail =>
    match s.threads[1]? with
    | some (Thread.mk r h (.mayFail n :: _)) => some (s.put 1 ⟨r, h, [.unlock (.commit n), .lose n]⟩)
    | _ => none
  | .produce i owned =>
    match s.threads[i]? with
    | some (Thread.mk (.event n) h []) => some (s.put i ⟨.event n, h, produceRecord n owned⟩)
    | _ => none
  | .finish i =>
    match s.threads[i]? with
    | some (Thread.mk (.event _) _ []) => some (s.put i ⟨.gone, [], []⟩)
    | some (Thread.mk (.callback _) _ []) => some (s.put i ⟨.gone, [], []⟩)
    | _ => none
  | .go i =>
    match s.threads[i]? with
    | some t => exec s i t
    | none => none

/-- Several steps. `streams/eos_producer.go:143-240`. -/
def run (s : Pool) : List Act → Option Pool
  | [] => some s
  | a :: as => (step s a).bind fun s' => run s' as

/-- Reachable states of a pool. `streams/eos_producer.go:96-240`. -/
def Reach (size cap : Nat) (s : Pool) : Prop := ∃ as, run (init size cap) as = some s

end Verif.Nodes
