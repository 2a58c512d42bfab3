import Mathlib.Tactic.Common
/-
Model of `streams/async_item_queue.go` and `streams/async_scheduler.go`.

The queue functions are sequential (they run under `headLock`).  The scheduler is a transition system: a state holds all
shared variables and the program counter of every goroutine, and a step is one critical section or one channel operation of one goroutine.
A theorem about `Reach` therefore speaks about every interleaving.
-/
namespace Verif.Scheduler

/-- `asyncItemQueue` (async_item_queue.go:40-49).  `head = some x` stands for `peekable = true` with `head == x`;
`peekable = false` always comes with `head = emptyItem`, modelled by `none`.  `buf`/`cap`: contents and capacity of the channel `queue`. -/
structure Queue (T : Type) where
  size : Int
  head : Option T
  buf : List T
  cap : Nat

/-- `newAsyncItemQueue` (async_item_queue.go:51-60, minimum at line 21). Negative sizes behave like 0 (line 52). -/
def newQueue {T : Type} (maxSize : Nat) : Queue T :=
  { size := 0, head := none, buf := [], cap := (if maxSize < 2 then 2 else maxSize) - 1 }

/-- `backfill` (async_item_queue.go:62-71); the returned bool is `head.isSome` of the result. -/
def Queue.backfill {T : Type} (q : Queue T) : Queue T :=
  match q.buf with
  | x :: r => { q with head := some x, buf := r }
  | [] => { q with head := none }

/-- The non-blocking send of `tryEnqueue` (async_item_queue.go:86-91). -/
def Queue.trySend {T : Type} (q : Queue T) (x : T) : Queue T × Bool :=
  if q.buf.length < q.cap then ({ q with buf := q.buf ++ [x] }, true) else (q, false)

/-- `tryEnqueue` after `size++` (async_item_queue.go:81-91). -/
def Queue.tryEnqueue1 {T : Type} (q : Queue T) (x : T) : Queue T × Bool :=
  match q.head with
  | some _ => q.trySend x
  | none =>
    match q.backfill.head with
    | some _ => q.backfill.trySend x
    | none => ({ q.backfill with head := some x }, true)

/-- `tryEnqueue` (async_item_queue.go:77-92). -/
def Queue.tryEnqueue {T : Type} (q : Queue T) (x : T) : Queue T × Bool :=
  Queue.tryEnqueue1 { q with size := q.size + 1 } x

/-- Lines 100-103 of `dequeue` (async_item_queue.go:94-104). -/
def Queue.take {T : Type} (q : Queue T) : Queue T × Option T :=
  (Queue.backfill { q with size := q.size - 1 }, q.head)

/-- `dequeue` (async_item_queue.go:94-104). -/
def Queue.dequeue {T : Type} (q : Queue T) : Queue T × Option T :=
  match q.head with
  | some _ => q.take
  | none =>
    match q.backfill.head with
    | some _ => q.backfill.take
    | none => (q.backfill, none)

/-- `peek` (async_item_queue.go:106-110): it does not backfill. -/
def Queue.peek {T : Type} (q : Queue T) : Option T := q.head

/-- `done` (async_item_queue.go:112-116). -/
def Queue.done {T : Type} (q : Queue T) : Bool := decide (q.size ≤ 0)

/-- The blocking send `enqueueChannel() <- item` at the moment it succeeds (async_item_queue.go:73-75, async_scheduler.go:63). -/
def Queue.put {T : Type} (q : Queue T) (x : T) : Option (Queue T) :=
  if q.buf.length < q.cap then some { q with buf := q.buf ++ [x] } else none

/-- Everything stored in the queue, oldest first (specification helper; head and channel of async_item_queue.go:40-49). -/
def Queue.contents {T : Type} (q : Queue T) : List T := q.head.toList ++ q.buf

/-- `asyncJobContainer` (async_scheduler.go:27-33): the key, the goroutine that scheduled the job, and a number standing for event context and value. -/
structure Job (K : Type) where
  key : K
  caller : Nat
  id : Nat
deriving DecidableEq

/-- `worker` (async_scheduler.go:39-47).  The counter `depth` is never read by the scheduler and is left out; `processor` and `ctx` are shared by all workers.
`key = none` is the zero key set by `reset` (lines 49-51). -/
structure Worker (K : Type) where
  capacity : Nat
  queue : Queue (Job K)
  key : Option K

/-- What a goroutine is doing.  Caller goroutines run `Schedule` (async_scheduler.go:231-279) or `SetMaxConcurrentKeys` (310-349), the
`Concurrency` worker goroutines run `work` (281-301). -/
inductive Phase (K : Type) where
  /-- outside the scheduler -/
  | idle
  /-- top of the loop in `scheduleItem` (async_scheduler.go:249-250) -/
  | want (x : Job K)
  /-- in `waitForWorker` (async_scheduler.go:255, 351-353) -/
  | waiting (x : Job K)
  /-- in `blockingAddItem` (async_scheduler.go:275, 61-67) -/
  | blockAdd (w : Nat) (x : Job K)
  /-- in `enqueueWorker` for a worker just created (async_scheduler.go:277) -/
  | enq (w : Nat)
  /-- in the transfer loop of `ensureWorkerChannelCapacity` (async_scheduler.go:337-344), `n = newSize`, `i` the loop counter -/
  | xfer (n i : Nat)
  /-- top of the loop of `work` (async_scheduler.go:282-283) -/
  | wTop
  /-- in the `select` of `work` (async_scheduler.go:283-289), receiving from channel `r` -/
  | wWait (r : Nat)
  /-- entering `process` (async_scheduler.go:286, 78-87) -/
  | wGot (w : Nat)
  /-- the user's processor runs (async_scheduler.go:88) -/
  | wProc (w : Nat) (x : Job K)
  /-- after `advance` (async_scheduler.go:89), before `AsyncJobComplete` (line 90) -/
  | wAdv (w : Nat) (x : Job K)
  /-- entering `releaseWorker` (async_scheduler.go:287, 382-386) -/
  | wRel (w : Nat)
  /-- in `workerAvailable` (async_scheduler.go:392, 355-363) -/
  | wSig
  /-- in `enqueueWorker` called by `releaseWorker` (async_scheduler.go:396) -/
  | wEnq (w : Nat)
  /-- returned from `work` (async_scheduler.go:298) -/
  | wExit
deriving DecidableEq

/-- The observable events of the scheduler, recorded only for stating theorems: a job was accepted by `Schedule` (async_scheduler.go:235),
its processor call started (line 88), its completion was submitted (line 90). -/
inductive Ev (K : Type) where
  | sched (x : Job K)
  | start (x : Job K)
  | comp (x : Job K)
deriving DecidableEq

/-- `AsyncJobScheduler` (async_scheduler.go:106-118) plus all goroutines.
`chans r`/`caps r` are contents and capacity of the `r`-th worker channel ever created, `cur` the one in `workerChannel`
(all older ones are closed, line 347); `rw` says that `updateRWLock` is write locked; `wk w` is the `w`-th worker object allocated, `pool` the
objects in `workerPool`; `sig` says that `workerFreeSignal` (capacity 1) is full; `closed` is `isClosed()` and `ctx.Err() != nil`. -/
structure State (K : Type) where
  closed : Bool
  sig : Bool
  map : List (K × Nat)
  maxKeys : Nat
  depth : Nat
  chans : Nat → List Nat
  caps : Nat → Nat
  cur : Nat
  rw : Bool
  wk : Nat → Worker K
  nw : Nat
  pool : List Nat
  threads : Nat → Phase K
  log : List (Ev K)

/-- Function update, used for every Go assignment to one goroutine's or one object's state (async_scheduler.go:27-414). -/
def upd {β : Type} (f : Nat → β) (i : Nat) (v : β) : Nat → β := fun j => if j = i then v else f j

/-- Moves goroutine `t` on (program counter update, async_scheduler.go:231-301). -/
def State.goto {K : Type} (s : State K) (t : Nat) (p : Phase K) : State K := { s with threads := upd s.threads t p }

/-- Changes worker object `w` (async_scheduler.go:39-47). -/
def State.setQ {K : Type} (s : State K) (w : Nat) (q : Queue (Job K)) : State K :=
  { s with wk := upd s.wk w { s.wk w with queue := q } }

/-- `SchedulerConfig` (async_scheduler.go:120-122); negative values are rejected (lines 178-183) or behave like 0. -/
structure Config where
  concurrency : Nat
  depth : Nat
  maxKeys : Nat

/-- `concurrentKeys` (async_scheduler.go:125-130). -/
def Config.concurrentKeys (c : Config) : Nat := if c.concurrency > c.maxKeys then c.concurrency else c.maxKeys

/-- `NewAsyncJobScheduler` (async_scheduler.go:172-210).  The first `concurrency` goroutines run `work`, all others are possible callers.
`warmup` (374-380) only pre-allocates; its workers are modelled as allocated on first use. -/
def init {K : Type} (c : Config) : State K where
  closed := false
  sig := false
  map := []
  maxKeys := c.concurrentKeys
  depth := c.depth
  chans := fun _ => []
  caps := fun _ => c.concurrentKeys + 1
  cur := 0
  rw := false
  wk := fun _ => { capacity := 0, queue := newQueue 0, key := none }
  nw := 0
  pool := []
  threads := fun t => if t < c.concurrency then .wTop else .idle
  log := []

variable {K : Type} [DecidableEq K]

/-- `ap.workerMap[key]` (async_scheduler.go:402). -/
def State.lookup (s : State K) (k : K) : Option Nat := (s.map.find? (fun p => decide (p.1 = k))).map (·.2)

/-- The worker `workerPool.Get` hands out in `grabWorker` (async_scheduler.go:406-409): `pick = some w` takes pooled `w` of the right capacity,
`none` allocates a new one (`newQueue`, lines 220-228).  Which of the two happens is up to `sync.Pool`, so it is a parameter of the step.
Workers of another capacity, which the Go loop throws away, stay in the model's pool. -/
def State.poolGet (s : State K) (pick : Option Nat) : Option (State K × Nat) :=
  match pick with
  | some w => if w ∈ s.pool ∧ (s.wk w).capacity = s.depth then some ({ s with pool := s.pool.erase w }, w) else none
  | none => some ({ s with wk := upd s.wk s.nw { capacity := s.depth, queue := newQueue s.depth, key := none }, nw := s.nw + 1 }, s.nw)

/-- Lines 410-411 of `grabWorker` (async_scheduler.go:399-414). -/
def State.bind (s : State K) (k : K) (w : Nat) : State K :=
  { s with wk := upd s.wk w { s.wk w with key := some k }, map := s.map ++ [(k, w)] }

/-- `tryAddItem` under `mux`, then what the goroutine does next (async_scheduler.go:271-278, 53-59). -/
def State.add (s : State K) (t : Nat) (x : Job K) (w : Nat) (created : Bool) : State K :=
  let r := (s.wk w).queue.tryEnqueue x
  (s.setQ w r.1).goto t (if r.2 = false then .blockAdd w x else if created then .enq w else .idle)

/-- The critical section of `scheduleItem` (async_scheduler.go:250-272 with `grabWorker` 399-414). -/
def State.lock (s : State K) (t : Nat) (x : Job K) (pick : Option Nat) : Option (State K) :=
  match s.lookup x.key with
  | some w => some (s.add t x w false)
  | none =>
    if s.map.length ≥ s.maxKeys then some (s.goto t (.waiting x))
    else (s.poolGet pick).map (fun r => (r.1.bind x.key r.2).add t x r.2 true)

/-- The critical section of `releaseWorker` (async_scheduler.go:386-396). -/
def State.release (s : State K) (t w : Nat) : State K :=
  if (s.wk w).queue.done then
    { (s.goto t .wSig) with
      map := s.map.filter (fun p => decide (some p.1 ≠ (s.wk w).key))
      wk := upd s.wk w { s.wk w with key := none }
      pool := w :: s.pool }
  else s.goto t (.wEnq w)

/-- A send on the current worker channel (`enqueueWorker`, async_scheduler.go:365-372): waits for the lock and for room. -/
def State.send (s : State K) (t w : Nat) (next : Phase K) : Option (State K) :=
  if s.rw = false ∧ (s.chans s.cur).length < s.caps s.cur then
    some { (s.goto t next) with chans := upd s.chans s.cur (s.chans s.cur ++ [w]) }
  else none

/-- The receive in `work` (async_scheduler.go:284-286); a closed empty channel yields nil, which is skipped. -/
def State.recv (s : State K) (t r : Nat) : Option (State K) :=
  match s.chans r with
  | w :: rest => some { (s.goto t (.wGot w)) with chans := upd s.chans r rest }
  | [] => if r < s.cur then some (s.goto t .wTop) else none

/-- `process` up to the processor call (async_scheduler.go:78-88). -/
def State.peekStep (s : State K) (t w : Nat) : State K :=
  if s.closed then s.goto t (.wRel w)
  else match (s.wk w).queue.peek with
    | none => s.goto t (.wRel w)
    | some x => { (s.goto t (.wProc w x)) with log := s.log ++ [.start x] }

/-- `SetMaxConcurrentKeys` up to the transfer loop (async_scheduler.go:310-335). -/
def State.setMax (s : State K) (t n : Nat) : Option (State K) :=
  if s.rw = false then
    if n > s.maxKeys then
      some { (s.goto t (.xfer n 0)) with
        maxKeys := n, rw := true
        chans := upd s.chans (s.cur + 1) [], caps := upd s.caps (s.cur + 1) (n + 1) }
    else some { s with maxKeys := n }
  else none

/-- Leaving `ensureWorkerChannelCapacity` (async_scheduler.go:346-347): the new channel is published, the old one closed, the lock released. -/
def State.publish (s : State K) (t : Nat) : State K := { (s.goto t .idle) with cur := s.cur + 1, rw := false }

/-- One round of the transfer loop (async_scheduler.go:337-344). -/
def State.xferStep (s : State K) (t n i : Nat) : State K :=
  if i < n then
    match s.chans s.cur with
    | w :: rest => { (s.goto t (.xfer n (i + 1))) with
        chans := upd (upd s.chans s.cur rest) (s.cur + 1) (s.chans (s.cur + 1) ++ [w]) }
    | [] => s.publish t
  else s.publish t

/-- The steps; the numbers are goroutines (async_scheduler.go:231-397). -/
inductive Label (K : Type) where
  | call (x : Job K)
  | lock (t : Nat) (pick : Option Nat)
  | wake (t : Nat)
  | put (t : Nat)
  | cancel (t : Nat)
  | send (t : Nat)
  | eval (t : Nat)
  | recv (t : Nat)
  | exit (t : Nat)
  | peek (t : Nat)
  | finish (t : Nat)
  | complete (t : Nat)
  | release (t : Nat)
  | signal (t : Nat)
  | setMax (t n : Nat)
  | xfer (t : Nat)
  | setDepth (n : Nat)
  | close

/-- One step of the scheduler; `none` when the step is not possible.
`call`: `Schedule` (231-235; when closed it returns Complete and does nothing). `lock`: lines 250-272. `wake`: lines 255-258. `put`/`cancel`: the two cases of
`blockingAddItem` (61-67). `send`: `enqueueWorker` (365-372). `eval`/`recv`/`exit`: the `select` of `work` (283-299). `peek`, `finish`, `complete`: `process` (78-91), where
`finish` is the return of the processor followed by `advance`. `release`, `signal`: `releaseWorker` (382-397).
`setMax`/`xfer`: 310-349. `setDepth`: 303-305. `close`: the run status ends.  All line numbers: async_scheduler.go. -/
def step (s : State K) : Label K → Option (State K)
  | .call x => match s.threads x.caller with
    | .idle => if s.closed then none else some { (s.goto x.caller (.want x)) with log := s.log ++ [.sched x] }
    | _ => none
  | .lock t pick => match s.threads t with
    | .want x => s.lock t x pick
    | _ => none
  | .wake t => match s.threads t with
    | .waiting x => if s.sig then some { (s.goto t (if s.closed then .idle else .want x)) with sig := false } else none
    | _ => none
  | .put t => match s.threads t with
    | .blockAdd w x => ((s.wk w).queue.put x).map (fun q => (s.setQ w q).goto t .idle)
    | _ => none
  | .cancel t => match s.threads t with
    | .blockAdd _ _ => if s.closed then some (s.goto t .idle) else none
    | _ => none
  | .send t => match s.threads t with
    | .enq w => s.send t w .idle
    | .wEnq w => s.send t w .wTop
    | _ => none
  | .eval t => match s.threads t with
    | .wTop => some (s.goto t (.wWait s.cur))
    | _ => none
  | .recv t => match s.threads t with
    | .wWait r => s.recv t r
    | _ => none
  | .exit t => match s.threads t with
    | .wWait _ => if s.closed then some { (s.goto t .wExit) with sig := true } else none
    | _ => none
  | .peek t => match s.threads t with
    | .wGot w => some (s.peekStep t w)
    | _ => none
  | .finish t => match s.threads t with
    | .wProc w x => some ((s.setQ w (s.wk w).queue.dequeue.1).goto t (.wAdv w x))
    | _ => none
  | .complete t => match s.threads t with
    | .wAdv w x => some { (s.goto t (.wRel w)) with log := s.log ++ [.comp x] }
    | _ => none
  | .release t => match s.threads t with
    | .wRel w => some (s.release t w)
    | _ => none
  | .signal t => match s.threads t with
    | .wSig => some { (s.goto t .wTop) with sig := if s.closed then s.sig else true }
    | _ => none
  | .setMax t n => match s.threads t with
    | .idle => s.setMax t n
    | _ => none
  | .xfer t => match s.threads t with
    | .xfer n i => some (s.xferStep t n i)
    | _ => none
  | .setDepth n => some { s with depth := n }
  | .close => some { s with closed := true }

/-- A run: the steps one after the other (async_scheduler.go:172-414). -/
def run (s : State K) : List (Label K) → Option (State K)
  | [] => some s
  | l :: ls => (step s l).bind (fun s' => run s' ls)

/-- The states reachable from a new scheduler (async_scheduler.go:172-210). -/
def Reach (c : Config) (s : State K) : Prop := ∃ ls, run (init c) ls = some s

end Verif.Scheduler
