import Verif.Eos.Model
/-
The memory that belongs to one key of an `AsyncJobScheduler`: what the function of the application may use for the jobs of a key without locks of its own ("for a given key, all work is serial allowing the use of the single writer principle",
`streams/async_scheduler.go:93-96`), the values of the jobs, and the fields of the scheduler and of the queues of its workers; which goroutine reads and writes them when, and what orders these accesses.

The state has the list of all accesses and of all that orders goroutines so far: `mux` of the scheduler, `headLock` of each queue, and the channels `workerChannel`, `queue` and `asyncJobs`. Simplifications: what happens under `mux` is one step (with the
`headLock` inside it), and so is what happens under `headLock` alone; limits are left out, so that a queue may be full at any time and a key may always get a worker (more than the code allows); a goroutine of the pool may have several workers at once (more than
the code allows); `SetMaxConcurrentKeys` is left out (C20, C92), also closing (C95): what is left in queues then is not touched any more. `depth` is an atomic number that nothing reads. Values are left out.
-/
namespace Verif.Serial
open Verif.Eos (upd)

/-- The goroutines: `work` of a partition worker, where handlers and finalizers run (`streams/partition_worker.go:230-250`); `work` of the scheduler (`streams/async_scheduler.go:206-208,281-301`). -/
inductive Gor where
  | work (p : Nat) | pool (g : Nat)
  deriving DecidableEq, Repr

/-- What is shared: the fields of the scheduler and `key` of its workers, used under `mux` (`streams/async_scheduler.go:45,104-116`); `head`, `size` and `peekable` of the queue of a worker (`streams/async_item_queue.go:40-49`); the value of a job
(`streams/async_scheduler.go:27-33`); what belongs to a key (`streams/async_scheduler.go:93-96`). -/
inductive Loc where
  | shared | head (w : Nat) | job (j : Nat) | key (k : Nat)
  deriving DecidableEq, Repr

/-- The locks: `mux`, `headLock` (`streams/async_scheduler.go:113`, `streams/async_item_queue.go:43`). -/
inductive Lck where
  | mux | head (w : Nat)
  deriving DecidableEq, Repr

/-- What is sent: a worker on `workerChannel`, for the `n`th time (`streams/async_scheduler.go:365-372`); a job on the channel of a queue (`streams/async_item_queue.go:87`, `streams/async_scheduler.go:63`); a finished job on `asyncJobs`
(`streams/async_scheduler.go:90`). -/
inductive Msg where
  | wk (n : Nat) | item (j : Nat) | fin (j : Nat)
  deriving DecidableEq, Repr

/-- An access (`w`: a write), a send, a receive, the locks (`streams/async_scheduler.go:245-279`). -/
inductive Op where
  | acc (g : Gor) (l : Loc) (w : Bool)
  | snd (g : Gor) (m : Msg)
  | rcv (g : Gor) (m : Msg)
  | lock (g : Gor) (m : Lck)
  | unlock (g : Gor) (m : Lck)
  deriving DecidableEq, Repr

/-- A job: made; in `head` of a queue; in the channel of a queue; counted, but waiting in `blockingAddItem`; with the goroutine that processes the worker; on `asyncJobs`; finalized (`streams/async_scheduler.go:61-91,231-279`). -/
inductive JSt where
  | new | head (w : Nat) | chan (w : Nat) | wait (w : Nat) | proc (w : Nat) | sent | fin
  deriving DecidableEq, Repr

/-- A worker of the scheduler: in `workerPool`; with a goroutine that is about to put it on `workerChannel`; on it; with a goroutine of the pool (`streams/async_scheduler.go:275-277,284-288,382-413`). -/
inductive WSt where
  | free | give (g : Gor) | chan (n : Nat) | held (g : Nat)
  deriving DecidableEq, Repr

/-- How far `process` is: nothing done, a job seen by `peek`, that job dequeued, at its end (`streams/async_scheduler.go:78-91`). -/
inductive Ph where
  | took | busy (j : Nat) | adv (j : Nat) | past
  deriving DecidableEq, Repr

/-- The trace; the jobs, their keys and partition workers, where they are; `workerMap`; of each worker its key, the jobs that are counted in `size` (the code has their number), `head`, the channel, where it is and how far `process` is; how often a worker was put
on `workerChannel` (`streams/async_scheduler.go:27-47,104-116`, `streams/async_item_queue.go:40-49`). -/
structure St where
  tr : List Op
  jobs : Nat
  jk : Nat → Nat
  own : Nat → Nat
  jst : Nat → JSt
  map : Nat → Option Nat
  wkey : Nat → Nat
  mem : Nat → List Nat
  head : Nat → Option Nat
  q : Nat → List Nat
  wst : Nat → WSt
  ph : Nat → Ph
  sends : Nat

/-- A new scheduler (`streams/async_scheduler.go:172-210`). -/
def St.init : St :=
  { tr := [], jobs := 0, jk := fun _ => 0, own := fun _ => 0, jst := fun _ => .new, map := fun _ => none, wkey := fun _ => 0, mem := fun _ => [], head := fun _ => none, q := fun _ => [], wst := fun _ => .free, ph := fun _ => .took, sends := 0 }

/-- What can happen (`streams/async_scheduler.go:61-91,231-301,365-413`). -/
inductive Act where
  /-- a handler makes a job for key `k` and calls `Schedule` (`streams/async_scheduler.go:231-243`) -/
  | make (p k : Nat)
  /-- `scheduleItem`: `grabWorker` and `tryAddItem` under `mux`; `w`: the worker from the pool if the key has none; `full`: the channel has no room (`streams/async_scheduler.go:245-273,399-413`) -/
  | add (j w : Nat) (full : Bool)
  /-- `blockingAddItem` (`streams/async_scheduler.go:61-67,275-276`) -/
  | block (j : Nat)
  /-- `enqueueWorker` (`streams/async_scheduler.go:277,365-372,396`) -/
  | enq (w : Nat)
  /-- a goroutine of the pool receives a worker (`streams/async_scheduler.go:284`) -/
  | take (g w : Nat)
  /-- `peek` (`streams/async_scheduler.go:84-87`, `streams/async_item_queue.go:106-110`) -/
  | peek (w : Nat)
  /-- the function of the application uses the memory of the key and the value of the job (`streams/async_scheduler.go:88`) -/
  | proc (w : Nat)
  /-- `advance` (`streams/async_scheduler.go:69-76,89`, `streams/async_item_queue.go:94-104`) -/
  | adv (w : Nat)
  /-- `AsyncJobComplete` (`streams/async_scheduler.go:90`) -/
  | comp (w : Nat)
  /-- `releaseWorker`, what is under `mux` (`streams/async_scheduler.go:382-395`) -/
  | rel (w : Nat)
  /-- the partition worker takes the finished job and calls its finalizer (`streams/partition_worker.go:239-240,258-263`) -/
  | fin (j : Nat)
  /-- the finalizer, or what runs in this partition worker afterwards, uses the value of the job (`streams/async_scheduler.go:35-37`) -/
  | use (j : Nat)
  deriving DecidableEq, Repr

/-- The worker of the key: the one it has, or one from the pool (`streams/async_scheduler.go:399-413`). -/
def grab (s : St) (k w : Nat) : Option Nat :=
  match s.map k with
  | some w' => some w'
  | none => if s.wst w = .free then some w else none

/-- `backfill`: what it does with the trace (`streams/async_item_queue.go:62-71`). -/
def fillOps (s : St) (g : Gor) (w : Nat) : List Op :=
  match s.q w with
  | [] => []
  | j :: _ => [.rcv g (.item j)]

/-- `backfill`: the new `head` (`streams/async_item_queue.go:62-71`). -/
def fill (s : St) (w : Nat) : St :=
  match s.q w with
  | [] => { s with head := upd s.head w none }
  | j :: q => { s with head := upd s.head w (some j), q := upd s.q w q, jst := upd s.jst j (.head w) }

/-- `tryEnqueue`, what it does with the state but for the counting (`streams/async_item_queue.go:77-92`). -/
def enqueue (s : St) (j w : Nat) (full : Bool) : St :=
  let s1 : St := if s.head w = none then fill s w else s
  if s1.head w = none then { s1 with head := upd s1.head w (some j), jst := upd s1.jst j (.head w) }
  else if full then { s1 with jst := upd s1.jst j (.wait w) }
  else { s1 with q := upd s1.q w (s1.q w ++ [j]), jst := upd s1.jst j (.chan w) }

/-- `tryEnqueue`, what it does with the trace (`streams/async_item_queue.go:77-92`). -/
def enqueueOps (s : St) (g : Gor) (j w : Nat) (full : Bool) : List Op :=
  (if s.head w = none then fillOps s g w else []) ++ (if s.head w = none ∧ s.q w = [] then [] else if full then [] else [.snd g (.item j)])

/-- The step function; places at `Act` (`streams/async_scheduler.go:61-91,231-301,365-413`). -/
def step (s : St) : Act → Option St
  | .make p k => some { s with tr := s.tr ++ [.acc (.work p) (.job s.jobs) true], jobs := s.jobs + 1, jk := upd s.jk s.jobs k, own := upd s.own s.jobs p, jst := upd s.jst s.jobs .new }
  | .add j w0 full =>
    if j < s.jobs ∧ s.jst j = .new then
      (grab s (s.jk j) w0).map fun w =>
        let g := Gor.work (s.own j)
        let created := (s.map (s.jk j)).isNone
        { enqueue s j w full with
          tr := s.tr ++ ([.lock g .mux, .acc g .shared true, .lock g (.head w), .acc g (.head w) true] ++ enqueueOps s g j w full ++ [.unlock g (.head w), .unlock g .mux])
          map := upd s.map (s.jk j) (some w), wkey := upd s.wkey w (s.jk j), mem := upd s.mem w (s.mem w ++ [j]), wst := if created then upd s.wst w (.give g) else s.wst }
    else none
  | .block j =>
    match s.jst j with
    | .wait w => if j < s.jobs then some { s with tr := s.tr ++ [.snd (.work (s.own j)) (.item j)], q := upd s.q w (s.q w ++ [j]), jst := upd s.jst j (.chan w) } else none
    | _ => none
  | .enq w =>
    match s.wst w with
    | .give g => some { s with tr := s.tr ++ [.snd g (.wk s.sends)], wst := upd s.wst w (.chan s.sends), sends := s.sends + 1 }
    | _ => none
  | .take g w =>
    match s.wst w with
    | .chan n => some { s with tr := s.tr ++ [.rcv (.pool g) (.wk n)], wst := upd s.wst w (.held g) }
    | _ => none
  | .peek w =>
    match s.wst w, s.ph w with
    | .held g, .took =>
      let s1 : St := { s with tr := s.tr ++ [.lock (.pool g) (.head w), .acc (.pool g) (.head w) false, .unlock (.pool g) (.head w)] }
      match s.head w with
      | some j => some { s1 with jst := upd s.jst j (.proc w), ph := upd s.ph w (.busy j) }
      | none => some { s1 with ph := upd s.ph w .past }
    | _, _ => none
  | .proc w =>
    match s.wst w, s.ph w with
    | .held g, .busy j => some { s with tr := s.tr ++ [.acc (.pool g) (.job j) true, .acc (.pool g) (.key (s.jk j)) true] }
    | _, _ => none
  | .adv w =>
    match s.wst w, s.ph w with
    | .held g, .busy j =>
      some { fill s w with
        tr := s.tr ++ ([.lock (.pool g) (.head w), .acc (.pool g) (.head w) true] ++ fillOps s (.pool g) w ++ [.unlock (.pool g) (.head w)])
        mem := upd s.mem w ((s.mem w).erase j), ph := upd s.ph w (.adv j) }
    | _, _ => none
  | .comp w =>
    match s.wst w, s.ph w with
    | .held g, .adv j => some { s with tr := s.tr ++ [.snd (.pool g) (.fin j)], jst := upd s.jst j .sent, ph := upd s.ph w .past }
    | _, _ => none
  | .rel w =>
    match s.wst w, s.ph w with
    | .held g, .past =>
      let s1 : St := { s with
        tr := s.tr ++ [.lock (.pool g) .mux, .acc (.pool g) .shared true, .lock (.pool g) (.head w), .acc (.pool g) (.head w) false, .unlock (.pool g) (.head w), .unlock (.pool g) .mux]
        ph := upd s.ph w .took }
      if (s.mem w).isEmpty then some { s1 with map := upd s.map (s.wkey w) none, wst := upd s.wst w .free }
      else some { s1 with wst := upd s.wst w (.give (.pool g)) }
    | _, _ => none
  | .fin j => if j < s.jobs ∧ s.jst j = .sent then some { s with tr := s.tr ++ [.rcv (.work (s.own j)) (.fin j)], jst := upd s.jst j .fin } else none
  | .use j => if j < s.jobs ∧ s.jst j = .fin then some { s with tr := s.tr ++ [.acc (.work (s.own j)) (.job j) true] } else none

/-- Several steps (same places, `streams/async_scheduler.go:61-91,231-301,365-413`). -/
def run (s : St) : List Act → Option St
  | [] => some s
  | x :: xs => (step s x).bind fun s' => run s' xs

/-- The reachable states (same places, `streams/async_scheduler.go:61-91,231-301,365-413`). -/
inductive Reach : St → Prop where
  | init : Reach St.init
  | step {s s' : St} (x : Act) : Reach s → step s x = some s' → Reach s'

end Verif.Serial
