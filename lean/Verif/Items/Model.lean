import Verif.Eos.Model
/-
The memory that the goroutines of an `AsyncBatcher` share (`streams/async_batcher.go`): the lists of its executors, the items of batches, and what is kept under its lock; which goroutine reads and writes them when, and what orders these accesses.

The state has the list of all accesses and of all that orders goroutines so far: the lock of the batcher, the starts of `executeBatch`, the atomic counter of a batch, and the channel `asyncJobs` of the workers. Simplifications: limits and keys are
left out, so that an item may go into any executor that is ready or wait, and an executor may start at any time (all this allows more than the code does); what happens under the lock is one step; timers may fire at any time, and their start is not
listed (so fewer accesses are ordered than in the code). Values are left out.
-/
namespace Verif.Items
open Verif.Eos (upd)

/-- The goroutines: `work` of a worker, where handlers and callbacks run (`streams/partition_worker.go:205-250`); the timers of the executors (`streams/async_batcher.go:250-255`); `executeBatch` (`streams/async_batcher.go:267`), one for each execution. -/
inductive Gor where
  | work (w : Nat) | timer (t : Nat) | run (r : Nat)
  deriving DecidableEq, Repr

/-- What is shared: the fields of the batcher that are only used under its lock, with `state` and `flushTimer` of the executors (`streams/async_batcher.go:117-122,157-166`); `items` and `noops` of an executor (`streams/async_batcher.go:118-119`); of an
item the fields that only its making writes (`batch`, `key`, `itemType`), and the others, `Value`, `Err` and `UserData` (`streams/async_batcher.go:33-40`); the fields of a batch (`streams/async_batcher.go:51-57`), without `completed`. -/
inductive Loc where
  | locked | slice (x : Nat) | fixed (i : Nat) | res (i : Nat) | list (b : Nat)
  deriving DecidableEq, Repr

/-- What is sent: the start of an execution (`streams/async_batcher.go:267`), the finished batch on `asyncJobs` (`streams/async_batcher.go:84,283`). -/
inductive Msg where
  | go (r : Nat) | job (b : Nat)
  deriving DecidableEq, Repr

/-- An access (`w`: a write), a send, a receive, the lock, the atomic counter of a batch (`streams/async_batcher.go:83,218-226`). -/
inductive Op where
  | acc (g : Gor) (l : Loc) (w : Bool)
  | snd (g : Gor) (m : Msg)
  | rcv (g : Gor) (m : Msg)
  | lock (g : Gor)
  | unlock (g : Gor)
  | atom (g : Gor) (b : Nat)
  deriving DecidableEq, Repr

/-- An item: made, in `pendingItems`, in an executor, completed (`streams/async_batcher.go:195-226,271-275`). -/
inductive ISt where
  | made | pend | ex (x : Nat) | done
  deriving DecidableEq, Repr

/-- A batch: being filled, given to `Add`, on `asyncJobs`, called back (`streams/async_batcher.go:60-106,195`). -/
inductive BSt where
  | fill | given | sent | called
  deriving DecidableEq, Repr

/-- An execution: started, running, past its `reset` (`streams/async_batcher.go:277-290`). -/
inductive RSt where
  | new | run | late
  deriving DecidableEq, Repr

/-- The trace; the items, their batches and where they are; the batches, their workers, whether they have only a placeholder, the items that are not completed (in the code a counter of those that are, `completed`; they agree by C24), how far they are;
the items of each executor and its execution, if there is one; the executions, their executors and how far they are (`streams/async_batcher.go:33-56,117-122,157-166`). -/
structure St where
  tr : List Op
  items : Nat
  ib : Nat → Nat
  ist : Nat → ISt
  batches : Nat
  own : Nat → Nat
  ph : Nat → Bool
  left : Nat → List Nat
  bst : Nat → BSt
  has : Nat → List Nat
  exe : Nat → Option Nat
  runs : Nat
  rx : Nat → Nat
  rst : Nat → RSt

/-- A new batcher (`streams/async_batcher.go:171-192`). -/
def St.init : St :=
  { tr := [], items := 0, ib := fun _ => 0, ist := fun _ => .made, batches := 0, own := fun _ => 0, ph := fun _ => false, left := fun _ => [], bst := fun _ => .fill, has := fun _ => [], exe := fun _ => none, runs := 0, rx := fun _ => 0
    rst := fun _ => .late }

/-- What can happen (`streams/async_batcher.go:60-115,195-315`). -/
inductive Act where
  /-- `NewBatchItems` (`streams/async_batcher.go:60-66`) -/
  | batch (w : Nat)
  /-- `BatchItems.Add`, `AddWithKey`: one item (`streams/async_batcher.go:89-115`); the placeholder of a batch without items (`streams/async_batcher.go:196-208`) -/
  | item (b : Nat) (ph : Bool)
  /-- `AsyncBatcher.Add` begins (`streams/async_batcher.go:195`) -/
  | give (b : Nat)
  /-- `add`: an item goes into an executor or has to wait (`streams/async_batcher.go:218-226,243-245`) -/
  | add (i : Nat) (x : Option Nat)
  /-- `conditionallyExecuteBatch`, by whoever filled the executor, or by a timer (`streams/async_batcher.go:247-255,259-269`) -/
  | start (g : Gor) (x : Nat)
  /-- `executeBatch` begins (`streams/async_batcher.go:277`) -/
  | begin (r : Nat)
  /-- the function of the application reads and writes an item (`streams/async_batcher.go:279`) -/
  | exec (r i : Nat)
  /-- `completeItem`, or the completion of a placeholder (`streams/async_batcher.go:82-86,271-275,282-284`) -/
  | complete (r i : Nat)
  /-- the fixed fields of an item of the executor are read: `item.batch`, or `item.key` in `reset` (`streams/async_batcher.go:133,273`). In the code the latter is under the lock. -/
  | look (r i : Nat)
  /-- `reset` (`streams/async_batcher.go:132-143,285-287`) -/
  | finish (r : Nat)
  /-- `flushPendingItems`: an item that waits is looked at and may go into an executor (`streams/async_batcher.go:292-311`) -/
  | flush (r i : Nat) (x : Option Nat)
  /-- the worker takes the finished batch and calls back (`streams/partition_worker.go:239-240,258-263`) -/
  | call (b : Nat)
  /-- the callback, or what runs in this worker afterwards, reads or writes an item (`streams/async_batcher.go:75-80`) -/
  | use (i : Nat) (w : Bool)
  deriving DecidableEq, Repr

/-- An item goes into an executor or waits (`streams/async_batcher.go:220-224,243-245`). -/
def put (s : St) (i : Nat) : Option Nat → St
  | some x => { s with ist := upd s.ist i (.ex x), has := upd s.has x (s.has x ++ [i]) }
  | none => { s with ist := upd s.ist i .pend }

/-- May the item go there? (`streams/async_batcher.go:228-241`.) -/
def room (s : St) : Option Nat → Bool
  | some x => (s.exe x).isNone
  | none => true

/-- What this touches (`streams/async_batcher.go:124-130,220-224`). -/
def touch (g : Gor) : Option Nat → List Op
  | some x => [.acc g (.slice x) true]
  | none => []

/-- The step function; places at `Act` (`streams/async_batcher.go:60-115,195-315`). -/
def step (s : St) : Act → Option St
  | .batch w => some { s with tr := s.tr ++ [.acc (.work w) (.list s.batches) true], batches := s.batches + 1, own := upd s.own s.batches w, ph := upd s.ph s.batches false, left := upd s.left s.batches [], bst := upd s.bst s.batches .fill }
  | .item b p =>
    if b < s.batches ∧ s.bst b = .fill ∧ s.ph b = false ∧ (p = true → s.left b = []) then
      some { s with
        tr := s.tr ++ [.acc (.work (s.own b)) (.list b) true, .acc (.work (s.own b)) (.fixed s.items) true, .acc (.work (s.own b)) (.res s.items) true]
        items := s.items + 1, ib := upd s.ib s.items b, ist := upd s.ist s.items .made, left := upd s.left b (s.left b ++ [s.items]), ph := upd s.ph b p }
    else none
  | .give b => if b < s.batches ∧ s.bst b = .fill ∧ s.left b ≠ [] then some { s with bst := upd s.bst b .given } else none
  | .add i x =>
    let g := Gor.work (s.own (s.ib i))
    if i < s.items ∧ s.ist i = .made ∧ s.bst (s.ib i) = .given ∧ room s x = true then
      some { put s i x with tr := s.tr ++ ([.acc g (.list (s.ib i)) false] ++ [.lock g, .acc g .locked true, .acc g (.fixed i) false] ++ touch g x ++ [.unlock g]) }
    else none
  | .start g x =>
    if s.exe x = none then
      some { s with
        tr := s.tr ++ [.lock g, .acc g .locked true, .acc g (.slice x) false, .snd g (.go s.runs), .unlock g]
        exe := upd s.exe x (some s.runs), rx := upd s.rx s.runs x, rst := upd s.rst s.runs .new, runs := s.runs + 1 }
    else none
  | .begin r => if r < s.runs ∧ s.rst r = .new then some { s with tr := s.tr ++ [.rcv (.run r) (.go r)], rst := upd s.rst r .run } else none
  | .exec r i =>
    if r < s.runs ∧ s.rst r = .run ∧ s.ist i = .ex (s.rx r) ∧ s.ph (s.ib i) = false then
      some { s with tr := s.tr ++ [.acc (.run r) (.slice (s.rx r)) false, .acc (.run r) (.fixed i) false, .acc (.run r) (.res i) true] }
    else none
  | .complete r i =>
    if r < s.runs ∧ s.rst r = .run ∧ s.ist i = .ex (s.rx r) then
      let b := s.ib i
      let s1 := { s with ist := upd s.ist i .done, left := upd s.left b ((s.left b).erase i) }
      if s.ph b then
        some { s1 with tr := s.tr ++ [.acc (.run r) (.slice (s.rx r)) false, .acc (.run r) (.list b) false, .snd (.run r) (.job b)], bst := upd s.bst b .sent }
      else if ((s.left b).erase i).isEmpty then
        some { s1 with tr := s.tr ++ [.acc (.run r) (.slice (s.rx r)) false, .acc (.run r) (.fixed i) false, .atom (.run r) b, .acc (.run r) (.list b) false, .snd (.run r) (.job b)], bst := upd s.bst b .sent }
      else some { s1 with tr := s.tr ++ [.acc (.run r) (.slice (s.rx r)) false, .acc (.run r) (.fixed i) false, .atom (.run r) b, .acc (.run r) (.list b) false] }
    else none
  | .look r i => if r < s.runs ∧ s.rst r = .run ∧ i ∈ s.has (s.rx r) then some { s with tr := s.tr ++ [.acc (.run r) (.slice (s.rx r)) false, .acc (.run r) (.fixed i) false] } else none
  | .finish r =>
    if r < s.runs ∧ s.rst r = .run ∧ (s.has (s.rx r)).all (fun i => s.ist i == .done) = true then
      some { s with
        tr := s.tr ++ [.lock (.run r), .acc (.run r) .locked true, .acc (.run r) (.slice (s.rx r)) true, .unlock (.run r)]
        has := upd s.has (s.rx r) [], exe := upd s.exe (s.rx r) none, rst := upd s.rst r .late }
    else none
  | .flush r i x =>
    if r < s.runs ∧ s.rst r = .late ∧ i < s.items ∧ s.ist i = .pend ∧ room s x = true then
      some { put s i x with tr := s.tr ++ ([.lock (.run r), .acc (.run r) .locked true, .acc (.run r) (.fixed i) false] ++ touch (.run r) x ++ [.unlock (.run r)]) }
    else none
  | .call b => if b < s.batches ∧ s.bst b = .sent then some { s with tr := s.tr ++ [.rcv (.work (s.own b)) (.job b), .acc (.work (s.own b)) (.list b) false], bst := upd s.bst b .called } else none
  | .use i w =>
    let g := Gor.work (s.own (s.ib i))
    if i < s.items ∧ s.bst (s.ib i) = .called then some { s with tr := s.tr ++ [.acc g (.list (s.ib i)) false, .acc g (.fixed i) false, .acc g (.res i) w] } else none

/-- Several steps (same places, `streams/async_batcher.go:60-115,195-315`). -/
def run (s : St) : List Act → Option St
  | [] => some s
  | x :: xs => (step s x).bind fun s' => run s' xs

/-- The reachable states (same places, `streams/async_batcher.go:60-115,195-315`). -/
inductive Reach : St → Prop where
  | init : Reach St.init
  | step {s s' : St} (x : Act) : Reach s → step s x = some s' → Reach s'

end Verif.Items
