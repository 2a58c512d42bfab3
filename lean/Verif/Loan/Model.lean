import Verif.Eos.Model
/-
The objects of records: taken from a pool that all goroutines share, filled, handed to the transactional producer (where they may wait in the buffer of a node), to a `BatchProducer` or to a `Producer`, read by the Kafka client, written by its callbacks, and
given back to the pool; which goroutine reads and writes an object when, and what orders these accesses.

The state has the list of all accesses and of all that orders goroutines so far: the lock of the pool, `produceLock` of each node, the handing of a record to the client and the call of its callback (as sending and receiving), the atomic counter of a batch, the
channel of finished jobs. Simplifications: what is under a lock is one step; flushing a node is one step for each record (more interleavings than in the code); the free list has room for all (objects that find it full are never taken from it, which is allowed
here as well); what the client does with a record itself is left out, since it ends with the callback; that a node hands each buffered record to the client once is C75; the fields of nodes are C105, those of `produceBatcher` are written before its records are
handed over. Assumed of the application: it uses, hands over and releases a record only while it has it; the records of a batch are different objects. Contents are left out (C75).
-/
namespace Verif.Loan
open Verif.Eos (upd)

/-- The goroutines: of the application and of the library (partition workers, commit loops), `app`; those of the client in which callbacks run, `cli` (`streams/eos_producer.go:522-535`, `streams/producer.go:174-177`). -/
inductive Gor where
  | app (g : Nat) | cli (c : Nat)
  deriving DecidableEq, Repr

/-- What is shared: the free list (`streams/sak/pool.go:24`); an object with its buffers (`streams/record.go:44-50`). -/
inductive Loc where
  | free | obj (r : Nat)
  deriving DecidableEq, Repr

/-- The locks: `mu` of the pool, `produceLock` of a node (`streams/sak/pool.go:23`, `streams/eos_producer.go:495`). -/
inductive Lck where
  | pool | node (n : Nat)
  deriving DecidableEq, Repr

/-- What is sent: a record to the client, the `k`th hand-over (`streams/eos_producer.go:522`, `streams/producer.go:77,174`); a record from one goroutine of the application to another, as in `Produce` (`streams/producer.go:60-69`); a finished batch on
`asyncJobs` (`streams/producer.go:135-139`). -/
inductive Msg where
  | prod (k : Nat) | pass (k : Nat) | job (b : Nat)
  deriving DecidableEq, Repr

/-- An access (`w`: a write), a send, a receive, the locks, an operation on the counter of a batch (`streams/producer.go:136`). -/
inductive Op where
  | acc (g : Gor) (l : Loc) (w : Bool)
  | snd (g : Gor) (m : Msg)
  | rcv (g : Gor) (m : Msg)
  | lock (g : Gor) (m : Lck)
  | unlock (g : Gor) (m : Lck)
  | atom (g : Gor) (b : Nat)
  deriving DecidableEq, Repr

/-- Where an object is: in the free list; with a goroutine; in the list of a batch that is being produced; in the buffer of a node; with the client, as a record of a batch or not; on its way between goroutines; completed and counted in its batch
(`streams/sak/pool.go:39-67`, `streams/producer.go:123-178`, `streams/eos_producer.go:494-514`). -/
inductive RSt where
  | pool | own (g : Gor) | list (b : Nat) | pend (n : Nat) | cli (k : Nat) (b : Option Nat) | way (k : Nat) | cnt (b : Nat)
  deriving DecidableEq, Repr

/-- A batch: not all its records are completed; sent on `asyncJobs`; its callback runs or ran (`streams/producer.go:135-145`). -/
inductive BSt where
  | opn | sent | called
  deriving DecidableEq, Repr

/-- The trace; the objects and where they are; the batches, their goroutines, where they are and the records that are not completed (the code has their number); the number of hand-overs (`streams/record.go:44-82`, `streams/producer.go:118-124`). -/
structure St where
  tr : List Op
  recs : Nat
  rst : Nat → RSt
  batches : Nat
  bown : Nat → Gor
  bst : Nat → BSt
  left : Nat → List Nat
  sends : Nat

/-- The beginning (`streams/record.go:52-78`). -/
def St.init : St :=
  { tr := [], recs := 0, rst := fun _ => .pool, batches := 0, bown := fun _ => .app 0, bst := fun _ => .opn, left := fun _ => [], sends := 0 }

/-- What can happen (`streams/record.go:80-82,293-295`, `streams/sak/pool.go:39-67`, `streams/producer.go:60-178`, `streams/eos_producer.go:469-536`). -/
inductive Act where
  /-- `NewRecord` with an empty free list (`streams/sak/pool.go:40-45`) -/
  | make (g : Gor)
  /-- `NewRecord` with an object from the free list (`streams/sak/pool.go:46-51`) -/
  | borrow (g : Gor) (r : Nat)
  /-- the goroutine that has the record fills, reads or changes it (`streams/record.go:180-240`) -/
  | use (r : Nat)
  /-- `Release`: after the callback of the transactional producer, or by the application (`streams/eos_producer.go:534`, `streams/sak/pool.go:57-67`) -/
  | release (r : Nat)
  /-- the record is given to another goroutine (`streams/producer.go:66`) -/
  | give (r : Nat)
  /-- another goroutine gets it (`streams/producer.go:67`) -/
  | get (r : Nat) (g : Gor)
  /-- `ProduceRecord`; `owned`: the node has the partition (`streams/eos_producer.go:494-514`) -/
  | txn (r n : Nat) (owned : Bool)
  /-- `flushPartition` or `flushRemaining`, one record (`streams/eos_producer.go:358-364,458-461,469-492`) -/
  | flush (r : Nat) (g : Gor)
  /-- `ProduceAsync` (`streams/producer.go:72-83`) -/
  | solo (r : Nat)
  /-- the client calls the callback of a record that is in no batch (`streams/eos_producer.go:522-533`, `streams/producer.go:77-81`) -/
  | done (r c : Nat)
  /-- `Produce` of a `BatchProducer` (`streams/producer.go:152-162`) -/
  | batch (g : Gor) (rs : List Nat)
  /-- `produceBatch`, one record (`streams/producer.go:164-174`) -/
  | bprod (r : Nat)
  /-- the client calls the callback of a record of a batch (`streams/producer.go:134-139,174-177`) -/
  | bdone (r c : Nat)
  /-- the partition worker takes the finished batch; its callback may use the records (`streams/producer.go:141-142`, `streams/partition_worker.go:239-240`) -/
  | call (b : Nat)
  /-- the callback, and `cleanup`, have this record (`streams/producer.go:128-145`) -/
  | back (r : Nat)
  deriving DecidableEq, Repr

/-- The step function; places at `Act` (`streams/record.go:80-82,293-295`, `streams/sak/pool.go:39-67`, `streams/producer.go:60-178`, `streams/eos_producer.go:469-536`). -/
def step (s : St) : Act → Option St
  | .make g => some { s with tr := s.tr ++ [.lock g .pool, .acc g .free true, .unlock g .pool, .acc g (.obj s.recs) true], recs := s.recs + 1, rst := upd s.rst s.recs (.own g) }
  | .borrow g r =>
    if r < s.recs ∧ s.rst r = .pool then some { s with tr := s.tr ++ [.lock g .pool, .acc g .free true, .unlock g .pool], rst := upd s.rst r (.own g) } else none
  | .use r =>
    match s.rst r with
    | .own g => some { s with tr := s.tr ++ [.acc g (.obj r) true] }
    | _ => none
  | .release r =>
    match s.rst r with
    | .own g => some { s with tr := s.tr ++ [.acc g (.obj r) true, .lock g .pool, .acc g .free true, .unlock g .pool], rst := upd s.rst r .pool }
    | _ => none
  | .give r =>
    match s.rst r with
    | .own g => some { s with tr := s.tr ++ [.snd g (.pass s.sends)], rst := upd s.rst r (.way s.sends), sends := s.sends + 1 }
    | _ => none
  | .get r g =>
    match s.rst r with
    | .way k => some { s with tr := s.tr ++ [.rcv g (.pass k)], rst := upd s.rst r (.own g) }
    | _ => none
  | .txn r n owned =>
    match s.rst r with
    | .own g =>
      if owned then some { s with tr := s.tr ++ [.lock g (.node n), .acc g (.obj r) true, .snd g (.prod s.sends), .unlock g (.node n)], rst := upd s.rst r (.cli s.sends none), sends := s.sends + 1 }
      else some { s with tr := s.tr ++ [.lock g (.node n), .acc g (.obj r) true, .unlock g (.node n)], rst := upd s.rst r (.pend n) }
    | _ => none
  | .flush r g =>
    match s.rst r with
    | .pend n => some { s with tr := s.tr ++ [.lock g (.node n), .acc g (.obj r) true, .snd g (.prod s.sends), .unlock g (.node n)], rst := upd s.rst r (.cli s.sends none), sends := s.sends + 1 }
    | _ => none
  | .solo r =>
    match s.rst r with
    | .own g => some { s with tr := s.tr ++ [.acc g (.obj r) true, .snd g (.prod s.sends)], rst := upd s.rst r (.cli s.sends none), sends := s.sends + 1 }
    | _ => none
  | .done r c =>
    match s.rst r with
    | .cli k none => some { s with tr := s.tr ++ [.rcv (.cli c) (.prod k), .acc (.cli c) (.obj r) true], rst := upd s.rst r (.own (.cli c)) }
    | _ => none
  | .batch g rs =>
    if rs.Nodup ∧ rs.all (fun r => s.rst r = .own g) then
      some { s with rst := fun r => if r ∈ rs then .list s.batches else s.rst r, batches := s.batches + 1, bown := upd s.bown s.batches g, bst := upd s.bst s.batches .opn, left := upd s.left s.batches rs }
    else none
  | .bprod r =>
    match s.rst r with
    | .list b => some { s with tr := s.tr ++ [.acc (s.bown b) (.obj r) true, .snd (s.bown b) (.prod s.sends)], rst := upd s.rst r (.cli s.sends (some b)), sends := s.sends + 1 }
    | _ => none
  | .bdone r c =>
    match s.rst r with
    | .cli k (some b) =>
      let s1 : St := { s with rst := upd s.rst r (.cnt b), left := upd s.left b ((s.left b).erase r) }
      if ((s.left b).erase r).isEmpty then some { s1 with tr := s.tr ++ [.rcv (.cli c) (.prod k), .acc (.cli c) (.obj r) true, .atom (.cli c) b, .snd (.cli c) (.job b)], bst := upd s.bst b .sent }
      else some { s1 with tr := s.tr ++ [.rcv (.cli c) (.prod k), .acc (.cli c) (.obj r) true, .atom (.cli c) b] }
    | _ => none
  | .call b => if s.bst b = .sent then some { s with tr := s.tr ++ [.rcv (s.bown b) (.job b)], bst := upd s.bst b .called } else none
  | .back r =>
    match s.rst r with
    | .cnt b => if s.bst b = .called then some { s with rst := upd s.rst r (.own (s.bown b)) } else none
    | _ => none

/-- Several steps (same places, `streams/sak/pool.go:39-67`, `streams/producer.go:60-178`, `streams/eos_producer.go:469-536`). -/
def run (s : St) : List Act → Option St
  | [] => some s
  | x :: xs => (step s x).bind fun s' => run s' xs

/-- The reachable states (same places, `streams/sak/pool.go:39-67`, `streams/producer.go:60-178`, `streams/eos_producer.go:469-536`). -/
inductive Reach : St → Prop where
  | init : Reach St.init
  | step {s s' : St} (x : Act) : Reach s → step s x = some s' → Reach s'

end Verif.Loan
