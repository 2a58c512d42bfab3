/-
Examples 6 and 7 of the documentation (`docs/asyncprocessing.md:362-417`): writes to an external database go through an `AsyncBatcher`, a failed write is kept in the state store, and a periodic interjection takes what is due out of the
store and gives it to the batcher again. The library parts are the batcher (`streams/async_batcher.go`), the completion of asynchronous jobs (`streams/partition_worker.go:258-263`) and the timer of interjections
(`streams/partition_worker.go:269-282`, `streams/interjection.go:65-82`).

Simplifications: one partition; each event makes one write; the batcher is what C22 to C26 say of it: items of one key run one after the other in the order in which they were added, all else in any order, and the callback of a batch comes
when all its items have run.
-/
namespace Verif.Retry

/-- An item in the batcher: the event whose write it is, the batch, and the outcome when it has run (`BatchItem`, `streams/async_batcher.go:33-40`; `item.Err`, `docs/asyncprocessing.md:324-332`). -/
structure Job where
  item : Nat
  batch : Nat
  res : Option Bool
  deriving DecidableEq, Repr

/-- The number of events handled; the items in the batcher, by the order in which they were added; the number of batches; the error records in the store; the writes to the database, in order; whether the timer of the interjection runs or its
message waits (`streams/interjection.go:71-75`); ghost: the items that failed at least once, and the number of calls of the interjector that gave something to the batcher (`docs/asyncprocessing.md:367-408`). -/
structure St where
  n : Nat
  jobs : List Job
  batches : Nat
  errs : List Nat
  db : List Nat
  timer : Bool
  failed : List Nat
  retries : Nat
  deriving DecidableEq, Repr

/-- The worker has begun: the timer is started (`streams/partition_worker.go:227-231`). -/
def St.init : St := { n := 0, jobs := [], batches := 0, errs := [], db := [], timer := true, failed := [], retries := 0 }

/-- What can happen (`docs/asyncprocessing.md:367-408`, `streams/partition_worker.go:235-282`). -/
inductive Act where
  /-- `handleEvent`: the write of the next event is given to the batcher (`docs/asyncprocessing.md:367-375`, `streams/async_batcher.go:195-216`) -/
  | handle
  /-- the item at place `i` is executed, with success or not (`docs/asyncprocessing.md:324-332`, `streams/async_batcher.go:277-281`) -/
  | exec (i : Nat) (ok : Bool)
  /-- `batchComplete`, in `processAsyncJob` (`docs/asyncprocessing.md:378-387`, `streams/partition_worker.go:258-263`) -/
  | call (b : Nat)
  /-- the interjection is due: `retryDDBWrites`, with what is due (`docs/asyncprocessing.md:395-408`, `streams/partition_worker.go:269-282`) -/
  | fire (due : Nat → Bool)

/-- The item may run: it has not run, and nothing of its key that was added before has still to run (`streams/async_batcher.go:218-256`, by C22 and C23). -/
def mayRun (key : Nat → Nat) (jobs : List Job) (i : Nat) (j : Job) : Bool :=
  j.res.isNone && (jobs.take i).all fun j' => !(key j'.item == key j.item && j'.res.isNone)

/-- The items of a batch that failed (`docs/asyncprocessing.md:380-385`, `item.Err` of `streams/async_batcher.go:38`). -/
def bad (jobs : List Job) (b : Nat) : List Nat := (jobs.filter fun j => j.batch == b && j.res == some false).map (·.item)

/-- The step function; places at `Act` (`docs/asyncprocessing.md:367-408`, `streams/partition_worker.go:235-282`). -/
def step (key : Nat → Nat) (s : St) : Act → Option St
  | .handle => some { s with n := s.n + 1, jobs := s.jobs ++ [⟨s.n, s.batches, none⟩], batches := s.batches + 1 }
  | .exec i ok =>
    match s.jobs[i]? with
    | some j =>
      if mayRun key s.jobs i j = true then
        some { s with
          jobs := s.jobs.take i ++ ⟨j.item, j.batch, some ok⟩ :: s.jobs.drop (i + 1)
          db := if ok then s.db ++ [j.item] else s.db
          failed := if ok then s.failed else s.failed ++ [j.item] }
      else none
    | none => none
  | .call b =>
    if (s.jobs.any fun j => j.batch == b) && (s.jobs.all fun j => !(j.batch == b && j.res.isNone)) then
      -- the timer is not started again: `processAsyncJob` does not call `tick`
      some { s with jobs := s.jobs.filter (fun j => j.batch != b), errs := s.errs ++ bad s.jobs b }
    else none
  | .fire due =>
    if s.timer then
      if (s.errs.filter due).isEmpty then some s
      else
        some { s with
          jobs := s.jobs ++ (s.errs.filter due).map (fun e => ⟨e, s.batches, none⟩)
          batches := s.batches + 1
          errs := s.errs.filter (fun e => !due e)
          timer := false, retries := s.retries + 1 }
    else none

/-- Several steps (same places, `docs/asyncprocessing.md:367-408`, `streams/partition_worker.go:235-282`). -/
def run (key : Nat → Nat) (s : St) : List Act → Option St
  | [] => some s
  | x :: xs => (step key s x).bind fun s' => run key s' xs

/-- The reachable states (same places, `docs/asyncprocessing.md:367-408`, `streams/partition_worker.go:235-282`). -/
inductive Reach (key : Nat → Nat) : St → Prop where
  | init : Reach key St.init
  | step {s s' : St} (x : Act) : Reach key s → step key s x = some s' → Reach key s'

end Verif.Retry
