import Mathlib.Tactic.Common
/-
Model of `streams/async_batcher.go`: a transition system over the shared state of an `AsyncBatcher`, whose steps are the critical sections
under `mux`, the firing of a flush timer, and the individual actions of the goroutines that execute batches.
-/
namespace Verif.Batcher

/-- `BatchItem` (async_batcher.go:33-40).  `batch` stands for the pointer to the `BatchItems`, `idx` for the position in it
(so the pair identifies the item and stands for its value), `noop` for `itemType == placeholder` (lines 28-31). `Err`, `UserData` are left out. -/
structure Item (K : Type) where
  batch : Nat
  idx : Nat
  key : K
  noop : Bool
deriving DecidableEq, Repr

/-- `BatchItems` (async_batcher.go:50-57) as built by `NewBatchItems`, `Add`, `AddWithKey` (lines 61-67, 91-115) before it is handed to the batcher:
its key, and the keys of its items in order (`Add` uses the container's key, `AddWithKey` any key). -/
structure Batch (K : Type) where
  id : Nat
  key : K
  keys : List K

/-- The items which `AsyncBatcher.Add` adds one after the other (async_batcher.go:195-216): a placeholder if there is none. -/
def Batch.itemsToAdd {K : Type} (b : Batch K) : List (Item K) :=
  if b.keys = [] then [{ batch := b.id, idx := 0, key := b.key, noop := true }]
  else b.keys.mapIdx fun i k => { batch := b.id, idx := i, key := k, noop := false }

/-- `flushTimer` (async_batcher.go:128): nil, running, or fired (its function is waiting for `mux`, see `Exec.late`). -/
inductive Timer where
  | nil
  | armed
  | fired
deriving DecidableEq, Repr

/-- The goroutine `executeBatch` (async_batcher.go:277-290): spawned; inside the user's executor (279); in the loop of `completeBatchItems` (272-274) or
in the loop over `noops` (282-284) with what is left of the loop. After the last loop it takes the lock (285). -/
inductive Phase (K : Type) where
  | queued
  | running
  | completing (rest : List (Item K))
  | nooping (rest : List (Item K))
deriving DecidableEq

/-- `asyncBatchExecutor` (async_batcher.go:124-129) with the goroutines that run `executeBatch` on it (267), and the number `late` of timer
functions (250-255) which have fired but not yet got the lock. `executing`: `state == batcherExecuting`. -/
structure Exec (K : Type) where
  items : List (Item K) := []
  noops : List (Item K) := []
  executing : Bool := false
  timer : Timer := .nil
  late : Nat := 0
  gos : List (Phase K) := []

/-- `AsyncBatcher` (async_batcher.go:159-168) with `n = len(executors)`.  `adders t`: what goroutine `t` still has to add in its call of `Add`.
`batches`: the `BatchItems` handed over so far; `completed`: their counters (line 56).
Ghost fields: `added` (items in the order in which `add` got the lock), `calls` (arguments of the calls of the user's executor), `done`
(items in the order of their completion), `called` (batches whose callback was handed to `AsyncJobComplete`). -/
structure State (K : Type) where
  n : Nat
  maxSize : Nat
  execs : Nat → Exec K
  assign : K → Option Nat
  pending : List (Item K)
  count : Int
  adders : Nat → List (Item K)
  batches : Nat → Option (Batch K)
  completed : Nat → Nat
  added : List (Item K)
  calls : List (List (Item K))
  done : List (Item K)
  called : List Nat

/-- `NewAsyncBatcher` (async_batcher.go:173-192); negative arguments (a panic or no limit in Go) are excluded by the type. -/
def init (K : Type) (maxBatchSize maxConcurrent : Nat) : State K :=
  { n := maxConcurrent, maxSize := maxBatchSize, execs := fun _ => {}, assign := fun _ => none, pending := [], count := 0,
    adders := fun _ => [], batches := fun _ => none, completed := fun _ => 0, added := [], calls := [], done := [], called := [] }

/-- Functional update (assignment to an element of `executors`, `assignments` …; async_batcher.go:244). -/
def upd {A B : Type} [DecidableEq A] (f : A → B) (a : A) (b : B) : A → B := fun x => if x = a then b else f x

variable {K : Type} [DecidableEq K]

/-- Assignment to an executor (async_batcher.go:131-137, 261). -/
def State.setE (s : State K) (i : Nat) (e : Exec K) : State K := { s with execs := upd s.execs i e }

/-- `asyncBatchExecutor.add` (async_batcher.go:131-137). -/
def Exec.add (e : Exec K) (x : Item K) : Exec K :=
  if x.noop then { e with noops := e.noops ++ [x] } else { e with items := e.items ++ [x] }

/-- `asyncExecutorFor` (async_batcher.go:228-241). -/
def execFor (s : State K) (x : Item K) : Option Nat :=
  match s.assign x.key with
  | some i => if (s.execs i).executing then none else some i
  | none => (List.range s.n).find? fun i => !(s.execs i).executing

/-- `conditionallyExecuteBatch` (async_batcher.go:259-269). `Stop` on a timer that has fired already has no effect on the waiting function. -/
def condExec (s : State K) (i : Nat) : State K :=
  if (s.execs i).executing then s
  else { s with execs := upd s.execs i { s.execs i with executing := true, timer := .nil, gos := (s.execs i).gos ++ [.queued] },
                count := s.count + 1 }

/-- Lines 247-256 of `addToExecutor`. `streams/async_batcher.go:247-256`. -/
def arm (s : State K) (i : Nat) : State K :=
  if (s.execs i).items.length + (s.execs i).noops.length = s.maxSize then condExec s i
  else if (s.execs i).timer = .nil then s.setE i { s.execs i with timer := .armed }
  else s

/-- Lines 244-245 of `addToExecutor`. `streams/async_batcher.go:244-245`. -/
def place (s : State K) (x : Item K) (i : Nat) : State K :=
  { s with assign := upd s.assign x.key (some i), execs := upd s.execs i ((s.execs i).add x) }

/-- `addToExecutor` (async_batcher.go:243-257). -/
def addTo (s : State K) (x : Item K) (i : Nat) : State K := arm (place s x i) i

/-- `add` (async_batcher.go:218-226). -/
def addOne (s : State K) (x : Item K) : State K :=
  let s := { s with added := s.added ++ [x] }
  match execFor s x with
  | some i => addTo s x i
  | none => { s with pending := s.pending ++ [x] }

/-- The loop of `flushPendingItems` (async_batcher.go:297-310); `kept` is the part of the list already passed. -/
def flushLoop (s : State K) (kept : List (Item K)) : List (Item K) → State K
  | [] => { s with pending := kept }
  | x :: rest =>
    match execFor s x with
    | some i =>
      if (addTo s x i).count = (s.n : Int) then { addTo s x i with pending := kept ++ rest }
      else flushLoop (addTo s x i) kept rest
    | none => flushLoop s (kept ++ [x]) rest

/-- `flushPendingItems` (async_batcher.go:292-311). -/
def flushPending (s : State K) : State K :=
  if s.count = (s.n : Int) then s else flushLoop s [] s.pending

/-- `reset` (async_batcher.go:139-150): only the keys of `items` are removed from the assignments. -/
def reset (s : State K) (i : Nat) : State K :=
  { s with assign := fun k => if k ∈ (s.execs i).items.map Item.key then none else s.assign k,
           execs := upd s.execs i { s.execs i with items := [], noops := [], executing := false } }

/-- `completeItem` (async_batcher.go:84-88) with the atomic counter. The callback itself runs later on the event loop of the partition. -/
def completeItem (s : State K) (x : Item K) : State K :=
  { s with completed := upd s.completed x.batch (s.completed x.batch + 1), done := s.done ++ [x],
           called := if some (s.completed x.batch + 1) = (s.batches x.batch).map (fun b => b.keys.length)
                     then s.called ++ [x.batch] else s.called }

/-- `completeNoop`: line 283 of `executeBatch`. `streams/async_batcher.go:283`. -/
def completeNoop (s : State K) (x : Item K) : State K :=
  { s with done := s.done ++ [x], called := s.called ++ [x.batch] }

/-- Replaces the `j`-th goroutine of executor `i` (program counter of `executeBatch`, async_batcher.go:277-290). -/
def setGo (s : State K) (i j : Nat) (p : Phase K) : State K :=
  s.setE i { s.execs i with gos := (s.execs i).gos.set j p }

/-- Lines 285-289 of `executeBatch`. `streams/async_batcher.go:285-289`. -/
def finish (s : State K) (i j : Nat) : State K :=
  flushPending (reset { s with count := s.count - 1,
                               execs := upd s.execs i { s.execs i with gos := (s.execs i).gos.eraseIdx j } } i)

/-- One action of the `j`-th goroutine on executor `i` (async_batcher.go:277-290). -/
def goStep (s : State K) (i j : Nat) : Phase K → State K
  | .queued =>
    if (s.execs i).items.length > 0 then { setGo s i j .running with calls := s.calls ++ [(s.execs i).items] }
    else setGo s i j (.nooping (s.execs i).noops)
  | .running => setGo s i j (.completing (s.execs i).items)
  | .completing (x :: r) => setGo (completeItem s x) i j (.completing r)
  | .completing [] => setGo s i j (.nooping (s.execs i).noops)
  | .nooping (x :: r) => setGo (completeNoop s x) i j (.nooping r)
  | .nooping [] => finish s i j

/-- Steps: goroutine `t` calls `Add` with a fresh batch (async_batcher.go:195); goroutine `t` adds the next item (207, 210);
the timer of executor `i` fires; a fired timer function gets the lock (250-255); goroutine `j` of executor `i` goes on. -/
inductive Label (K : Type) where
  | call (t : Nat) (b : Batch K)
  | add (t : Nat)
  | fire (i : Nat)
  | flush (i : Nat)
  | go (i j : Nat)

/-- The transition function (async_batcher.go:195-311); `none`: not enabled. Each `BatchItems` is handed over once. -/
def step (s : State K) : Label K → Option (State K)
  | .call t b =>
    if s.adders t = [] ∧ s.batches b.id = none then
      some { s with adders := upd s.adders t b.itemsToAdd, batches := upd s.batches b.id (some b) }
    else none
  | .add t =>
    match s.adders t with
    | [] => none
    | x :: r => some (addOne { s with adders := upd s.adders t r } x)
  | .fire i =>
    if (s.execs i).timer = .armed then
      some (s.setE i { s.execs i with timer := .fired, late := (s.execs i).late + 1 })
    else none
  | .flush i =>
    match (s.execs i).late with
    | 0 => none
    | m + 1 => some (condExec (s.setE i { s.execs i with late := m }) i)
  | .go i j => ((s.execs i).gos[j]?).map (goStep s i j)

/-- A sequence of steps (an interleaving of the goroutines of async_batcher.go:195-311). -/
def run (s : State K) : List (Label K) → Option (State K)
  | [] => some s
  | l :: ls => (step s l).bind fun s' => run s' ls

/-- States reachable by any interleaving from a new batcher (async_batcher.go:173-192). -/
def Reach (maxBatchSize maxConcurrent : Nat) (s : State K) : Prop := ∃ ls, run (init K maxBatchSize maxConcurrent) ls = some s

end Verif.Batcher
