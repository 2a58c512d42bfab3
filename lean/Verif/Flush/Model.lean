import Verif.Batcher.Model
import Verif.Sak.Model
/-
The batcher of `streams/async_batcher.go` with its clock: the timers that `addToExecutor` sets with `time.AfterFunc`.

`Verif.Batcher` lets a timer fire at any moment. Here it is modelled when it is set, when it fires, and that a function which has been
started by a timer waits for the lock, while the timer may be stopped (too late), forgotten, and set anew. Time is counted in nanoseconds.
-/
namespace Verif.Flush

open Verif.Batcher

/-- `batchDelay`, `streams/async_batcher.go:180-182,190` with `sak.Abs` (`streams/sak/util.go:50-55`). `math.MinInt64` has no absolute value; a timer with a negative
delay fires at once. -/
def delayOf (d : BitVec 64) : Nat :=
  if d = 0 then 5000000 else (Sak.abs d).toInt.toNat

/-- `AsyncBatcher` with its clock, `streams/async_batcher.go:124-129,159-168`. `due i`: when the timer of executor `i` fires, if it has been
set; `fired i`: when the timer functions (250-255) of executor `i` were started which are still waiting for the lock.

The rest is not looked at by the code: `since i` is the last moment at which executor `i` had no open batch (so when its open batch, if there is one,
got its first item), `start i` when `executeBatch` was last started for it (267), and `front` when the list of pending items last got another first element. -/
structure S (K : Type) where
  b : State K
  now : Nat
  due : Nat → Nat
  fired : Nat → List Nat
  since : Nat → Nat
  start : Nat → Nat
  front : Nat

/-- `NewAsyncBatcher`, `streams/async_batcher.go:173-192`, at time 0. -/
def S.init (K : Type) (max n : Nat) : S K :=
  { b := Batcher.init K max n, now := 0, due := fun _ => 0, fired := fun _ => [], since := fun _ => 0, start := fun _ => 0, front := 0 }

variable {K : Type} [DecidableEq K]

/-- The number of items and placeholders of an executor, `streams/async_batcher.go:247`. -/
def size (e : Exec K) : Nat := e.items.length + e.noops.length

/-- What a critical section of `streams/async_batcher.go:195-311` that leads to `b` does to the timers: those it sets (250) are set to
`batchDelay` from now. -/
def note (delay : Nat) (s : S K) (b : State K) : S K :=
  { s with
    b := b
    due := fun i => if (b.execs i).timer = .armed ∧ (s.b.execs i).timer ≠ .armed then s.now + delay else s.due i
    since := fun i => if (s.b.execs i).executing = true ∨ size (s.b.execs i) = 0 then s.now else s.since i
    start := fun i => if .queued ∈ (b.execs i).gos ∧ .queued ∉ (s.b.execs i).gos then s.now else s.start i
    front := if b.pending.head? = s.b.pending.head? then s.front else s.now }

/-- The steps of `streams/async_batcher.go:195-311`: `does` is a step of `Batcher.Label` other than a timer function getting the lock,
`flush i j` is the `j`-th of the functions waiting for executor `i` getting it, `pass` is time going by. -/
inductive Label (K : Type) where
  | does (l : Batcher.Label K)
  | flush (i j : Nat)
  | pass (d : Nat)

/-- The step function, `streams/async_batcher.go:195-311`. A timer does not fire before it is due. -/
def step (delay : Nat) (s : S K) : Label K → Option (S K)
  | .does (.flush _) => none
  | .does (.fire i) =>
    if s.due i ≤ s.now then
      (Batcher.step s.b (.fire i)).map fun b => { note delay s b with fired := upd s.fired i (s.fired i ++ [s.now]) }
    else none
  | .does l => (Batcher.step s.b l).map (note delay s)
  | .flush i j =>
    if j < (s.fired i).length then
      (Batcher.step s.b (.flush i)).map fun b => { note delay s b with fired := upd s.fired i ((s.fired i).eraseIdx j) }
    else none
  | .pass d => some { s with now := s.now + d }

/-- A sequence of steps: an interleaving of the goroutines of `streams/async_batcher.go:195-311` and of the runtime. -/
def run (delay : Nat) (s : S K) : List (Label K) → Option (S K)
  | [] => some s
  | l :: ls => (step delay s l).bind fun s' => run delay s' ls

end Verif.Flush
