import Verif.Eos.Model
import Verif.Config.Model
/-
The pool of producers with its clock: the flush timer of `streams/eos_producer.go:82-205`, a `time.Ticker`.

`Verif.Eos` lets the forwarding loop be woken by the timer at any moment. Here the timer is modelled as well: when it is
set, when it fires, and that its channel holds at most one tick. Time is counted in nanoseconds.
-/
namespace Verif.Delay

/-- `noPendingDuration`, `streams/eos_producer.go:30`. -/
def minute : Nat := 60000000000

/-- The configuration, `streams/eos_config.go:40-56`: the part that `Verif.Eos` looks at, and `BatchDelay`. -/
structure Cfg where
  eos : Eos.Cfg
  delay : Nat

/-- The configuration a pool works with, `streams/source_consumer.go:94-100` and `streams/eos_producer.go:97-112`. -/
def Cfg.of (c : Config.EosConfig) : Cfg :=
  { eos := { poolSize := c.poolSize.toNat, pending := c.pendingTxnCount.toNat, target := c.targetBatchSize.toNat,
             max := c.maxBatchSize.toNat }
    delay := c.batchDelay.toNat }

/-- `eosProducerPool` with its clock, `streams/eos_producer.go:82-95`. The runtime's ticker (`time.Ticker` of Go 1.19) is
`due` (when it fires next), `period` and `chan` (whether its channel, of capacity one, holds a tick). `started` is the
local variable `txnStarted` of line 151 and `first` the field `firstEvent` (303) of the node on deck. `crashed`:
`Ticker.Reset` panics if its argument is not positive.

The rest is not looked at by the code: `base` is when the transaction on deck was last looked at (line 158 or 182), `tried`
whether an attempt to commit it was made, `ready` since when the loop could take the tick in the channel, and `since` when the loop left
its `select` for the last time. -/
structure S where
  pool : Eos.Pool
  now : Nat
  due : Nat
  period : Nat
  chan : Bool
  started : Bool
  first : Nat
  crashed : Bool
  base : Nat
  tried : Bool
  ready : Nat
  since : Nat

/-- The node on deck, `streams/eos_producer.go:84`. -/
def S.deck (s : S) : Eos.Node := s.pool.nodes s.pool.onDeck

/-- `newEOSProducerPool`, `streams/eos_producer.go:97-133`, at time 0. -/
def S.init (c : Cfg) : S :=
  { pool := Eos.Pool.init c.eos, now := 0, due := minute, period := minute, chan := false, started := false, first := 0,
    crashed := false, base := 0, tried := false, ready := 0, since := 0 }

/-- `pp.flushTimer.Reset(d)`, `streams/eos_producer.go:158,198,202`. A tick that is in the channel stays there. -/
def S.reset (s : S) (d : Nat) : S :=
  if d = 0 then { s with crashed := true } else { s with due := s.now + d, period := d }

/-- What the goroutines of `streams/eos_producer.go:136-536` do (see `Eos.Label`), time passing, and the runtime sending a
tick. -/
inductive Label where
  | pool (l : Eos.Label)
  | pass (d : Nat)
  | fire
  deriving DecidableEq

/-- What a step of the pool does to the timer, `streams/eos_producer.go:144-205`. -/
def timer (c : Cfg) (s : S) : Eos.Label → Option S
  | .add _ => -- 296-305 and 151
    some { s with started := s.deck.cnt = 0, first := if s.deck.cnt = 0 then s.now else s.first,
                  tried := if s.deck.cnt = 0 then false else s.tried, since := s.now }
  | .check => -- 155-159
    if c.eos.target ≤ s.deck.load then some s
    else if s.started then some { s.reset c.delay with base := s.now }
    else some s
  | .tick => -- 166
    if s.chan then some { s with chan := false, since := s.now } else none
  | .tryFlush => -- 181-204
    let s := { s with base := s.now, tried := true }
    if s.deck.load = c.eos.max then some s
    else if 0 < s.deck.cnt then
      if s.pool.cq.length < c.eos.pending then some s else some (s.reset c.delay)
    else some (s.reset minute)
  | .swapIn => some { s with ready := s.now }
  | _ => some s

/-- The step function. The places in `streams/eos_producer.go:82-536` are given in `timer` and in `Eos.Label`. For `fire`
see `runtime/time.go` (`runOneTimer`): ticks that were missed are left out, and a tick that finds the channel full is lost. -/
def step (c : Cfg) (s : S) : Label → Option S
  | .pool l =>
    if s.crashed then none else
    match Eos.step c.eos s.pool l, timer c s l with
    | some p, some s' => some { s' with pool := p }
    | _, _ => none
  | .pass d => some { s with now := s.now + d }
  | .fire =>
    if s.due ≤ s.now then
      some { s with due := s.due + s.period * (1 + (s.now - s.due) / s.period), chan := true,
                    ready := if s.chan then s.ready else s.now }
    else none

/-- A sequence of steps. Interleaving of the goroutines of `streams/eos_producer.go:82-536` and of the runtime. -/
def run (c : Cfg) (s : S) : List Label → Option S
  | [] => some s
  | l :: ls => (step c s l).bind fun s' => run c s' ls

end Verif.Delay
