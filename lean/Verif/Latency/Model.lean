import Verif.Deadline.Model
/-
The pool of producers with its clock and the deadlines of its transactions (`Verif.Deadline`), watched from outside: when events came,
`streams/eos_producer.go:144-205,296-324`.
-/
namespace Verif.Latency

/-- `Deadline.S` and what is noted by the observer, none of it looked at by the code: `came` is when an event was put in a transaction
(`streams/eos_producer.go:151`), by its number; `born` when the first event of a transaction was, by the number of the transaction; `forced` when the
forwarding loop began the blocking send of line 185, and `room` since when there is room in the queue for it. -/
structure S where
  d : Deadline.S
  came : Nat → Nat
  born : Nat → Nat
  forced : Nat
  room : Nat

/-- The state of the pool, `streams/eos_producer.go:82-95`. -/
abbrev S.pool (s : S) : Eos.Pool := s.d.d.pool

/-- The time; no counterpart in `streams/eos_producer.go`, which asks for it in 303, 486 and 518. -/
abbrev S.now (s : S) : Nat := s.d.d.now

/-- `newEOSProducerPool`, `streams/eos_producer.go:97-133`. -/
def S.init (c : Delay.Cfg) : S := { d := Deadline.S.init c, came := fun _ => 0, born := fun _ => 0, forced := 0, room := 0 }

/-- The step function; `streams/eos_producer.go:136-536`, as in `Deadline.step`. -/
def step (c : Delay.Cfg) (s : S) (l : Delay.Label) : Option S :=
  (Deadline.step c s.d l).map fun d =>
    { d := d
      came := match l with
        | .pool (.add e) => Eos.upd s.came e.id s.now
        | _ => s.came
      born := match l with
        | .pool (.add _) => if s.d.d.deck.cnt = 0 then Eos.upd s.born s.pool.gen s.now else s.born
        | _ => s.born
      forced := if l = .pool .tryFlush then s.now else s.forced
      room := if l = .pool .tryFlush ∨ (l = .pool .take ∧ ¬ s.pool.cq.length < c.eos.pending) then s.now else s.room }

/-- A sequence of steps. Interleaving of the goroutines of `streams/eos_producer.go:82-536` and of the runtime. -/
def run (c : Delay.Cfg) (s : S) : List Delay.Label → Option S
  | [] => some s
  | l :: ls => (step c s l).bind fun s' => run c s' ls

end Verif.Latency
