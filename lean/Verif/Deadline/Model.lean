import Verif.Delay.Model
/-
The pool of producers with the flush timer (`Verif.Delay`) and the deadlines of its transactions: the context with a timeout of
29 seconds that a node creates with its first record, `streams/eos_producer.go:482-492,514-520`.
-/
namespace Verif.Deadline

/-- The timeout of `txnContext`, `streams/eos_producer.go:486,518`, in nanoseconds. -/
def txnTimeout : Nat := 29000000000

/-- `Delay.S` and, for each node, when its `txnContext` ends (`streams/eos_producer.go:256,486,518`; it means something while
`opened`).

The rest is not looked at by the code: `work` is when the commit loop took the transaction it works on (or when there was something to do for it again),
`stage` when it reached the place where it is, `failed` when the transaction on deck was offered in vain for the first time. -/
structure S where
  d : Delay.S
  dead : Nat → Nat
  work : Nat
  stage : Nat
  failed : Nat

/-- `newEOSProducerPool`, `streams/eos_producer.go:97-133`. -/
def S.init (c : Delay.Cfg) : S := { d := Delay.S.init c, dead := fun _ => 0, work := 0, stage := 0, failed := 0 }

/-- The commit loop has nothing to do, `streams/eos_producer.go:210`. -/
def S.free (s : S) : Bool := s.d.pool.com = .idle && s.d.pool.cq = []

/-- Whether the step leads the commit loop to another place, `streams/eos_producer.go:211,238,359,389`. -/
def turns : Delay.Label → Bool
  | .pool .take => true
  | .pool (.beginCommit _) => true
  | .pool (.endTxn _) => true
  | .pool .giveBack => true
  | .pool (.commitFail _) => true
  | _ => false

/-- The step function; `streams/eos_producer.go:136-536`, with the contexts created in 486 and 518. That `Flush`, `EndTransaction` and the
wait for an event (342-345) end with their context is stated as a condition on executions, see `Deadline.InTime`. -/
def step (c : Delay.Cfg) (s : S) (l : Delay.Label) : Option S :=
  (Delay.step c s.d l).map fun d =>
    { d := d
      dead := fun q => if (d.pool.nodes q).opened && !(s.d.pool.nodes q).opened then s.d.now + txnTimeout else s.dead q
      work := if l = .pool .take then s.d.now else if s.free then d.now else s.work
      stage := if turns l then s.d.now else if s.free then d.now else s.stage
      failed := if l = .pool .tryFlush then (if s.d.tried then s.failed else s.d.now) else s.failed }

/-- A sequence of steps. Interleaving of the goroutines of `streams/eos_producer.go:82-536` and of the runtime. -/
def run (c : Delay.Cfg) (s : S) : List Delay.Label → Option S
  | [] => some s
  | l :: ls => (step c s l).bind fun s' => run c s' ls

end Verif.Deadline
