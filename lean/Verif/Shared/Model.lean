import Verif.Eos.Model
/-
The fields of event contexts: which goroutine reads and writes them when, and the channels through which the contexts are handed on.

A context is made by the goroutine `pushRecords` of a worker and goes two ways: through `buffer` to the goroutine of the pool that puts it into a producer node, with which it goes through
`commitQueue` to the commit loop; and through `eventInput` (`interjectionEventInput`) to the goroutine `work`, which waits for its producer and gives it to the application. The application may give
it to goroutines of its own.

The state has the list of all accesses and of all sends and receives so far. Simplifications: what channels contain may be received in any order, and sends never block (both allow more than the code
does); only the synchronisation by channels is listed, not that by locks (so fewer accesses are ordered than in the code; a message is listed as received when it is sent by the application
to itself). Values of fields are left out.
-/
namespace Verif.Shared
open Verif.Eos (upd)

/-- The goroutines: `pushRecords` and `work` of a worker (`streams/partition_worker.go:141,206`), `forwardExecutionContexts` and `commitLoop` (`streams/eos_producer.go:130-131`), goroutines of the
application. -/
inductive Gor where
  | push (k : Nat) | work (k : Nat) | fwd | com | app (j : Nat)
  deriving DecidableEq, Repr

/-- Fields of an event context (`streams/event_context.go:35-50`); `fixed` are those that are only written when the context is made. -/
inductive Fld where
  | fixed | prev | next | producer
  deriving DecidableEq, Repr

/-- What is sent: context `e` on `buffer` or `eventInput`, on its `producerChan`, the closing of its `done` (`streams/eos_producer.go:136-157`, `streams/partition_worker.go:174-175`,
`streams/event_context.go:182-184`); a producer node on `commitQueue` or `producerNodeQueue` (`streams/eos_producer.go:185-195,239`); anything by which the application hands a context on
(`streams/event_context.go:168-173`). The latter are numbered. -/
inductive Msg where
  | buffer (e : Nat) | input (e : Nat) | given (e : Nat) | done (e : Nat) | node (t : Nat) | back (t : Nat) | pass (t : Nat)
  deriving DecidableEq, Repr

/-- An access to a field of context `e` (`w`: a write), a send, a receive (places at `step`, `streams/eos_producer.go:136-424`). -/
inductive Op where
  | acc (g : Gor) (e : Nat) (f : Fld) (w : Bool)
  | snd (g : Gor) (m : Msg)
  | rcv (g : Gor) (m : Msg)
  deriving DecidableEq, Repr

/-- A context on its way to the handler: with `pushRecords`, in `eventInput`, taken by `work`, with its producer (`streams/partition_worker.go:170-175,235,289-299`). -/
inductive WSt where
  | pushed | queued | taken | assigned
  deriving DecidableEq, Repr

/-- A context on its way to the commit: in `buffer`, taken from it, in a producer node, gone (`streams/eos_producer.go:136-160,442-462`). -/
inductive FSt where
  | buffered | got | node (n : Nat) | out
  deriving DecidableEq, Repr

/-- A producer node: on deck, in `commitQueue`, being committed, in `producerNodeQueue` (`none`: since the start), lost after an error (`streams/eos_producer.go:82-95,229-241`). -/
inductive NSt where
  | deck | queued (t : Nat) | commit | free (t : Option Nat) | lost
  deriving DecidableEq, Repr

/-- The trace, the contexts made so far, the worker of each, where they are, what is in their `producerChan`, which are completed; the producer nodes and the contexts in them; the contexts that the commit loop
has seen completed; the context that the pool is dealing with; whether it waits for a node; whether the commit loop is committing; who has got a context; the number of numbered messages. (`streams/eos_producer.go:82-95,247-270`,
`streams/event_context.go:35-50`.) -/
structure St where
  tr : List Op
  born : Nat
  own : Nat → Nat
  w : Nat → WSt
  f : Nat → FSt
  given : Nat → Option Bool
  closed : Nat → Bool
  node : Nat → NSt
  mem : Nat → List Nat
  seen : Nat → Bool
  hand : Option Nat
  swap : Bool
  busy : Bool
  refs : List (Gor × Nat)
  msgs : Nat

/-- The start: the first node is on deck, the others are in the queue (`streams/eos_producer.go:97-134`). -/
def St.init (poolSize : Nat) : St :=
  { tr := [], born := 0, own := fun _ => 0, w := fun _ => .pushed, f := fun _ => .buffered, given := fun _ => none, closed := fun _ => false
    node := fun n => if n = 0 then .deck else if n < poolSize then .free none else .lost
    mem := fun _ => [], seen := fun _ => false, hand := none, swap := false, busy := false, refs := [], msgs := 0 }

/-- What can happen (`streams/partition_worker.go:141-330`, `streams/eos_producer.go:136-467`, `streams/event_context.go:136-205`). -/
inductive Act where
  /-- `pushRecords` of worker `k` makes a context and sends it to `buffer` (`streams/partition_worker.go:172-174,199-202`, `streams/event_context.go:186-222`) -/
  | create (k : Nat)
  /-- it sends it to `eventInput` or `interjectionEventInput` (`streams/partition_worker.go:175,203`) -/
  | push (e : Nat)
  /-- the pool takes it and looks whether its worker is revoked (`streams/eos_producer.go:145,165`) -/
  | recv (e : Nat)
  /-- it is, no producer (`streams/eos_producer.go:147-148`) -/
  | refuse (e : Nat)
  /-- it is put into the node on deck, at the end of the chain of its partition (`streams/eos_producer.go:151,296-324`) -/
  | link (e n : Nat)
  /-- it is given the node as its producer (`streams/eos_producer.go:152-153`) -/
  | give (e : Nat)
  /-- the node on deck goes to the commit loop (`streams/eos_producer.go:185,191`) -/
  | flush (n : Nat)
  /-- the next node comes on deck (`streams/eos_producer.go:186,192`) -/
  | swapIn (n : Nat)
  /-- the commit loop takes the node (`streams/eos_producer.go:211-212,359-371`) -/
  | takeNode (n : Nat)
  /-- it waits for a context of the node to be completed and goes to the one before (`streams/eos_producer.go:339-355`) -/
  | visit (e : Nat)
  /-- it waits for too long and makes an error with the text of the context (`streams/eos_producer.go:342-343`) -/
  | timeout (e : Nat)
  /-- the transaction has ended (`streams/eos_producer.go:394-405,442-462,239`) -/
  | clear (n : Nat)
  /-- the worker takes the context (`streams/partition_worker.go:235-238`) -/
  | take (e : Nat)
  /-- it gets its producer (`streams/partition_worker.go:289-299,303,264`) -/
  | assign (e : Nat)
  /-- somebody who has the context looks at it (`streams/event_context.go:105-180`) -/
  | use (g : Gor) (e : Nat) (f : Fld)
  /-- somebody who has the context hands it on, to a goroutine of the application or to a worker (`streams/event_context.go:168-173`, `streams/partition_worker.go:295-297`) -/
  | pass (g g' : Gor) (e : Nat)
  /-- its worker completes it (`streams/partition_worker.go:251,275,314`, `streams/event_context.go:182-184`) -/
  | finish (e : Nat)
  deriving DecidableEq, Repr

/-- The last context of a partition in a node (`tail`, `streams/eos_producer.go:308-309`); `pt` is the partition of a worker. -/
def tail (pt : Nat → Nat) (s : St) (n e : Nat) : Option Nat := ((s.mem n).filter fun d => pt (s.own d) = pt (s.own e)).getLast?

/-- The accesses of `addEventContext` (`streams/eos_producer.go:306-321`). -/
def linkOps (e : Nat) : Option Nat → List Op
  | some d => [.acc .fwd e .fixed false, .acc .fwd e .prev true, .acc .fwd d .next true]
  | none => [.acc .fwd e .fixed false]

/-- The accesses of `clearState` (`streams/eos_producer.go:397-405`). -/
def clearOps (es : List Nat) : List Op := es.flatMap fun e => [.acc .com e .fixed false, .acc .com e .prev false]

/-- Goroutines that get contexts from the application: its own, and workers through `asyncJobs` (`streams/event_context.go:168-173`). -/
def Gor.users : Gor → Bool
  | .app _ => true
  | .work _ => true
  | _ => false

/-- The step function; places at `Act` (`streams/partition_worker.go:141-330`, `streams/eos_producer.go:136-467`, `streams/event_context.go:136-205`). -/
def step (pt : Nat → Nat) (s : St) : Act → Option St
  | .create k => some { s with
      tr := s.tr ++ [.acc (.push k) s.born .fixed true, .acc (.push k) s.born .prev true, .acc (.push k) s.born .next true, .acc (.push k) s.born .producer true,
        .snd (.push k) (.buffer s.born)]
      own := upd s.own s.born k
      w := upd s.w s.born .pushed
      f := upd s.f s.born .buffered
      born := s.born + 1 }
  | .push e =>
    if e < s.born ∧ s.w e = .pushed then some { s with tr := s.tr ++ [.snd (.push (s.own e)) (.input e)], w := upd s.w e .queued } else none
  | .recv e =>
    if e < s.born ∧ s.f e = .buffered ∧ s.hand = none ∧ s.swap = false then
      some { s with tr := s.tr ++ [.rcv .fwd (.buffer e), .acc .fwd e .fixed false], f := upd s.f e .got, hand := some e }
    else none
  | .refuse e =>
    if e < s.born ∧ s.f e = .got ∧ s.given e = none then
      some { s with tr := s.tr ++ [.acc .fwd e .fixed false, .snd .fwd (.given e), .acc .fwd e .fixed false], f := upd s.f e .out, hand := none, given := upd s.given e (some false) }
    else none
  | .link e n =>
    if e < s.born ∧ s.f e = .got ∧ s.node n = .deck then
      some { s with tr := s.tr ++ linkOps e (tail pt s n e), mem := upd s.mem n (s.mem n ++ [e]), f := upd s.f e (.node n) }
    else none
  | .give e =>
    match s.f e with
    | .node n =>
      if e < s.born ∧ s.hand = some e ∧ s.node n = .deck ∧ s.given e = none then
        some { s with tr := s.tr ++ [.acc .fwd e .fixed false, .snd .fwd (.given e)], hand := none, given := upd s.given e (some true) }
      else none
    | _ => none
  | .flush n =>
    if s.node n = .deck ∧ s.hand = none ∧ s.mem n ≠ [] then
      some { s with tr := s.tr ++ [.snd .fwd (.node s.msgs)], node := upd s.node n (.queued s.msgs), swap := true, msgs := s.msgs + 1 }
    else none
  | .swapIn n =>
    if s.swap = true then
      match s.node n with
      | .free none => some { s with node := upd s.node n .deck, swap := false }
      | .free (some t) => some { s with tr := s.tr ++ [.rcv .fwd (.back t)], node := upd s.node n .deck, swap := false }
      | _ => none
    else none
  | .takeNode n =>
    match s.node n with
    | .queued t => if s.busy = false then some { s with tr := s.tr ++ [.rcv .com (.node t)], node := upd s.node n .commit, busy := true } else none
    | _ => none
  | .visit e =>
    match s.f e with
    | .node n =>
      if e < s.born ∧ s.node n = .commit ∧ s.closed e = true ∧ s.seen e = false then
        some { s with tr := s.tr ++ [.acc .com e .fixed false, .rcv .com (.done e), .acc .com e .fixed false, .acc .com e .prev false], seen := upd s.seen e true }
      else none
    | _ => none
  | .timeout e =>
    match s.f e with
    | .node n =>
      if e < s.born ∧ s.node n = .commit ∧ s.seen e = false then
        some { s with
          tr := s.tr ++ [.acc .com e .fixed false, .acc .com e .producer false, .acc .com e .next false, .acc .com e .prev false]
          node := upd s.node n .lost, busy := false }
      else none
    | _ => none
  | .clear n =>
    if s.node n = .commit ∧ ∀ e ∈ s.mem n, s.seen e = true then
      some { s with
        tr := s.tr ++ clearOps (s.mem n) ++ [.snd .com (.back s.msgs)]
        f := fun e => if s.f e = .node n then .out else s.f e
        mem := upd s.mem n [], node := upd s.node n (.free (some s.msgs)), busy := false, msgs := s.msgs + 1 }
    else none
  | .take e =>
    if e < s.born ∧ s.w e = .queued then some { s with tr := s.tr ++ [.rcv (.work (s.own e)) (.input e)], w := upd s.w e .taken } else none
  | .assign e =>
    if e < s.born ∧ s.w e = .taken then
      match s.given e with
      | none => none
      | some b => some { s with
          tr := s.tr ++ [.acc (.work (s.own e)) e .fixed false, .rcv (.work (s.own e)) (.given e), .acc (.work (s.own e)) e .producer true, .acc (.work (s.own e)) e .producer false]
          w := upd s.w e .assigned
          refs := if b then s.refs ++ [(.work (s.own e), e)] else s.refs }
    else none
  | .use g e f => if (g, e) ∈ s.refs ∧ (f = .fixed ∨ f = .producer) then some { s with tr := s.tr ++ [.acc g e f false] } else none
  | .pass g g' e =>
    if (g, e) ∈ s.refs ∧ g'.users = true then
      some { s with tr := s.tr ++ [.snd g (.pass s.msgs), .rcv g' (.pass s.msgs)], refs := s.refs ++ [(g', e)], msgs := s.msgs + 1 }
    else none
  | .finish e =>
    if (.work (s.own e), e) ∈ s.refs ∧ s.closed e = false then
      some { s with tr := s.tr ++ [.acc (.work (s.own e)) e .fixed false, .snd (.work (s.own e)) (.done e)], closed := upd s.closed e true }
    else none

/-- Several steps (same places, `streams/eos_producer.go:136-467`). -/
def run (pt : Nat → Nat) (s : St) : List Act → Option St
  | [] => some s
  | x :: xs => (step pt s x).bind fun s' => run pt s' xs

/-- The reachable states (same places, `streams/eos_producer.go:136-467`). -/
inductive Reach (pt : Nat → Nat) (poolSize : Nat) : St → Prop where
  | init : Reach pt poolSize (St.init poolSize)
  | step {s s' : St} (x : Act) : Reach pt poolSize s → step pt s x = some s' → Reach pt poolSize s'

end Verif.Shared
