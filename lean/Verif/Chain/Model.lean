import Verif.Eos.Model
/-
Model of the pointers in the pool of transactional producers, `streams/eos_producer.go`: the event contexts of a transaction are chained by their
`prev` and `next` pointers, a node keeps the first and the last of each partition (`currentPartitions`), the nodes are a ring by their `next` pointers.

In `Verif.Eos.Model` a node has the list of its events and the ring is a list of numbers. Here these are what the code has: objects with pointers, a
map, and loops that follow pointers. Everything else is taken from `Verif.Eos.Model`, whose `Node.evs` is not used here (always empty).
-/
namespace Verif.Chain
open Verif.Eos

/-- `EventContext`, the fields that the pool reads or writes (`streams/event_context.go:35-50`). A pointer to an event context is its number. -/
structure Obj where
  part : Nat
  off : Option Nat
  prev : Option Nat
  next : Option Nat
  deriving DecidableEq, Repr

/-- `eventContextDll`, `streams/eos_producer.go:242-244`. -/
structure Dll where
  root : Nat
  tail : Nat
  deriving DecidableEq, Repr

/-- `currentPartitions` (`streams/eos_producer.go:259`): a map, as the list of its entries. -/
abbrev Map := List (Nat × Dll)

/-- `m[tp]`, `streams/eos_producer.go:308`. -/
def Map.get (m : Map) (tp : Nat) : Option Dll := (m.find? fun x => x.1 = tp).map Prod.snd

/-- `m[tp] = d`, `streams/eos_producer.go:314,317`. -/
def Map.put (m : Map) (tp : Nat) (d : Dll) : Map :=
  if (m.get tp).isSome then m.map fun x => if x.1 = tp then (tp, d) else x else m ++ [(tp, d)]

/-- `delete(m, tp)`, `streams/eos_producer.go:462`. -/
def Map.del (m : Map) (tp : Nat) : Map := m.filter fun x => x.1 ≠ tp

/-- The keys that a `range` over the map meets (`streams/eos_producer.go:366,370,397,446`). -/
def Map.keys (m : Map) : List Nat := m.map Prod.fst

/-- The variables of the loop in `newEOSProducerPool` (`streams/eos_producer.go:113-115`) and the `next` pointers of the nodes. -/
structure Build where
  first : Option Nat
  prev : Option Nat
  last : Option Nat
  next : Nat → Option Nat

/-- The body of that loop, `streams/eos_producer.go:117-125`. -/
def Build.link (b : Build) (p : Nat) : Build :=
  match b.first with
  | none => { b with first := some p, last := some p, prev := some p }
  | some _ =>
    { b with
      next := match b.prev with
        | some q => upd b.next q (some p)
        | none => b.next
      last := some p, prev := some p }

/-- The ring of nodes, `streams/eos_producer.go:113-128`. With no nodes line 128 would be a nil dereference. -/
def buildRing (n : Nat) : Nat → Option Nat :=
  let b := (List.range n).foldl Build.link ⟨none, none, none, fun _ => none⟩
  match b.last with
  | some l => upd b.next l b.first
  | none => b.next

/-- The loop `for nextNode := p.next; nextNode != p; nextNode = nextNode.next` that looks for a node with the partition
(`streams/eos_producer.go:448-459`). The first number bounds the iterations; the loop leaves before it is used up (C106). -/
def search (next : Nat → Option Nat) (f : Nat → Bool) (p : Nat) : Nat → Option Nat → Option Nat
  | 0, _ => none
  | _, none => none
  | k + 1, some q => if q = p then none else if f q then some q else search next f p k (next q)

/-- The pool with its pointers (`streams/eos_producer.go:82-95,246-270`): `q` is the pool without the events, `heap` the event contexts that were
given to the pool, `next` the ring of nodes, `cur` the nodes' `currentPartitions`, `ptr` the variable `ec` of the loop in 339. -/
structure St where
  q : Pool
  heap : Nat → Option Obj
  next : Nat → Option Nat
  cur : Nat → Map
  ptr : Option Nat

/-- `newEOSProducerPool`, `streams/eos_producer.go:97-133`. -/
def St.init (c : Cfg) : St :=
  { q := Pool.init c, heap := fun _ => none, next := buildRing c.poolSize, cur := fun _ => [], ptr := none }

/-- `tail.next = ec`, `streams/eos_producer.go:311`. -/
def setNext (h : Nat → Option Obj) (i j : Nat) : Nat → Option Obj := upd h i ((h i).map fun o => { o with next := some j })

/-- `addEventContext`, `streams/eos_producer.go:296-324`, by the node on deck, for an event context that was just made
(`streams/event_context.go:190-218`: a new object with nil pointers). The locks, the time and the call of `revocationWaiter.Add` are left out. -/
def addEvent (s : St) (e : Ev) : St :=
  let p := s.q.onDeck
  let q := { s.q with
    nodes := upd s.q.nodes p { s.q.nodes p with cnt := (s.q.nodes p).cnt + 1 }
    fwd := .added e
    added := s.q.added ++ [(e, s.q.gen)] }
  let heap := upd s.heap e.id (some ⟨e.part, e.off, none, none⟩)
  match (s.cur p).get e.part with
  | some d =>
    let heap := upd heap e.id (some ⟨e.part, e.off, some d.tail, none⟩)
    { s with q := q, heap := setNext heap d.tail e.id, cur := upd s.cur p ((s.cur p).put e.part { d with tail := e.id }) }
  | none => { s with q := q, heap := heap, cur := upd s.cur p ((s.cur p).put e.part ⟨e.id, e.id⟩) }

/-- The first half of `commit`, `streams/eos_producer.go:364-369`, as in `Eos.beginCommit` but with the keys of the map. -/
def beginCommit (s : St) (p : Nat) : Pool :=
  { s.q with
    nodes := upd s.q.nodes p { s.q.nodes p with opened := true }
    sent := s.q.sent ++ (s.q.nodes p).buf.map fun e => ⟨s.q.nodeGen p, e.1, e.2⟩
    owner := fun tp => if ((s.cur p).get tp).isSome then some p else s.q.owner tp }

/-- One iteration of the loop in `relinquishOwnership`, `streams/eos_producer.go:446-463`. -/
def relinquish (n : Nat) (s : St) (p tp : Nat) : St :=
  let q :=
    match search s.next (fun k => ((s.cur k).get tp).isSome) p n (s.next p) with
    | some k => let q1 := flushPartition s.q k tp; { q1 with owner := upd q1.owner tp (some k) }
    | none => { s.q with owner := upd s.q.owner tp none }
  { s with q := q, cur := upd s.cur p ((s.cur p).del tp) }

/-- The step function; the labels are those of `Eos.Label`. Steps that do not look at the events of a node are those of `Eos.step`
(`streams/eos_producer.go:136-536`). -/
def step (c : Cfg) (s : St) (l : Label) : Option St :=
  match l with
  | .add e =>
    match s.q.fwd, s.q.com with
    | .idle, .relinq _ _ => none
    | .idle, _ => if (s.heap e.id).isSome then none else some (addEvent s e)
    | _, _ => none
  | .beginCommit order =>
    match s.q.com with
    | .begun p =>
      if IsOrder order (s.cur p).keys then
        some { s with q := { beginCommit s p with com := .fin p [] false order }, ptr := none }
      else none
    | _ => none
  | .wait =>
    match s.q.com, s.ptr with
    | .fin p _ flag rest, some i =>
      -- one iteration of 339-355
      match s.heap i with
      | none => none
      | some o =>
        if i ∈ s.q.done then
          match flag, o.off with
          | false, some k =>
            some { s with q := { produce s.q p o.part (.commit o.part (k + 1)) with com := .fin p [] true rest }, ptr := o.prev }
          | _, _ => some { s with q := { s.q with com := .fin p [] flag rest }, ptr := o.prev }
        else none
    | .fin p _ _ (tp :: rest), none =>
      -- the next partition of 370
      some { s with q := { s.q with com := .fin p [] false rest }, ptr := ((s.cur p).get tp).map Dll.tail }
    | _, _ => none
  | .endTxn order =>
    match s.q.com, s.ptr with
    | .fin p _ _ [], none =>
      if IsOrder order (s.cur p).keys then
        some { s with q := { s.q with
          ended := s.q.ended ++ [(s.q.nodeGen p, decide ((s.q.nodes p).produceCnt ≠ 0))]
          com := .relinq p order } }
      else none
    | _, _ => none
  | .release =>
    match s.q.com with
    | .relinq p (tp :: rest) => let s' := relinquish c.poolSize s p tp; some { s' with q := { s'.q with com := .relinq p rest } }
    | .relinq p [] => some { s with q := { s.q with nodes := upd s.q.nodes p (s.q.nodes p).clear, com := .back p } }
    | _ => none
  | l => (Eos.step c s.q l).map fun q => { s with q := q }

/-- A sequence of steps. Interleaving of the goroutines of `streams/eos_producer.go:136-536`. -/
def run (c : Cfg) (s : St) : List Label → Option St
  | [] => some s
  | l :: ls => (step c s l).bind fun s' => run c s' ls

/-- The states that can be reached if the error handler never answers `Continue` to a failed commit (`streams/error_handling.go:21-24`). -/
inductive Reach (c : Cfg) : St → Prop where
  | init : Reach c (St.init c)
  | step {s s' : St} (l : Label) : Reach c s → l ≠ .commitFail true → step c s l = some s' → Reach c s'

end Verif.Chain
