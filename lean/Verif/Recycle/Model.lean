import Verif.Eos.Model
/-
Model of the life of the record objects that go through the pool of transactional producers: they come from `recordPool`
(`streams/record.go:52-82`), are filled by the application or by the commit log, are handed to `ProduceRecord`
(`streams/eos_producer.go:494-512`), perhaps wait in a buffer, are handed to the client, and are released in the client's callback
(`streams/eos_producer.go:521-535`). On top of the model of the producers, `Verif.Eos.Model`.
-/
namespace Verif.Recycle
open Verif.Eos

/-- The producers (`streams/eos_producer.go:82-95`) and the record objects, named by numbers. `held` are the objects of the
application, `free` the list of the pool (`streams/sak/pool.go:23-28`), `next` the next object that is allocated, `data` what the
objects contain (topic, key, value, headers and the rest in one number, 0 for an empty one: `streams/record.go:44-50`).

The rest records what happened and decides nothing but which acknowledgements are to come: `objs` has the object of each call of
`ProduceRecord` and what it contained at the call, `acked` the positions in `sent` of the records that the client has acknowledged,
`released` the calls whose object has been released, in order. -/
structure St where
  pool : Pool
  held : List Nat
  free : List Nat
  next : Nat
  data : Nat → Nat
  objs : List (Out × Nat × Nat)
  acked : List Nat
  released : List Out

/-- The beginning (`streams/record.go:52`, `streams/eos_producer.go:97-133`). -/
def St.init (c : Cfg) : St := ⟨Pool.init c, [], [], 0, fun _ => 0, [], [], []⟩

/-- What is fixed: the size of the list of free objects, 30000 (`streams/record.go:52`), and the contents of the commit records
(`streams/commit_log.go:76-82`, see `Verif.CommitLog.Model`). -/
structure Prm where
  size : Nat
  enc : Rec → Nat

/-- `NewRecord`, `streams/record.go:80-82`: `Borrow` of `streams/sak/pool.go:41-54`, the last one of the list or a new object, which
is empty (`streams/record.go:53-63`). -/
def borrow (s : St) : Nat × St :=
  match s.free.getLast? with
  | some o => (o, { s with free := s.free.dropLast })
  | none => (s.next, { s with next := s.next + 1, data := upd s.data s.next 0 })

/-- `Release`, `streams/record.go:293-295` and `streams/sak/pool.go:58-67`: the object is emptied (`streams/record.go:63-78`) and goes
back to the list if there is room. -/
def release (pr : Prm) (s : St) (o : Nat) : St :=
  if s.free.length < pr.size then { s with free := s.free ++ [o], data := upd s.data o 0 } else { s with data := upd s.data o 0 }

/-- The calls of `ProduceRecord` that a step has made (`streams/eos_producer.go:494`). -/
def newCalls (p p' : Pool) : List Out := p'.calls.drop p.calls.length

/-- What can happen, with the places in `streams/eos_producer.go:136-536` and `streams/record.go:80-293`. -/
inductive Act where
  /-- a step of the producers, see `Verif.Eos.Label`, other than a call by the application -/
  | pool (l : Label)
  /-- the application calls `NewRecord` (`streams/record.go:80`) -/
  | new
  /-- the application fills a record that it has not handed over, with `WithTopic`, `WriteKey` and so on
  (`streams/record.go:154-245`) -/
  | write (o v : Nat)
  /-- the application calls `Release` for a record it has not handed over (`streams/record.go:293`) -/
  | drop (o : Nat)
  /-- the application hands a record over with `Forward` or `RecordChange` (`streams/event_context.go:146-173`); `x` numbers the
  calls -/
  | forward (e : Ev) (x o : Nat)
  /-- the client calls the callback of the record at this position of `sent`, with or without an error
  (`streams/eos_producer.go:521-535`) -/
  | ack (i : Nat)
  deriving DecidableEq, Repr

/-- The step function; `none` means that the step is not possible. `streams/eos_producer.go:136-536`; `EndTransaction` is called
after `Flush` has returned without an error (376-380), which it does when the callbacks of all records of this producer's client have been
called. The commit record of `finalizeEventContexts` (351) is a new one (`streams/commit_log.go:76-77`). -/
def step (c : Cfg) (pr : Prm) (s : St) : Act → Option St
  | .pool l =>
    match l with
    | .produce _ _ => none
    | .wait =>
      match Eos.step c s.pool .wait with
      | none => none
      | some p' =>
        match newCalls s.pool p' with
        | [] => some { s with pool := p' }
        | out :: _ => some { (borrow s).2 with
            pool := p'
            data := upd (borrow s).2.data (borrow s).1 (pr.enc out.r)
            objs := s.objs ++ [(out, (borrow s).1, pr.enc out.r)] }
    | .endTxn order =>
      match s.pool.com with
      | .fin p _ _ _ =>
        if ∀ i ∈ List.range s.pool.sent.length, ((s.pool.sent[i]?).map Out.gen = some (s.pool.nodeGen p) → i ∈ s.acked) then
          (Eos.step c s.pool (.endTxn order)).map fun p' => { s with pool := p' }
        else none
      | _ => none
    | l => (Eos.step c s.pool l).map fun p' => { s with pool := p' }
  | .new => some { (borrow s).2 with held := s.held ++ [(borrow s).1] }
  | .write o v => if o ∈ s.held then some { s with data := upd s.data o v } else none
  | .drop o => if o ∈ s.held then some (release pr { s with held := s.held.erase o } o) else none
  | .forward e x o =>
    if o ∈ s.held ∧ ∀ out ∈ s.pool.calls, out.r ≠ .user x then
      match Eos.step c s.pool (.produce e x) with
      | none => none
      | some p' => some { s with
          pool := p', held := s.held.erase o, objs := s.objs ++ (newCalls s.pool p').map fun out => (out, o, s.data o) }
    else none
  | .ack i =>
    match s.pool.sent[i]? with
    | none => none
    | some out =>
      if i ∈ s.acked then none else
      match s.objs.find? fun x => x.1 = out with
      | none => none
      | some x => some (release pr { s with acked := s.acked ++ [i], released := s.released ++ [out] } x.2.1)

/-- A sequence of steps. Interleaving of the goroutines of `streams/eos_producer.go:136-536` and of the application. -/
def run (c : Cfg) (pr : Prm) (s : St) : List Act → Option St
  | [] => some s
  | l :: ls => (step c pr s l).bind fun s' => run c pr s' ls

/-- The states that can be reached if the error handler never answers `Continue` to a failed commit (`Continue` is
documented to lose data, `streams/error_handling.go:21-24`). -/
inductive Reach (c : Cfg) (pr : Prm) : St → Prop where
  | init : Reach c pr (St.init c)
  | step {s s' : St} (a : Act) : Reach c pr s → a ≠ .pool (.commitFail true) → step c pr s a = some s' → Reach c pr s'

end Verif.Recycle
