import Mathlib.Tactic.Common
import Verif.Base
/-
The simple `Producer` (`streams/producer.go:38-87`): goroutines that call `Produce` and `ProduceAsync`, and the callbacks of `ProduceAsync`, which may call them too.

The Kafka client is external. It keeps the records it was given until their promises have returned, it ends every record it keeps sooner or later, with or without an error, in any order, it runs
the promises one at a time, and its `Produce` waits while it keeps `MaxBufferedRecords` records.

Simplifications: of a record only the topic is kept; a goroutine stands for any caller; a context that is cancelled ends its record with an error, like any other failure.
-/
namespace Verif.Simple

/-- One call of `Produce` (`sync`) or `ProduceAsync`: the topic of its record as given and whether there is a callback (`Produce` always has one, its own). `streams/producer.go:59-83`. -/
structure Call where
  sync : Bool
  topic : Bytes
  hasCb : Bool
  deriving DecidableEq, Repr

/-- Lines 75-77: the topic of the record that goes to the client. `streams/producer.go:74-78`. -/
def topicOf (default : Bytes) (c : Call) : Bytes := if c.topic.length = 0 then default else c.topic

/-- What a goroutine does: it is elsewhere; it is in `client.Produce` for call `i` (78); it waits for the end of call `i` (68). `streams/producer.go:59-83`. -/
inductive Phase where
  | idle
  | producing (i : Nat)
  | waiting (i : Nat)
  deriving DecidableEq, Repr

/-- The promise that is running: its call, the outcome, and what the callback is doing if it has called the producer itself. `streams/producer.go:78-82`. -/
structure Cur where
  id : Nat
  err : Option Nat
  inner : Phase
  deriving DecidableEq, Repr

/-- The producer, its client and the callers; calls are numbered. The last group of fields is history. `streams/producer.go:38-87`. -/
structure Sys where
  calls : List Call
  ph : Nat → Phase
  /-- the records that the client keeps -/
  buf : List Nat
  /-- the promise that is running -/
  cur : Option Cur
  /-- the `WaitGroup`s of `Produce` that are done, with the variable `err`, `streams/producer.go:62-67` -/
  done : List (Nat × Option Nat)
  /-- what reached the client, with the topic -/
  sent : List (Nat × Bytes)
  /-- how Kafka ended the records -/
  ends : List (Nat × Option Nat)
  /-- what `Produce` returned -/
  ret : List (Nat × Option Nat)
  /-- the runs of callbacks, with the topic of the record that they see and the error -/
  cbs : List (Nat × Bytes × Option Nat)

/-- A new producer. `streams/producer.go:46-56`. -/
def Sys.init : Sys := { calls := [], ph := fun _ => .idle, buf := [], cur := none, done := [], sent := [], ends := [], ret := [], cbs := [] }

/-- The default topic of the `Destination` (`streams/producer.go:25-36`) and the `MaxBufferedRecords` of the client. -/
structure Cfg where
  default : Bytes
  max : Nat

/-- What can happen. `streams/producer.go:59-83`, places at the constructors. -/
inductive Act where
  /-- goroutine `t` calls `Produce` or `ProduceAsync`, `streams/producer.go:61-64,74` -/
  | call (t : Nat) (c : Call)
  /-- its record enters the client, `streams/producer.go:78` -/
  | produce (t : Nat)
  /-- the client ends record `i` and runs its promise, `streams/producer.go:78-82` and `64-67` -/
  | promise (i : Nat) (e : Option Nat)
  /-- the callback that is running calls the producer, `streams/producer.go:80` -/
  | nested (c : Call)
  /-- that record enters the client, `streams/producer.go:78` -/
  | nestedProduce
  /-- that `Produce` returns, `streams/producer.go:68-69` -/
  | nestedReturn
  /-- the promise returns, `streams/producer.go:82` -/
  | finish
  /-- `Produce` returns to goroutine `t`, `streams/producer.go:68-69` -/
  | ret (t : Nat)

/-- Function update, for the assignments to the state of one goroutine. `streams/producer.go:59-83`. -/
def upd (f : Nat → Phase) (t : Nat) (v : Phase) : Nat → Phase := fun u => if u = t then v else f u

/-- Where the caller goes when its record is in the client: `Produce` waits (68), `ProduceAsync` returns. `streams/producer.go:64-70,78-83`. -/
def afterProduce (c : Call) (i : Nat) : Phase := if c.sync then .waiting i else .idle

/-- One step, see `Act` for the places. `streams/producer.go:59-83`. -/
def step (cfg : Cfg) (s : Sys) : Act → Option Sys
  | .call t c =>
    match s.ph t with
    | .idle => some { s with calls := s.calls ++ [c], ph := upd s.ph t (.producing s.calls.length) }
    | _ => none
  | .produce t =>
    match s.ph t with
    | .producing i =>
      match s.calls[i]? with
      | some c =>
        if s.buf.length < cfg.max then
          some { s with buf := s.buf ++ [i], sent := s.sent ++ [(i, topicOf cfg.default c)], ph := upd s.ph t (afterProduce c i) }
        else none
      | none => none
    | _ => none
  | .promise i e =>
    match s.cur, s.calls[i]? with
    | none, some c =>
      if i ∈ s.buf then
        some { s with
          cur := some ⟨i, e, .idle⟩, ends := s.ends ++ [(i, e)],
          done := if c.sync then s.done ++ [(i, e)] else s.done,
          cbs := if c.sync = false ∧ c.hasCb then s.cbs ++ [(i, topicOf cfg.default c, e)] else s.cbs }
      else none
    | _, _ => none
  | .nested c =>
    match s.cur with
    | some ⟨i, e, .idle⟩ =>
      if (s.calls[i]?.map fun d => !d.sync && d.hasCb) = some true then
        some { s with calls := s.calls ++ [c], cur := some ⟨i, e, .producing s.calls.length⟩ }
      else none
    | _ => none
  | .nestedProduce =>
    match s.cur with
    | some ⟨i, e, .producing j⟩ =>
      match s.calls[j]? with
      | some c =>
        if s.buf.length < cfg.max then
          some { s with buf := s.buf ++ [j], sent := s.sent ++ [(j, topicOf cfg.default c)], cur := some ⟨i, e, afterProduce c j⟩ }
        else none
      | none => none
    | _ => none
  | .nestedReturn =>
    match s.cur with
    | some ⟨i, e, .waiting j⟩ =>
      match s.done.find? (fun d => d.1 = j) with
      | some d => some { s with cur := some ⟨i, e, .idle⟩, ret := s.ret ++ [d] }
      | none => none
    | _ => none
  | .finish =>
    match s.cur with
    | some ⟨i, _, .idle⟩ => some { s with cur := none, buf := s.buf.erase i }
    | _ => none
  | .ret t =>
    match s.ph t with
    | .waiting i =>
      match s.done.find? (fun d => d.1 = i) with
      | some d => some { s with ph := upd s.ph t .idle, ret := s.ret ++ [d] }
      | none => none
    | _ => none

/-- Some steps one after the other. `streams/producer.go:59-83`. -/
def run (cfg : Cfg) (s : Sys) : List Act → Option Sys
  | [] => some s
  | a :: as => (step cfg s a).bind fun s' => run cfg s' as

/-- Reachable states. `streams/producer.go:46-83`. -/
def Reach (cfg : Cfg) (s : Sys) : Prop := ∃ as, run cfg Sys.init as = some s

end Verif.Simple
