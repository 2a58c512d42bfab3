import Verif.Config.Model
import Verif.Record.Model
/-
How an event gets to a processor: `streams/event_source.go:358-386` and the chain of `eventProcessorWrapper`s, 397-446.

Simplifications: a user's processor is a number with a table of results (`User.run`); what it does to the event context is not part of the
model. Decoded values are not modelled: `User.decodes` says whether the decoder of the processor accepts the record. A call of a nil function
is a panic.
-/
namespace Verif.Route
open Verif.Config (ErrorResponse)
open Verif.Record (Incoming)

/-- `ExecutionState`, `streams/partition_worker.go:29-42`; `unknown` is `unknownType`. -/
inductive Exec where
  | complete | incomplete | fatal | unknown
  deriving DecidableEq, Repr

/-- The functions that the user supplies: decoders and processors by number (`eventProcessorExecutor`, `streams/event_source.go:403-407`), the
default processor (39, set in 79 or 385), the deserialization error handler (406); `none` = nil. -/
structure User where
  decodes : Nat → Incoming → Bool
  run : Nat → Incoming → Exec
  dflt : Option (Incoming → Exec)
  onError : Option (Incoming → ErrorResponse)

/-- `eventProcessorWrapper`, `streams/event_source.go:397-401`; `proc` stands for `eventExecutor`, `next` is an index into the heap. -/
structure Node where
  type : Bytes
  proc : Nat
  next : Option Nat
  deriving DecidableEq

/-- The fields `rootProcessor` and `tailProcessor` of `EventSource` (`streams/event_source.go:36-37`) and the objects they point to. -/
structure Chain where
  heap : List Node
  root : Option Nat
  tail : Option Nat

/-- A new event source, `streams/event_source.go:78-85`. -/
def Chain.new : Chain := ⟨[], none, none⟩

/-- `es.tailProcessor.next = ep`, `streams/event_source.go:377` (no effect for a dangling pointer, which does not occur). -/
def setNext (heap : List Node) (i j : Nat) : List Node :=
  match heap[i]? with
  | some n => heap.set i { n with next := some j }
  | none => heap

/-- `RegisterEventType`, `streams/event_source.go:372-380`. -/
def Chain.register (c : Chain) (type : Bytes) (proc : Nat) : Chain :=
  let heap := c.heap ++ [⟨type, proc, none⟩]
  let ep := c.heap.length
  match c.root, c.tail with
  | none, _ => ⟨heap, some ep, some ep⟩
  | some r, some t => ⟨setNext heap t ep, some r, some ep⟩
  | some r, none => ⟨heap, some r, some ep⟩

/-- What was called with the record (`streams/event_source.go:365,411,413`). -/
inductive Call where
  | processor (p : Nat)
  | default
  | errorHandler (p : Nat)
  deriving DecidableEq

/-- `Exec`, `streams/event_source.go:409-418`: the calls and the result; `none` is a panic. -/
def exec (u : User) (p : Nat) (r : Incoming) : List Call × Option Exec :=
  if u.decodes p r then ([.processor p], some (u.run p r))
  else match u.onError with
    | some h => ([.errorHandler p], some (if h r = .continue then .complete else .incomplete))
    | none => ([], none)

/-- `process`, `streams/event_source.go:437-445`; `fuel` bounds the number of wrappers that are visited. -/
def process (u : User) (heap : List Node) : Nat → Nat → Incoming → List Call × Option Exec
  | 0, _, _ => ([], none)
  | fuel + 1, i, r =>
    match heap[i]? with
    | none => ([], none)
    | some n =>
      if r.recordType = n.type then exec u n.proc r
      else match n.next with
        | some j => process u heap fuel j r
        | none => ([], some .unknown)

/-- `handleEvent`, `streams/event_source.go:359-368`. -/
def handleEvent (u : User) (c : Chain) (r : Incoming) : List Call × Option Exec :=
  let first := match c.root with
    | some i => process u c.heap c.heap.length i r
    | none => ([], some Exec.unknown)
  match first with
  | (calls, some .unknown) =>
    match u.dflt with
    | some d => (calls ++ [.default], some (d r))
    | none => (calls, none)
  | other => other

/-- A sequence of registrations before `ConsumeEvents` (`streams/event_source.go:370-371`). -/
def build (regs : List (Bytes × Nat)) : Chain := regs.foldl (fun c x => c.register x.1 x.2) Chain.new

end Verif.Route
