import Verif.Config.Model
/-
Failing and stopping: `commitLoop` after an error (`streams/eos_producer.go:208-228`), `fail` (`streams/source.go:169-172`), `closeOnFail`, `Stop`,
`StopNow`, `Done` (`streams/event_source.go:93-117,191-290`), `leave` and `stop` (`streams/source_consumer.go:379-399`).

Simplifications: of `commitLoop` only what it does with errors; of `leave` only that it ends at some time with the client closed. `ConsumeEvents` (93-97) has
been called. Any number of goroutines can be in `StopNow` and in `<-es.Done()`; they are counted. A panic ends the process.
-/
namespace Verif.Shutdown
open Verif.Config (ErrorResponse)

/-- Where `commitLoop` is: in its `select` (211-215), in `fail` (219) with the handler's answer, returned (222), panicked (224). `streams/eos_producer.go:207-227`. -/
inductive Loop where
  | running
  | failing (r : ErrorResponse)
  | returned
  | panicked
  deriving DecidableEq

/-- The goroutine that `Stop` starts (`streams/event_source.go:264-272`): not started, before 265, 266, 267, over. -/
inductive Stopper where
  | off | leaving | halting | telling | over
  deriving DecidableEq

/-- The event source. `now0`, `now1`, `now2`: goroutines in `StopNow` before 283, 284, 285; `token`: the channel `done` (capacity 1, line 83) is full;
`waiting`: goroutines in `<-es.Done()`. The rest is history: goroutines whose `<-es.Done()` returned, finished calls of `StopNow`, sent tokens. `streams/event_source.go:67-117`, `250-289`. -/
structure Src where
  healthy : Bool
  loop : Loop
  /-- `closeOnFail` still waits for an error (112) -/
  watching : Bool
  stopper : Stopper
  now0 : Nat
  now1 : Nat
  now2 : Nat
  halted : Bool
  clientClosed : Bool
  token : Bool
  waiting : Nat
  released : Nat
  nows : Nat
  sent : Nat
  deriving DecidableEq

/-- After `ConsumeEvents` (`streams/event_source.go:67-97`, `streams/source.go:111`). -/
def Src.init : Src :=
  { healthy := true, loop := .running, watching := true, stopper := .off, now0 := 0, now1 := 0, now2 := 0, halted := false, clientClosed := false,
    token := false, waiting := 0, released := 0, nows := 0, sent := 0 }

/-- What can happen: `err r`: an error for which the handler answers `r` (`streams/eos_producer.go:217-219`); `caught`: `closeOnFail` receives it
(`streams/event_source.go:112-116`); `stop`: a call of `Stop`; `left`, `stopHalt`, `stopTell`: its goroutine (265, 266, 267-270); `now`: a call of
`StopNow`; `nowHalt`, `nowClose`, `nowTell`: 283, 284, 285-288; `wait`, `wake`: `<-es.Done()` begins and returns (209, 243). -/
inductive Label where
  | err (r : ErrorResponse)
  | caught
  | stop
  | left
  | stopHalt
  | stopTell
  | now
  | nowHalt
  | nowClose
  | nowTell
  | wait
  | wake
  deriving DecidableEq

/-- The `select` with a default in 267-270 and 285-288 of `streams/event_source.go`. -/
def Src.tell (s : Src) : Src := if s.token then s else { s with token := true, sent := s.sent + 1 }

/-- One step; see `Label` for the places. (`streams/event_source.go:111-117`, `250-289`, `streams/eos_producer.go:207-227`.) -/
def step (s : Src) (l : Label) : Option Src :=
  if s.loop = .panicked then none else
  match l with
  | .err r =>
    if s.loop = .running then
      if r = .continue then some s else some { s with healthy := false, loop := .failing r }
    else none
  | .caught =>
    match s.loop with
    | .failing r =>
      if s.watching then some { s with watching := false, now0 := s.now0 + 1
                                       loop := match r with
                                         | .failConsumer => .returned
                                         | .fatallyExit => .panicked
                                         | _ => .running }
      else none
    | _ => none
  | .stop => if s.stopper = .off then some { s with stopper := .leaving } else some s
  | .left => if s.stopper = .leaving then some { s with stopper := .halting, clientClosed := true } else none
  | .stopHalt => if s.stopper = .halting then some { s with stopper := .telling, halted := true } else none
  | .stopTell => if s.stopper = .telling then some { s.tell with stopper := .over } else none
  | .now => some { s with now0 := s.now0 + 1 }
  | .nowHalt => if 0 < s.now0 then some { s with now0 := s.now0 - 1, now1 := s.now1 + 1, halted := true } else none
  | .nowClose => if 0 < s.now1 then some { s with now1 := s.now1 - 1, now2 := s.now2 + 1, clientClosed := true } else none
  | .nowTell => if 0 < s.now2 then some { s.tell with now2 := s.now2 - 1, nows := s.nows + 1 } else none
  | .wait => some { s with waiting := s.waiting + 1 }
  | .wake => if s.token ∧ 0 < s.waiting then some { s with token := false, waiting := s.waiting - 1, released := s.released + 1 } else none

/-- Several steps (`streams/event_source.go:93-290`). -/
def run (s : Src) : List Label → Option Src
  | [] => some s
  | l :: ls => (step s l).bind fun s' => run s' ls

end Verif.Shutdown
