import Verif.Base
/-
`streams/sak/util.go`, `streams/sak/pool.go`, `streams/sak/context.go`.
-/
namespace Verif.Sak

/-! ### util.go -/

/-- `Abs` on a signed machine integer of width `w`, `streams/sak/util.go:50-55`. Floats are not modelled. -/
def abs {w : Nat} (a : BitVec w) : BitVec w := if a.slt 0 then -a else a

section
variable {α : Type} (lt : α → α → Bool)

/-- `Min`, `streams/sak/util.go:58-63`, over the comparison `<` of the number type. -/
def min (a b : α) : α := if lt a b then a else b

/-- `Max`, `streams/sak/util.go:81-86`; `a > b` is `b < a`. -/
def max (a b : α) : α := if lt b a then a else b

/-- `MinN`, `streams/sak/util.go:66-78`; `zero` is the zero value returned for no arguments. -/
def minN (zero : α) : List α → α
  | [] => zero
  | v0 :: vs => vs.foldl (fun m v => if lt v m then v else m) v0

/-- `MaxN`, `streams/sak/util.go:89-101`. -/
def maxN (zero : α) : List α → α
  | [] => zero
  | v0 :: vs => vs.foldl (fun m v => if lt m v then v else m) v0
end

/-! ### pool.go -/

/-- An object in memory: its identity and its contents. What `streams/sak/pool.go:23-67` hands out. -/
structure Obj (S : Type) where
  id : Nat
  contents : S
deriving DecidableEq, Repr

/-- `Pool`, `streams/sak/pool.go:23-28`. `nextId` stands for the allocator used by the factory: each call
yields a new identity. The mutex makes `Borrow` and `Release` atomic. -/
structure Pool (S : Type) where
  freelist : List (Obj S)
  cap : Nat
  nextId : Nat

/-- `NewPool`, `streams/sak/pool.go:33-38`. -/
def newPool (S : Type) (size : Nat) : Pool S := { freelist := [], cap := size, nextId := 0 }

variable {S : Type}

/-- `Borrow`, `streams/sak/pool.go:41-54`: the last object of the list, or a new one. -/
def Pool.borrow (factory : S) (p : Pool S) : Pool S × Obj S :=
  match p.freelist.getLast? with
  | none => ({ p with nextId := p.nextId + 1 }, ⟨p.nextId, factory⟩)
  | some o => ({ p with freelist := p.freelist.dropLast }, o)

/-- `Release`, `streams/sak/pool.go:58-67`: the object is reset in any case and kept if there is room. -/
def Pool.release (reset : S → S) (p : Pool S) (o : Obj S) : Pool S × Bool :=
  let o := { o with contents := reset o.contents }
  if p.freelist.length < p.cap then ({ p with freelist := p.freelist ++ [o] }, true)
  else (p, false)

/-! ### context.go -/

/-- A `context.Context` built by `streams/sak/context.go`: `context.Background`, `context.WithCancel` with
the identity of its cancel function, or `context.WithValue`. `streams/sak/context.go:21-73`. -/
inductive Ctx
  | background
  | withCancel (id : Nat) (parent : Ctx)
  | withValue (parent : Ctx)
deriving DecidableEq, Repr

/-- `ctx.Err() != nil`: the context or one of its ancestors was cancelled (documented behaviour of the
standard library; used in `streams/sak/context.go:48,58`). Deadlines do not occur. -/
def Ctx.err (cancelled : List Nat) : Ctx → Bool
  | .background => false
  | .withCancel id parent => cancelled.contains id || parent.err cancelled
  | .withValue parent => parent.err cancelled

/-- `RunStatus`, `streams/sak/context.go:21-24`. -/
structure RunStatus where
  ctx : Ctx
  cancel : Nat
deriving DecidableEq, Repr

/-- The process' state: cancel functions already called and the handles made so far. A new cancel function
is identified by the number of handles made before it. `streams/sak/context.go:21-73`. -/
structure World where
  cancelled : List Nat := []
  handles : List RunStatus := []
deriving Repr

/-- `NewRunStatus`, `streams/sak/context.go:27-33`; `none` is the nil parent. -/
def newRunStatus (id : Nat) (parent : Option Ctx) : RunStatus :=
  { ctx := .withCancel id (parent.getD .background), cancel := id }

/-- `WithValue`, `streams/sak/context.go:41-46`. -/
def RunStatus.withValue (r : RunStatus) : RunStatus := { ctx := .withValue r.ctx, cancel := r.cancel }

/-- `Fork`, `streams/sak/context.go:71-73`. -/
def RunStatus.fork (id : Nat) (r : RunStatus) : RunStatus := newRunStatus id (some r.ctx)

/-- `Running`, `streams/sak/context.go:58-60`. -/
def RunStatus.running (w : World) (r : RunStatus) : Bool := !(r.ctx.err w.cancelled)

/-- A call that uses earlier handles by their number. `streams/sak/context.go:27-73`. -/
inductive ROp
  | new
  | fork (h : Nat)
  | withValue (h : Nat)
  | halt (h : Nat)
deriving DecidableEq, Repr

/-- One call (`streams/sak/context.go:27-73`; `Halt` is 62-64); calls with unknown handles do nothing. -/
def rexec (w : World) : ROp → World
  | .new => { w with handles := w.handles ++ [newRunStatus w.handles.length none] }
  | .fork h => match w.handles[h]? with
    | none => w
    | some r => { w with handles := w.handles ++ [r.fork w.handles.length] }
  | .withValue h => match w.handles[h]? with
    | none => w
    | some r => { w with handles := w.handles ++ [r.withValue] }
  | .halt h => match w.handles[h]? with
    | none => w
    | some r => { w with cancelled := r.cancel :: w.cancelled }

/-- A sequence of calls (`streams/sak/context.go:27-73`). -/
def rrun (ops : List ROp) : World := ops.foldl rexec {}

end Verif.Sak
