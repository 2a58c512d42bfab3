import Verif.Base
/-
`streams/sak/yadll.go`: the doubly linked list, with its pointers.
-/
namespace Verif.LinkedList

/-- Address of an `Element` (`streams/sak/yadll.go:12-24`): the sentinel `root` embedded in list `l`, or an
element allocated by an insertion. -/
inductive Addr
  | root (l : Nat)
  | elem (n : Nat)
deriving DecidableEq, Repr

/-- Assignment to one field of one object. Stands for the pointer writes of `streams/sak/yadll.go:50-231`. -/
def upd {α β : Type} [DecidableEq α] (f : α → β) (a : α) (b : β) : α → β := fun x => if x = a then b else f x

/-- The memory: the fields of all `Element`s and `List`s (`streams/sak/yadll.go:12-24,45-48`). `none` is
the nil pointer; lists are numbered; `owner` is the field `list`; `fresh` is the allocator. -/
structure Heap (V : Type) where
  next : Addr → Option Addr
  prev : Addr → Option Addr
  owner : Nat → Option Nat
  value : Nat → V
  len : Nat → Int
  fresh : Nat

/-- Zero values everywhere: every list is the zero `List`, which is ready to use. The types are in `streams/sak/yadll.go:11-48`. -/
def Heap.empty {V : Type} (v : V) : Heap V :=
  { next := fun _ => none, prev := fun _ => none, owner := fun _ => none, value := fun _ => v,
    len := fun _ => 0, fresh := 0 }

variable {V : Type}

/-- `Init`, `streams/sak/yadll.go:50-55`. -/
def init (h : Heap V) (l : Nat) : Heap V :=
  { h with next := upd h.next (.root l) (some (.root l)), prev := upd h.prev (.root l) (some (.root l)),
           len := upd h.len l 0 }

/-- `lazyInit`, `streams/sak/yadll.go:81-85`. -/
def lazyInit (h : Heap V) (l : Nat) : Heap V := if h.next (.root l) = none then init h l else h

/-- `Len`, `streams/sak/yadll.go:62`. -/
def len (h : Heap V) (l : Nat) : Int := h.len l

/-- `Front`, `streams/sak/yadll.go:65-70`. -/
def front (h : Heap V) (l : Nat) : Option Addr := if h.len l = 0 then none else h.next (.root l)

/-- `Back`, `streams/sak/yadll.go:73-78`. -/
def back (h : Heap V) (l : Nat) : Option Addr := if h.len l = 0 then none else h.prev (.root l)

/-- `Next`, `streams/sak/yadll.go:27-32`. -/
def nextOf (h : Heap V) (e : Nat) : Option Addr :=
  match h.owner e with
  | none => none
  | some l => if h.next (.elem e) ≠ some (.root l) then h.next (.elem e) else none

/-- `Prev`, `streams/sak/yadll.go:35-40`. -/
def prevOf (h : Heap V) (e : Nat) : Option Addr :=
  match h.owner e with
  | none => none
  | some l => if h.prev (.elem e) ≠ some (.root l) then h.prev (.elem e) else none

/-- The pointer part of `insert`, `streams/sak/yadll.go:89-92`, also `move` lines 121-124. `none` is a nil
dereference. The four assignments are executed in the order of the code. -/
def link (h : Heap V) (e at' : Addr) : Option (Heap V) :=
  let h := { h with prev := upd h.prev e (some at') }
  let h := { h with next := upd h.next e (h.next at') }
  match h.prev e with
  | none => none
  | some p =>
    let h := { h with next := upd h.next p (some e) }
    match h.next e with
    | none => none
    | some n => some { h with prev := upd h.prev n (some e) }

/-- `insert`, `streams/sak/yadll.go:88-96`. -/
def insert (h : Heap V) (l : Nat) (e : Nat) (at' : Addr) : Option (Heap V) :=
  (link h (.elem e) at').map fun h => { h with owner := upd h.owner e (some l), len := upd h.len l (h.len l + 1) }

/-- `insertValue`, `streams/sak/yadll.go:99-101`: allocates an element; `none` as `at` is a nil
dereference. -/
def insertValue (h : Heap V) (l : Nat) (v : V) (at' : Option Addr) : Option (Heap V) :=
  match at' with
  | none => none
  | some a => insert { h with value := upd h.value h.fresh v, fresh := h.fresh + 1 } l h.fresh a

/-- The unlinking assignments of `remove`, `streams/sak/yadll.go:105-106`, and `move`, lines 118-119. -/
def unlink (h : Heap V) (e : Addr) : Option (Heap V) :=
  match h.prev e with
  | none => none
  | some p =>
    let h := { h with next := upd h.next p (h.next e) }
    match h.next e with
    | none => none
    | some n => some { h with prev := upd h.prev n (h.prev e) }

/-- `remove`, `streams/sak/yadll.go:104-111`. -/
def remove (h : Heap V) (l : Nat) (e : Nat) : Option (Heap V) :=
  (unlink h (.elem e)).map fun h =>
    { h with next := upd h.next (.elem e) none, prev := upd h.prev (.elem e) none,
             owner := upd h.owner e none, len := upd h.len l (h.len l - 1) }

/-- `move`, `streams/sak/yadll.go:114-125`. -/
def move (h : Heap V) (e at' : Addr) : Option (Heap V) :=
  if e = at' then some h
  else match unlink h e with
    | none => none
    | some h => link h e at'

/-- `move` with a pointer that may be nil. Called from `streams/sak/yadll.go:176-215`. -/
def move? (h : Heap V) (e : Addr) (at' : Option Addr) : Option (Heap V) :=
  match at' with
  | none => none
  | some a => move h e a

/-- The body of the loops in `PushBackList` and `PushFrontList` (`streams/sak/yadll.go:219-221,228-230`):
`i` iterations from the element `e`; a nil element is a nil dereference. -/
def copyLoop (l : Nat) (at' : Heap V → Option Addr) (advance : Heap V → Nat → Option Addr) :
    Nat → Option Addr → Heap V → Option (Heap V)
  | 0, _, h => some h
  | i + 1, some (.elem e), h =>
    match insertValue h l (h.value e) (at' h) with
    | none => none
    | some h => copyLoop l at' advance i (advance h e) h
  | _ + 1, _, _ => none

/-- A call; lists and elements by number. The exported methods in `streams/sak/yadll.go:50-231`. -/
inductive Op (V : Type)
  | newList (l : Nat)
  | remove (l e : Nat)
  | pushFront (l : Nat) (v : V)
  | pushBack (l : Nat) (v : V)
  | insertBefore (l : Nat) (v : V) (mark : Nat)
  | insertAfter (l : Nat) (v : V) (mark : Nat)
  | moveToFront (l e : Nat)
  | moveToBack (l e : Nat)
  | moveBefore (l e mark : Nat)
  | moveAfter (l e mark : Nat)
  | pushBackList (l other : Nat)
  | pushFrontList (l other : Nat)

/-- One call; `none` is a panic.
* `NewList`, `streams/sak/yadll.go:58`: modelled as `Init` of a list that has not been used.
* `Remove`, 130-137. * `PushFront`, 140-143. * `PushBack`, 146-149. * `InsertBefore`, 154-160.
* `InsertAfter`, 165-171. * `MoveToFront`, 176-182. * `MoveToBack`, 187-193. * `MoveBefore`, 198-203.
* `MoveAfter`, 208-213. * `PushBackList`, 217-222. * `PushFrontList`, 226-231. -/
def exec (h : Heap V) : Op V → Option (Heap V)
  | .newList l => some (if h.next (.root l) = none then init h l else h)
  | .remove l e => if h.owner e = some l then remove h l e else some h
  | .pushFront l v => insertValue (lazyInit h l) l v (some (.root l))
  | .pushBack l v => insertValue (lazyInit h l) l v ((lazyInit h l).prev (.root l))
  | .insertBefore l v mark => if h.owner mark ≠ some l then some h else insertValue h l v (h.prev (.elem mark))
  | .insertAfter l v mark => if h.owner mark ≠ some l then some h else insertValue h l v (some (.elem mark))
  | .moveToFront l e =>
    if h.owner e ≠ some l ∨ h.next (.root l) = some (.elem e) then some h else move h (.elem e) (.root l)
  | .moveToBack l e =>
    if h.owner e ≠ some l ∨ h.prev (.root l) = some (.elem e) then some h
    else move? h (.elem e) (h.prev (.root l))
  | .moveBefore l e mark =>
    if h.owner e ≠ some l ∨ e = mark ∨ h.owner mark ≠ some l then some h
    else move? h (.elem e) (h.prev (.elem mark))
  | .moveAfter l e mark =>
    if h.owner e ≠ some l ∨ e = mark ∨ h.owner mark ≠ some l then some h
    else move h (.elem e) (.elem mark)
  | .pushBackList l other =>
    let h := lazyInit h l
    copyLoop l (fun h => h.prev (.root l)) nextOf (h.len other).toNat (front h other) h
  | .pushFrontList l other =>
    let h := lazyInit h l
    copyLoop l (fun _ => some (.root l)) prevOf (h.len other).toNat (back h other) h

/-- A program: calls one after another; `none` once a call has panicked. Drives `streams/sak/yadll.go:130-231`. -/
def execAll (h : Heap V) : List (Op V) → Option (Heap V)
  | [] => some h
  | op :: ops => match exec h op with
    | none => none
    | some h => execAll h ops

end Verif.LinkedList
