import Verif.Chain.Model
/-
What C106 is about.
-/
namespace Verif.Chain
open Verif.Eos

/-- Following the pointer `f` of event contexts from `i` meets exactly these events, in this order, and then nil (the loops of
`streams/eos_producer.go:339,400`). -/
inductive Walk (f : Obj → Option Nat) (h : Nat → Option Obj) : Option Nat → List Ev → Prop where
  | nil : Walk f h none []
  | cons {e : Ev} {l : List Ev} {o : Obj} : h e.id = some o → o.part = e.part → o.off = e.off → Walk f h (f o) l → Walk f h (some e.id) (e :: l)

/-- The loop `for n := i; n != p; n = n.next` over the nodes ends and meets exactly these (`streams/eos_producer.go:443,448,464`). -/
inductive Loop (next : Nat → Option Nat) (p : Nat) : Option Nat → List Nat → Prop where
  | stop : Loop next p (some p) []
  | go {k : Nat} {l : List Nat} : k ≠ p → Loop next p (next k) l → Loop next p (some k) (k :: l)

/-- The pool without what is kept by pointers (`streams/eos_producer.go:82-95`). -/
def bare (q : Pool) : Pool :=
  { q with
    nodes := fun p => { q.nodes p with evs := [] }
    com := match q.com with
      | .fin p _ flag rest => .fin p [] flag rest
      | x => x }

/-- The pool with pointers `s` is the pool with lists `a`: the rest is equal, and the lists are what one meets by following the pointers
(`streams/eos_producer.go:82-95,242-270,296-324,339`). -/
structure Agree (s : St) (a : Pool) : Prop where
  rest : bare s.q = bare a
  newest : ∀ p tp, Walk Obj.prev s.heap (((s.cur p).get tp).map Dll.tail) ((a.nodes p).evs.filter fun e => e.part = tp).reverse
  oldest : ∀ p tp, Walk Obj.next s.heap (((s.cur p).get tp).map Dll.root) ((a.nodes p).evs.filter fun e => e.part = tp)
  left : ∀ p cur flag rest, a.com = .fin p cur flag rest → Walk Obj.prev s.heap s.ptr cur

/-- The events of a transaction and partition, in the order in which they were added (`streams/eos_producer.go:296-324`). -/
def eventsOf (added : List (Ev × Nat)) (g tp : Nat) : List Ev :=
  added.filterMap fun x => if x.2 = g ∧ x.1.part = tp then some x.1 else none

/-- An event context is kept in memory by another one (`streams/event_context.go:42-43`). -/
inductive Keeps (h : Nat → Option Obj) (i : Nat) : Nat → Prop where
  | self : Keeps h i i
  | prev {j k : Nat} {o : Obj} : Keeps h i j → h j = some o → o.prev = some k → Keeps h i k
  | next {j k : Nat} {o : Obj} : Keeps h i j → h j = some o → o.next = some k → Keeps h i k

/-- The node has a transaction that is being filled, waits for its commit or is being committed, up to `EndTransaction`
(`streams/eos_producer.go:82-95,207-240,358-389`). -/
def InUse (q : Pool) (p : Nat) : Prop :=
  (p = q.onDeck ∧ q.fwd ≠ .swap) ∨ p ∈ q.cq ∨ q.com = .begun p ∨ ∃ cur flag rest, q.com = .fin p cur flag rest

end Verif.Chain
