import Verif.Base
/-
`streams/stores/min_max_heap.go`: the min-max heap.

Items are pointers (numbers); the value of an item is read through a function, so that `Update` can be
modelled as the caller changing a value and then calling `Update`. The slice `items` is a function from
slots to pointers with a length; slots at or above the length are never read by the code for a slot
argument below the length. `Remove`/`Update` of an item whose `index` is out of range panic in Go; here they
are `none`.
-/
namespace Verif.Heap

/-- `MinMaxHeap`, `streams/stores/min_max_heap.go:37-40`; `index` is the field `index` of each
`PrioritizedItem`, lines 25-28. -/
structure Heap where
  slot : Nat → Nat
  len : Nat
  index : Nat → Nat
  maxed : Bool

/-- `less`, `streams/stores/min_max_heap.go:53-57`; `lt p q` is `HasPriorityOver` of the values of the two
items. -/
def less (lt : Nat → Nat → Bool) (h : Heap) (i j : Nat) : Bool := lt (h.slot i) (h.slot j)

/-- `swap`, `streams/stores/min_max_heap.go:59-64`. -/
def swap (h : Heap) (i j : Nat) : Heap :=
  let slot := fun x => if x = i then h.slot j else if x = j then h.slot i else h.slot x
  { h with slot := slot, index := fun p => if p = slot j then j else if p = slot i then i else h.index p }

/-- `level`, `streams/stores/min_max_heap.go:137-140`: `bits.Len(i+1)-1` is the integer logarithm. -/
def level (i : Nat) : Nat := Nat.log2 (i + 1)
/-- `isMinLevel`, `streams/stores/min_max_heap.go:142-144`. -/
def isMinLevel (i : Nat) : Bool := level i % 2 == 0
/-- `lchild`, `streams/stores/min_max_heap.go:146-148`; no overflow: slots are bounded by memory. -/
def lchild (i : Nat) : Nat := i * 2 + 1
/-- `rchild`, `streams/stores/min_max_heap.go:150-152`. -/
def rchild (i : Nat) : Nat := i * 2 + 2
/-- `parent`, `streams/stores/min_max_heap.go:154-156`. -/
def parent (i : Nat) : Nat := (i - 1) / 2
/-- `grandparent`, `streams/stores/min_max_heap.go:166-168`. -/
def grandparent (i : Nat) : Nat := parent (parent i)

/-- One candidate of the selection in `down`, `streams/stores/min_max_heap.go:181,186,192`: `c` replaces `m`
if it is in range and `less(c, m) == min`. -/
def pick (lt : Nat → Nat → Bool) (h : Heap) (n : Nat) (min : Bool) (m c : Nat) : Nat :=
  if c < n ∧ (less lt h c m == min) = true then c else m

/-- The selection of `m` in `down`, `streams/stores/min_max_heap.go:174-195`: the slot itself, the two
children, the four grandchildren. -/
def select (lt : Nat → Nat → Bool) (h : Heap) (n : Nat) (min : Bool) (i : Nat) : Nat :=
  [lchild i, rchild i, lchild (lchild i), lchild (lchild i) + 1, lchild (lchild i) + 2, lchild (lchild i) + 3].foldl
    (pick lt h n min) i

/-- The loop of `down`, `streams/stores/min_max_heap.go:173-212`; the first argument bounds the number of
iterations (the slot grows in each, so `n` suffices). Returns the heap and the final `i`. -/
def downLoop (lt : Nat → Nat → Bool) (n : Nat) (min : Bool) : Nat → Heap → Nat → Heap × Nat
  | 0, h, i => (h, i)
  | f + 1, h, i =>
    if lchild i ≥ n then (h, i)
    else
      let m := select lt h n min i
      if m = i then (h, i)
      else
        let h := swap h i m
        if m = lchild i ∨ m = rchild i then (h, i)
        else
          let p := parent m
          let h := if (less lt h p m == min) = true then swap h m p else h
          downLoop lt n min f h m

/-- `down`, `streams/stores/min_max_heap.go:170-214`. -/
def down (lt : Nat → Nat → Bool) (h : Heap) (i n : Nat) : Heap × Bool :=
  let r := downLoop lt n (isMinLevel i) n h i
  (r.1, decide (r.2 > i))

/-- The second loop of `up`, `streams/stores/min_max_heap.go:228-236`; the first argument bounds the number
of iterations (the slot shrinks in each). -/
def upLoop (lt : Nat → Nat → Bool) (min : Bool) : Nat → Heap → Nat → Heap
  | 0, h, _ => h
  | f + 1, h, i =>
    if i > 2 then
      let g := grandparent i
      if (less lt h i g != min) = true then h
      else upLoop lt min f (swap h i g) g
    else h

/-- `up`, `streams/stores/min_max_heap.go:216-237`. -/
def up (lt : Nat → Nat → Bool) (h : Heap) (i : Nat) : Heap :=
  let min := isMinLevel i
  if i > 0 ∧ (less lt h (parent i) i == min) = true then upLoop lt (!min) i (swap h i (parent i)) (parent i)
  else upLoop lt min i h i

/-- The loop of `initHeap`, `streams/stores/min_max_heap.go:245-247`: `down` for the slots `k-1, …, 0`. -/
def initLoop (lt : Nat → Nat → Bool) : Nat → Heap → Heap
  | 0, h => h
  | k + 1, h => initLoop lt k (down lt h k h.len).1

/-- `NewMinMaxHeap` with `initHeap`, `streams/stores/min_max_heap.go:42-51,243-248`: `items` are the pointers
made for the arguments, in order. Items not yet in the heap have index 0, the zero value. -/
def new (lt : Nat → Nat → Bool) (items : List Nat) : Heap :=
  initLoop lt (items.length / 2)
    { slot := fun i => items.getD i 0, len := items.length, index := fun p => if p ∈ items then items.idxOf p else 0, maxed := false }

/-- `pop`, `streams/stores/min_max_heap.go:122-128`. -/
def pop (h : Heap) : Heap × Nat := ({ h with len := h.len - 1 }, h.slot (h.len - 1))

/-- `Push` with `push`, `streams/stores/min_max_heap.go:70-73,130-132,252-255`. -/
def push (lt : Nat → Nat → Bool) (h : Heap) (item : Nat) : Heap :=
  up lt { h with slot := fun x => if x = h.len then item else h.slot x, len := h.len + 1, maxed := false } h.len

/-- `fix`, `streams/stores/min_max_heap.go:325-329`. -/
def fix (lt : Nat → Nat → Bool) (h : Heap) (i : Nat) : Heap :=
  let r := down lt h i h.len
  if r.2 then r.1 else up lt r.1 i

/-- `Update`, `streams/stores/min_max_heap.go:75-78`; `none` is an index out of range. -/
def update (lt : Nat → Nat → Bool) (h : Heap) (item : Nat) : Option Heap :=
  if h.index item < h.len then some (fix lt { h with maxed := false } (h.index item)) else none

/-- `remove`, `streams/stores/min_max_heap.go:309-318`. -/
def removeAt (lt : Nat → Nat → Bool) (h : Heap) (i : Nat) : Heap × Nat :=
  let n := h.len - 1
  if n ≠ i then
    let h := swap h i n
    let r := down lt h i n
    pop (if r.2 then r.1 else up lt r.1 i)
  else pop h

/-- `Remove`, `streams/stores/min_max_heap.go:80-83`; `none` is an index out of range. -/
def remove (lt : Nat → Nat → Bool) (h : Heap) (item : Nat) : Option (Heap × Nat) :=
  if h.index item < h.len then some (removeAt lt { h with maxed := false } (h.index item)) else none

/-- The slot of a maximum, computed by `setMax`, `streams/stores/min_max_heap.go:269-280`. -/
def maxSlot (lt : Nat → Nat → Bool) (h : Heap) : Nat :=
  let n := h.len
  let i := 0
  let i := if 1 < n ∧ less lt h 1 i = false then 1 else i
  if 2 < n ∧ less lt h 2 i = false then 2 else i

/-- `setMax`, `streams/stores/min_max_heap.go:268-284`. -/
def setMax (lt : Nat → Nat → Bool) (h : Heap) : Heap :=
  (down lt (swap h (maxSlot lt h) (h.len - 1)) (maxSlot lt h) (h.len - 1)).1

/-- `Min`, `streams/stores/min_max_heap.go:85-90`. -/
def min (h : Heap) : Option Nat := if h.len = 0 then none else some (h.slot 0)

/-- `Max`, `streams/stores/min_max_heap.go:92-101`. -/
def max (lt : Nat → Nat → Bool) (h : Heap) : Heap × Option Nat :=
  if h.len = 0 then (h, none)
  else
    let h := if h.maxed then h else { setMax lt h with maxed := true }
    (h, some (h.slot (h.len - 1)))

/-- `PopMin` with `popMin`, `streams/stores/min_max_heap.go:103-109,259-264`. -/
def popMin (lt : Nat → Nat → Bool) (h : Heap) : Heap × Option Nat :=
  if h.len = 0 then (h, none)
  else
    let n := h.len - 1
    let r := pop (down lt (swap { h with maxed := false } 0 n) 0 n).1
    (r.1, some r.2)

/-- `PopMax`, `streams/stores/min_max_heap.go:111-120`. -/
def popMax (lt : Nat → Nat → Bool) (h : Heap) : Heap × Option Nat :=
  if h.len = 0 then (h, none)
  else
    let h := if h.maxed then h else setMax lt h
    let r := pop { h with maxed := false }
    (r.1, some r.2)

/-- Calls that take no index (`streams/stores/min_max_heap.go:70-120`). -/
inductive Op
  | push (item : Nat)
  | min
  | max
  | popMin
  | popMax
deriving DecidableEq, Repr

/-- One call and its result (`none` for nil and for `Push`), `streams/stores/min_max_heap.go:70-120`. -/
def exec (lt : Nat → Nat → Bool) (h : Heap) : Op → Heap × Option Nat
  | .push x => (push lt h x, none)
  | .min => (h, min h)
  | .max => max lt h
  | .popMin => popMin lt h
  | .popMax => popMax lt h

/-- A sequence of calls, `streams/stores/min_max_heap.go:70-120`. -/
def execAll (lt : Nat → Nat → Bool) (h : Heap) : List Op → Heap × List (Option Nat)
  | [] => (h, [])
  | op :: ops =>
    let r := exec lt h op
    let r' := execAll lt r.1 ops
    (r'.1, r.2 :: r'.2)

end Verif.Heap
