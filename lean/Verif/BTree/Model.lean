import Verif.Base
/-
The ordered tree `github.com/google/btree.BTreeG` used by `streams/topics.go:47-91`,
`streams/group_state.go:60-62`, `streams/stores/simple_store.go:36` and
`streams/stores/sharded_tree.go:53`. The tree is external code; it is modelled by the list of its
items in ascending order, which is the behaviour its documentation promises. Node splitting, degree
and the shared free list are not modelled.
-/
namespace Verif.BTree

variable {T : Type}

/-- `BTreeG.ReplaceOrInsert` (used in `streams/topics.go:67`, `streams/stores/simple_store.go:59`): the
item equal to the new one, if any, is replaced and returned. -/
def replaceOrInsert (less : T → T → Bool) (x : T) : List T → List T × Option T
  | [] => ([x], none)
  | y :: ys =>
    if less x y then (x :: y :: ys, none)
    else if less y x then
      let (zs, o) := replaceOrInsert less x ys
      (y :: zs, o)
    else (x :: ys, some y)

/-- `BTreeG.Delete` (used in `streams/topics.go:79`, `streams/stores/simple_store.go:79`): removes the
item equal to the given one and returns it. -/
def delete (less : T → T → Bool) (x : T) : List T → List T × Option T
  | [] => ([], none)
  | y :: ys =>
    if less x y then (y :: ys, none)
    else if less y x then
      let (zs, o) := delete less x ys
      (y :: zs, o)
    else (ys, some y)

/-- `BTreeG.Get` (used in `streams/topics.go:73`, `streams/stores/simple_store.go:68`). -/
def get (less : T → T → Bool) (x : T) : List T → Option T
  | [] => none
  | y :: ys => if less x y then none else if less y x then get less x ys else some y

/-- `BTreeG.Len` (used in `streams/topics.go:85`, `streams/stores/sharded_tree.go:104`). -/
def len (l : List T) : Nat := l.length

/-- Comparison of Go strings (`<` in `streams/topics.go:57`, `streams/stores/simple_store.go:33`):
bytewise, a prefix comes first. -/
def bytesLess : Bytes → Bytes → Bool
  | [], [] => false
  | [], _ :: _ => true
  | _ :: _, [] => false
  | a :: as, b :: bs => if a.toNat < b.toNat then true else if b.toNat < a.toNat then false else bytesLess as bs

end Verif.BTree
