import Verif.BTree.Model
/-
`streams/stores/simple_store.go` and `streams/stores/sharded_tree.go`.
-/
namespace Verif.Stores
open Verif.BTree

/-! ### SimpleStore -/

/-- The change-log entry as it appears in the log (`streams/record.go:299-305`); only key and value
matter here. An entry without a value (tombstone) has the empty value. -/
structure Entry where
  key : Bytes
  value : Bytes
deriving DecidableEq, Repr

/-- A `Keyed` item type with its `streams.Codec` (`streams/stores/simple_store.go:23-25`,
`streams/codec.go:28-31`). `encode` is `none` if `Encode` returns an error; `decode` returns the item
together with `true` if the error is nil. On an error `Decode` still returns an item. -/
structure ItemType (T : Type) where
  key : T → Bytes
  encode : T → Option Bytes
  decode : Bytes → T × Bool

/-- `keyedValue`, `streams/stores/simple_store.go:27-30`. In a search key only `key` is set, which is the
`none` in `value`. -/
structure KeyedValue (T : Type) where
  key : Bytes
  value : Option T

/-- `keyedLess`, `streams/stores/simple_store.go:32-34`. -/
def keyedLess {T : Type} (a b : KeyedValue T) : Bool := bytesLess a.key b.key

/-- `SimpleStore`, `streams/stores/simple_store.go:36-40`: its tree. -/
abbrev Store (T : Type) := List (KeyedValue T)

/-- `NewSimpleStore`, `streams/stores/simple_store.go:46-52`. -/
def newStore (T : Type) : Store T := []

variable {T : Type} (ty : ItemType T)

/-- `ToChangeLogEntry`, `streams/stores/simple_store.go:54-56`; `none` is the panic of `sak.Must`. -/
def toChangeLogEntry (item : T) : Option Entry :=
  (ty.encode item).map fun v => { key := ty.key item, value := v }

/-- `Put`, `streams/stores/simple_store.go:58-61`. -/
def put (s : Store T) (item : T) : Store T × Option Entry :=
  ((replaceOrInsert keyedLess { key := ty.key item, value := some item } s).1, toChangeLogEntry ty item)

/-- `Get`, `streams/stores/simple_store.go:63-72`: the value of the item found. -/
def get (s : Store T) (id : Bytes) : Option T :=
  (BTree.get keyedLess { key := id, value := none } s).bind (·.value)

/-- `Delete`, `streams/stores/simple_store.go:74-82`: an entry only if the item was present. -/
def delete (s : Store T) (item : T) : Store T × Option Entry :=
  let r := BTree.delete keyedLess { key := ty.key item, value := none } s
  (r.1, if r.2.isSome then some { key := ty.key item, value := [] } else none)

/-- `ReceiveChange`, `streams/stores/simple_store.go:84-95`. Line 91 inserts the decoded item if the
error is *not* nil. The result is `false` if an error is returned. -/
def receiveChange (s : Store T) (r : Entry) : Store T × Bool :=
  if r.value.length = 0 then
    ((BTree.delete keyedLess { key := r.key, value := none } s).1, true)
  else
    let (item, ok) := ty.decode r.value
    if !ok then
      ((replaceOrInsert keyedLess { key := ty.key item, value := some item } s).1, false)
    else (s, true)

/-- `Revoked`, `streams/stores/simple_store.go:97-99`. -/
def revoked (_ : Store T) : Store T := []

/-- A call on a store. `streams/stores/simple_store.go:25-99`. -/
inductive Op (T : Type)
  | put (item : T)
  | delete (item : T)

/-- One call (`streams/stores/simple_store.go:58-82`) with the entry it returns. -/
def exec (s : Store T) : Op T → Store T × Option Entry
  | .put item => put ty s item
  | .delete item => delete ty s item

/-- A sequence of calls on a new store: the store and the entries returned, in order
(`streams/stores/simple_store.go:46-82`). -/
def run (ops : List (Op T)) : Store T × List (Option Entry) :=
  ops.foldl (fun a op => let r := exec ty a.1 op; (r.1, a.2 ++ [r.2])) (newStore T, [])

/-- Replay of a change log into a new store (`streams/stores/simple_store.go:84-95`). -/
def replay (log : List Entry) : Store T := log.foldl (fun s r => (receiveChange ty s r).1) (newStore T)

/-! ### ShardedTree -/

/-- `ShardedTree`, `streams/stores/sharded_tree.go:52-56`. `mod` is the `uint64` mask. -/
structure Sharded (T : Type) where
  trees : List (List T)
  mod : BitVec 64

/-- `NewShardedTree`, `streams/stores/sharded_tree.go:74-86`, on a 64-bit platform: `2 << exponent` is a
signed 64-bit shift, `make` panics (`none`) on a negative length. Memory exhaustion is not modelled.
Negative exponents panic and are excluded by the type. -/
def newShardedTree (T : Type) (exponent : Nat) : Option (Sharded T) :=
  let shards : BitVec 64 := (2 : BitVec 64) <<< exponent
  if shards.toInt < 0 then none
  else some { trees := List.replicate shards.toInt.toNat [], mod := shards - 1 }

/-- The index computed in `For`, `streams/stores/sharded_tree.go:97-99`. -/
def shardIndex (st : Sharded T) (h : BitVec 64) : Nat := (h &&& st.mod).toNat

/-- `For(key).ReplaceOrInsert(item)`, `streams/stores/sharded_tree.go:97-99`; `none` is an index panic. -/
def Sharded.insert (less : T → T → Bool) (hash : T → BitVec 64) (st : Sharded T) (x : T) :
    Option (Sharded T × Option T) :=
  match st.trees[shardIndex st (hash x)]? with
  | none => none
  | some t =>
    let r := replaceOrInsert less x t
    some ({ st with trees := st.trees.set (shardIndex st (hash x)) r.1 }, r.2)

/-- `For(key).Delete(item)`, `streams/stores/sharded_tree.go:97-99`. -/
def Sharded.delete (less : T → T → Bool) (hash : T → BitVec 64) (st : Sharded T) (x : T) :
    Option (Sharded T × Option T) :=
  match st.trees[shardIndex st (hash x)]? with
  | none => none
  | some t =>
    let r := BTree.delete less x t
    some ({ st with trees := st.trees.set (shardIndex st (hash x)) r.1 }, r.2)

/-- `For(key).Get(item)`, `streams/stores/sharded_tree.go:97-99`; the outer `none` is an index panic. -/
def Sharded.get (less : T → T → Bool) (hash : T → BitVec 64) (st : Sharded T) (x : T) : Option (Option T) :=
  match st.trees[shardIndex st (hash x)]? with
  | none => none
  | some t => some (BTree.get less x t)

/-- `Len`, `streams/stores/sharded_tree.go:102-107`. -/
def Sharded.len (st : Sharded T) : Nat := st.trees.foldl (fun l t => l + BTree.len t) 0

end Verif.Stores
