import Verif.Stores.Model
import Verif.BTree.Proofs
import Verif.Record.Proofs
/-
Properties C13 (replay of a change log), C39 (sharded tree), C40 (SimpleStore is a map).
-/
namespace Verif.Stores
open Verif.BTree

variable {T : Type}

namespace Spec

/-- The map described by a sequence of operations, most recent first. -/
def lookup (key : T → Bytes) : List (Op T) → Bytes → Option T
  | [], _ => none
  | .put x :: earlier, k => if k = key x then some x else lookup key earlier k
  | .delete x :: earlier, k => if k = key x then none else lookup key earlier k

end Spec

theorem keyed_ordOn : OrdOn (keyedLess (T := T)) (fun _ => True) :=
  bytesLess_ordOn.comap (fun kv : KeyedValue T => kv.key)

theorem keyed_eqv (a b : KeyedValue T) : Eqv keyedLess a b ↔ a.key = b.key := bytesLess_eqv a.key b.key

/-- Invariant of the tree: sorted by key, and each item is stored under its own key. -/
structure Inv (ty : ItemType T) (s : Store T) : Prop where
  sorted : Sorted keyedLess s
  keyed : ∀ kv ∈ s, ∃ x, kv = { key := ty.key x, value := some x }

theorem Inv.nil (ty : ItemType T) : Inv ty [] := ⟨by simp [Sorted], by simp⟩

theorem Inv.insert {ty : ItemType T} {s : Store T} (h : Inv ty s) (x : T) :
    Inv ty (replaceOrInsert keyedLess { key := ty.key x, value := some x } s).1 := by
  refine ⟨sorted_replaceOrInsert keyed_ordOn trivial (fun _ _ => trivial) h.sorted, ?_⟩
  intro kv hkv
  rcases (mem_replaceOrInsert keyed_ordOn trivial (fun _ _ => trivial) h.sorted kv).mp hkv with rfl | ⟨hk, _⟩
  · exact ⟨x, rfl⟩
  · exact h.keyed kv hk

theorem Inv.delete {ty : ItemType T} {s : Store T} (h : Inv ty s) (x : KeyedValue T) :
    Inv ty (BTree.delete keyedLess x s).1 :=
  ⟨sorted_delete x h.sorted, fun kv hkv => h.keyed kv ((delete_sublist x s).subset hkv)⟩

theorem get_insert {ty : ItemType T} {s : Store T} (h : Inv ty s) (x : T) (k : Bytes) :
    get (replaceOrInsert keyedLess { key := ty.key x, value := some x } s).1 k =
      if k = ty.key x then some x else get s k := by
  unfold get
  rw [get_replaceOrInsert keyed_ordOn trivial trivial (fun _ _ => trivial) h.sorted]
  by_cases hk : k = ty.key x
  · rw [if_pos ((keyed_eqv _ _).mpr hk), if_pos hk]; rfl
  · rw [if_neg (fun hc => hk ((keyed_eqv _ _).mp hc)), if_neg hk]

theorem get_delete' {ty : ItemType T} {s : Store T} (h : Inv ty s) (k' k : Bytes) :
    get (BTree.delete keyedLess { key := k', value := none } s).1 k = if k = k' then none else get s k := by
  unfold get
  rw [BTree.get_delete keyed_ordOn trivial trivial (fun _ _ => trivial) h.sorted]
  by_cases hk : k = k'
  · rw [if_pos ((keyed_eqv _ _).mpr hk), if_pos hk]; rfl
  · rw [if_neg (fun hc => hk ((keyed_eqv _ _).mp hc)), if_neg hk]

theorem run_snoc (ty : ItemType T) (ops : List (Op T)) (op : Op T) :
    run ty (ops ++ [op]) = ((exec ty (run ty ops).1 op).1, (run ty ops).2 ++ [(exec ty (run ty ops).1 op).2]) := by
  simp [run]

theorem run_spec (ty : ItemType T) (ops : List (Op T)) :
    Inv ty (run ty ops).1 ∧ ∀ k, get (run ty ops).1 k = Spec.lookup ty.key ops.reverse k := by
  induction ops using Record.snoc_induction with
  | h0 => exact ⟨Inv.nil ty, fun k => rfl⟩
  | hs ops op ih =>
    obtain ⟨hi, hg⟩ := ih
    rw [run_snoc]
    simp only [List.reverse_append, List.reverse_singleton, List.singleton_append]
    cases op with
    | put x =>
      refine ⟨hi.insert x, fun k => ?_⟩
      simp only [exec, put, Spec.lookup, get_insert hi, hg]
    | delete x =>
      refine ⟨hi.delete _, fun k => ?_⟩
      simp only [exec, delete, Spec.lookup, get_delete' hi, hg]

/-- C40. After any sequence of `Put` and `Delete`, `Get` returns the most recently put item for the key
unless it was deleted since. -/
theorem C40_get (ty : ItemType T) (ops : List (Op T)) (k : Bytes) :
    get (run ty ops).1 k = Spec.lookup ty.key ops.reverse k := (run_spec ty ops).2 k

/-- C40. The entries returned: `Put` gives the encoded item under its key; `Delete` gives an entry with
the empty value exactly if the key was present. -/
theorem C40_entries (ty : ItemType T) (ops : List (Op T)) (x : T) :
    (exec ty (run ty ops).1 (.put x)).2 = (ty.encode x).map (fun v => ⟨ty.key x, v⟩) ∧
    (exec ty (run ty ops).1 (.delete x)).2 =
      if (Spec.lookup ty.key ops.reverse (ty.key x)).isSome then some ⟨ty.key x, []⟩ else none := by
  refine ⟨rfl, ?_⟩
  obtain ⟨hi, hg⟩ := run_spec ty ops
  rw [← hg]
  simp only [exec, delete, delete_old]
  unfold get
  cases h : BTree.get keyedLess { key := ty.key x, value := none } (run ty ops).1 with
  | none => rfl
  | some kv =>
    have := (get_eq_some_iff keyed_ordOn trivial (fun _ _ => trivial) hi.sorted kv).mp h
    obtain ⟨y, rfl⟩ := hi.keyed kv this.1
    rfl

/-- C40. The store holds one item per key. -/
theorem C40_one_per_key (ty : ItemType T) (ops : List (Op T)) :
    ((run ty ops).1.map (·.key)).Nodup := by
  have h := (run_spec ty ops).1.sorted
  rw [List.Nodup, List.pairwise_map]
  refine h.imp ?_
  intro a b hab he
  unfold keyedLess at hab
  rw [he, bytesLess_irrefl] at hab
  cases hab

/-- Items with a key and a value; the encoding is the key's length, key and value. -/
def pairType : ItemType (Bytes × Byte) where
  key x := x.1
  encode x := some (x.2 :: x.1)
  decode b := match b with
    | [] => (([], 0), false)
    | v :: k => ((k, v), true)

example : get (run pairType [.put ([1], 5), .put ([2], 6), .put ([1], 7), .delete ([2], 0)]).1 [1] = some ([1], 7) ∧
    get (run pairType [.put ([1], 5), .put ([2], 6), .put ([1], 7), .delete ([2], 0)]).1 [2] = none := by decide

/-- Any call on a store: by the handlers (`Put`, `Delete`), by the consumer (`ReceiveChange`, `Revoked`). -/
inductive Call (T : Type)
  | put (item : T)
  | delete (item : T)
  | receive (r : Entry)
  | revoke

/-- The code's reaction. -/
def call (ty : ItemType T) (s : Store T) : Call T → Store T
  | .put x => (put ty s x).1
  | .delete x => (delete ty s x).1
  | .receive r => (receiveChange ty s r).1
  | .revoke => revoked s

/-- The map that any calls leave behind, most recent first: an entry with an empty value removes its key, an entry that the codec
accepts changes nothing, one that it rejects is inserted under the key of whatever the codec returned (see C13). -/
def Spec.lookupAll (ty : ItemType T) : List (Call T) → Bytes → Option T
  | [], _ => none
  | .put x :: earlier, k => if k = ty.key x then some x else lookupAll ty earlier k
  | .delete x :: earlier, k => if k = ty.key x then none else lookupAll ty earlier k
  | .receive r :: earlier, k =>
    if r.value = [] then if k = r.key then none else lookupAll ty earlier k
    else if (ty.decode r.value).2 = true then lookupAll ty earlier k
    else if k = ty.key (ty.decode r.value).1 then some (ty.decode r.value).1 else lookupAll ty earlier k
  | .revoke :: _, _ => none

/-- C40. After any sequence of calls of any kind `Get` agrees with the map they describe; in particular tombstones remove, and
nothing survives `Revoked`. -/
theorem C40_all_calls (ty : ItemType T) (calls : List (Call T)) (k : Bytes) :
    get (calls.foldl (call ty) (newStore T)) k = Spec.lookupAll ty calls.reverse k := by
  suffices h : Inv ty (calls.foldl (call ty) (newStore T)) ∧
      ∀ k, get (calls.foldl (call ty) (newStore T)) k = Spec.lookupAll ty calls.reverse k from h.2 k
  clear k
  induction calls using Record.snoc_induction with
  | h0 => exact ⟨Inv.nil ty, fun _ => rfl⟩
  | hs calls c ih =>
    obtain ⟨hi, hg⟩ := ih
    rw [List.foldl_append]
    simp only [List.foldl_cons, List.foldl_nil, List.reverse_append, List.reverse_singleton, List.singleton_append]
    cases c with
    | put x =>
      refine ⟨hi.insert x, fun k => ?_⟩
      simp only [call, put, Spec.lookupAll, get_insert hi, hg]
    | delete x =>
      refine ⟨hi.delete _, fun k => ?_⟩
      simp only [call, delete, Spec.lookupAll, get_delete' hi, hg]
    | receive r =>
      simp only [call, receiveChange, Spec.lookupAll, List.length_eq_zero_iff]
      by_cases h0 : r.value = []
      · rw [if_pos h0]
        refine ⟨hi.delete _, fun k => ?_⟩
        rw [if_pos h0, get_delete' hi, hg]
      · rw [if_neg h0]
        cases hd : (ty.decode r.value).2 with
        | true => exact ⟨by simpa [hd] using hi, fun k => by simp [hd, h0, hg]⟩
        | false =>
          refine ⟨by simpa [hd] using hi.insert _, fun k => ?_⟩
          simp [hd, h0, get_insert hi, hg]
    | revoke => exact ⟨Inv.nil ty, fun _ => rfl⟩

/-- **C40**: `ReceiveChange` returns an error exactly if the value is not empty and cannot be decoded. -/
theorem C40_receive_error (ty : ItemType T) (s : Store T) (r : Entry) : (receiveChange ty s r).2 = false ↔ r.value ≠ [] ∧ (ty.decode r.value).2 = false := by
  unfold receiveChange
  cases hv : r.value with
  | nil => simp
  | cons b bs => cases hd : (ty.decode (b :: bs)).2 <;> simp [hd]

/-- Both cases occur. -/
example : (receiveChange pairType [] ⟨[1], [2, 1]⟩).2 = true ∧ (receiveChange { pairType with decode := fun _ => (([], 0), false) } [] ⟨[1], [2, 1]⟩).2 = false := by decide

example : get (([.put ([1], 5), .put ([2], 6), .receive ⟨[1], []⟩] : List (Call (Bytes × Byte))).foldl (call pairType) (newStore _)) [1]
      = none ∧
    get (([.put ([1], 5), .put ([2], 6), .receive ⟨[1], []⟩] : List (Call (Bytes × Byte))).foldl (call pairType) (newStore _)) [2]
      = some ([2], 6) := by decide

/-! ### C13 -/

/-- The change log written by a sequence of operations. -/
def changeLog (ty : ItemType T) (ops : List (Op T)) : List Entry := (run ty ops).2.filterMap id

/-- The codec contract: what is encoded can be decoded, and no item is encoded as the empty string
(which is how deletion is written). -/
structure RoundTrip (ty : ItemType T) : Prop where
  enc : ∀ x, ∃ v, ty.encode x = some v ∧ v ≠ [] ∧ ty.decode v = (x, true)

theorem pairType_roundTrip : RoundTrip pairType := ⟨fun x => ⟨x.2 :: x.1, rfl, by simp, rfl⟩⟩

/-- Last entry for a key in a log. -/
def lastFor (log : List Entry) (k : Bytes) : Option Entry := (log.filter (fun e => e.key = k)).getLast?

/-- `log'` is a possible result of compacting `log`: for each key the last entry is kept, except that a
tombstone may be dropped together with everything before it. -/
def Compacted (log log' : List Entry) : Prop :=
  log'.Sublist log ∧
  ∀ k, lastFor log' k = lastFor log k ∨ (lastFor log' k = none ∧ ∃ e, lastFor log k = some e ∧ e.value = [])

/-- The full claim of C13. -/
def ReplayRebuilds (ty : ItemType T) : Prop :=
  ∀ (ops : List (Op T)) (log' : List Entry), Compacted (changeLog ty ops) log' →
    ∀ k, get (replay ty log') k = get (run ty ops).1 k

/-- C13 is violated: a store with one item is empty after replay. -/
theorem C13_violated : ∃ ty : ItemType (Bytes × Byte), RoundTrip ty ∧ ¬ ReplayRebuilds ty := by
  refine ⟨pairType, pairType_roundTrip, fun h => ?_⟩
  have := h [.put ([1], 5)] _ ⟨List.Sublist.refl _, fun _ => .inl rfl⟩ [1]
  exact absurd this (by decide)

theorem changeLog_snoc (ty : ItemType T) (ops : List (Op T)) (op : Op T) :
    changeLog ty (ops ++ [op]) = changeLog ty ops ++ (exec ty (run ty ops).1 op).2.toList := by
  unfold changeLog
  rw [run_snoc]
  simp only [List.filterMap_append]
  congr 1

/-- Every entry of a change log is a tombstone or the encoding of an item under its key. -/
theorem changeLog_entries {ty : ItemType T} (h : RoundTrip ty) (ops : List (Op T)) :
    ∀ e ∈ changeLog ty ops, e.value = [] ∨ ∃ x, e.key = ty.key x ∧ e.value ≠ [] ∧ ty.decode e.value = (x, true) := by
  induction ops using Record.snoc_induction with
  | h0 => simp [changeLog, run]
  | hs ops op ih =>
    intro e he
    rw [changeLog_snoc, List.mem_append] at he
    rcases he with he | he
    · exact ih e he
    · cases op with
      | put x =>
        obtain ⟨v, h1, h2, h3⟩ := h.enc x
        simp only [(C40_entries ty ops x).1, h1, Option.map_some, Option.toList_some, List.mem_singleton] at he
        subst he
        exact .inr ⟨x, rfl, h2, h3⟩
      | delete x =>
        rw [(C40_entries ty ops x).2] at he
        split at he
        · simp only [Option.toList_some, List.mem_singleton] at he
          subst he
          exact .inl rfl
        · simp at he

/-- C13, how bad it is: with a correct codec, replay of any part of any change log leaves the store
empty. -/
theorem C13_replay_always_empty {ty : ItemType T} (h : RoundTrip ty) (ops : List (Op T)) (log' : List Entry)
    (hs : log'.Sublist (changeLog ty ops)) : replay ty log' = [] := by
  have hall := fun e he => changeLog_entries h ops e (hs.subset he)
  clear hs
  induction log' using Record.snoc_induction with
  | h0 => rfl
  | hs l e ih =>
    have h1 := ih fun e he => hall e (by simp [he])
    have : replay ty (l ++ [e]) = (receiveChange ty (replay ty l) e).1 := by simp [replay]
    rw [this, h1]
    rcases hall e (by simp) with h2 | ⟨x, _, h2, h3⟩
    · simp [receiveChange, h2, BTree.delete]
    · simp [receiveChange, h2, h3]

/-- C13, the part that holds: if nothing is left in the store, replay agrees with it. Missing: any
store with an item in it. -/
theorem C13_replay_partial {ty : ItemType T} (h : RoundTrip ty) (ops : List (Op T)) (log' : List Entry)
    (hc : Compacted (changeLog ty ops) log') (hempty : ∀ k, Spec.lookup ty.key ops.reverse k = none) (k : Bytes) :
    get (replay ty log') k = get (run ty ops).1 k := by
  rw [C13_replay_always_empty h ops log' hc.1, C40_get, hempty]
  simp [get, BTree.get]

example : ∀ k, Spec.lookup pairType.key [Op.put ([1], 5), .delete ([1], 0)].reverse k = none := by
  intro k
  by_cases h : k = [1] <;> simp [Spec.lookup, pairType, h]

/-- `ReceiveChange` with the test of line 91 the right way round (`err == nil`). This is not the code;
it is used to show that the inverted test is the only obstacle to C13. -/
def receiveChangeRepaired (ty : ItemType T) (s : Store T) (r : Entry) : Store T :=
  if r.value.length = 0 then (BTree.delete keyedLess { key := r.key, value := none } s).1
  else if (ty.decode r.value).2 then
    (replaceOrInsert keyedLess { key := ty.key (ty.decode r.value).1, value := some (ty.decode r.value).1 } s).1
  else s

/-- Contents described by a log: the last entry for the key decides. -/
def logLookup (ty : ItemType T) (log : List Entry) (k : Bytes) : Option T :=
  match lastFor log k with
  | none => none
  | some e => if e.value = [] then none else some (ty.decode e.value).1

theorem lastFor_snoc (log : List Entry) (e : Entry) (k : Bytes) :
    lastFor (log ++ [e]) k = if e.key = k then some e else lastFor log k := by
  unfold lastFor
  rw [List.filter_append]
  by_cases h : e.key = k
  · simp [h]
  · simp [h]

theorem logLookup_changeLog {ty : ItemType T} (h : RoundTrip ty) (ops : List (Op T)) (k : Bytes) :
    logLookup ty (changeLog ty ops) k = Spec.lookup ty.key ops.reverse k := by
  induction ops using Record.snoc_induction with
  | h0 => rfl
  | hs ops op ih =>
    rw [changeLog_snoc]
    simp only [List.reverse_append, List.reverse_singleton, List.singleton_append]
    cases op with
    | put x =>
      obtain ⟨v, h1, h2, h3⟩ := h.enc x
      rw [(C40_entries ty ops x).1, h1]
      simp only [Option.map_some, Option.toList_some, Spec.lookup]
      unfold logLookup at *
      rw [lastFor_snoc]
      by_cases hk : ty.key x = k
      · simp [hk, h2, h3]
      · rw [if_neg hk, ih, if_neg (fun hc => hk hc.symm)]
    | delete x =>
      rw [(C40_entries ty ops x).2]
      simp only [Spec.lookup]
      by_cases hk : k = ty.key x
      · subst hk
        rw [if_pos rfl]
        split
        · simp [logLookup, lastFor_snoc]
        · rename_i hn
          simp only [Option.toList_none, List.append_nil, ih]
          simpa using hn
      · rw [if_neg hk]
        split
        · unfold logLookup at *
          simp only [Option.toList_some]
          rw [lastFor_snoc, if_neg (fun hc => hk hc.symm), ih]
        · simpa using ih

theorem replayRepaired_spec {ty : ItemType T} (log : List Entry)
    (hall : ∀ e ∈ log, e.value = [] ∨ ∃ x, e.key = ty.key x ∧ e.value ≠ [] ∧ ty.decode e.value = (x, true)) :
    Inv ty (log.foldl (receiveChangeRepaired ty) []) ∧
      ∀ k, get (log.foldl (receiveChangeRepaired ty) []) k = logLookup ty log k := by
  induction log using Record.snoc_induction with
  | h0 => exact ⟨Inv.nil ty, fun k => rfl⟩
  | hs l e ih =>
    obtain ⟨hi, hg⟩ := ih fun e he => hall e (by simp [he])
    rw [List.foldl_append]
    simp only [List.foldl_cons, List.foldl_nil]
    generalize l.foldl (receiveChangeRepaired ty) [] = s at hi hg
    rcases hall e (by simp) with h2 | ⟨x, hk, h2, h3⟩
    · have : receiveChangeRepaired ty s e = (BTree.delete keyedLess { key := e.key, value := none } s).1 := by
        simp [receiveChangeRepaired, h2]
      rw [this]
      refine ⟨hi.delete _, fun k => ?_⟩
      rw [get_delete' hi, hg]
      unfold logLookup
      rw [lastFor_snoc]
      by_cases hk : k = e.key
      · simp [hk, h2]
      · rw [if_neg hk, if_neg (fun hc => hk hc.symm)]
    · have : receiveChangeRepaired ty s e = (replaceOrInsert keyedLess { key := ty.key x, value := some x } s).1 := by
        simp [receiveChangeRepaired, h2, h3]
      rw [this]
      refine ⟨hi.insert x, fun k => ?_⟩
      rw [get_insert hi, hg]
      unfold logLookup
      rw [lastFor_snoc, hk]
      by_cases hk' : k = ty.key x
      · simp [hk', h2, h3]
      · rw [if_neg hk', if_neg (fun hc => hk' hc.symm)]

/-- C13 for the repaired `ReceiveChange`: replay of every compaction of the change log rebuilds the
store, for every sequence of operations and every round-tripping codec. It is about a repaired
definition, not about the code in the repository, hence the suffix. -/
theorem C13_repaired_partial {ty : ItemType T} (h : RoundTrip ty) (ops : List (Op T)) (log' : List Entry)
    (hc : Compacted (changeLog ty ops) log') (k : Bytes) :
    get (log'.foldl (receiveChangeRepaired ty) []) k = get (run ty ops).1 k := by
  rw [(replayRepaired_spec log' fun e he => changeLog_entries h ops e (hc.1.subset he)).2 k, C40_get,
    ← logLookup_changeLog h]
  unfold logLookup
  rcases hc.2 k with h1 | ⟨h1, e, h2, h3⟩
  · rw [h1]
  · rw [h1, h2]
    simp [h3]

example : Compacted (changeLog pairType [.put ([1], 5), .put ([2], 6), .put ([1], 7), .delete ([2], 0)])
    [⟨[1], [7, 1]⟩] := by
  refine ⟨by decide, fun k => ?_⟩
  have : changeLog pairType [.put ([1], 5), .put ([2], 6), .put ([1], 7), .delete ([2], 0)] =
    [⟨[1], [5, 1]⟩, ⟨[2], [6, 2]⟩, ⟨[1], [7, 1]⟩, ⟨[2], []⟩] := by decide
  rw [this]
  by_cases h1 : k = [1]
  · subst h1; exact .inl (by decide)
  · by_cases h2 : k = [2]
    · subst h2; exact .inr (by decide)
    · left
      unfold lastFor
      rw [List.filter_eq_nil_iff.mpr, List.filter_eq_nil_iff.mpr]
      · simp; exact ⟨fun h => h1 h.symm, fun h => h2 h.symm, fun h => h1 h.symm, fun h => h2 h.symm⟩
      · simp; exact fun h => h1 h.symm

/-! ### C39 -/

/-- A supported exponent: the number of shards fits in a positive `int`. -/
def Supported (e : Nat) : Prop := e ≤ 61

theorem shards_eq (e : Nat) (h : Supported e) : ((2 : BitVec 64) <<< e).toNat = 2 ^ (e + 1) := by
  rw [BitVec.toNat_shiftLeft, Nat.shiftLeft_eq]
  have : (2 : BitVec 64).toNat = 2 := rfl
  rw [this, Nat.mod_eq_of_lt]
  · rw [Nat.pow_succ]; omega
  · have h1 : 2 ^ e ≤ 2 ^ 61 := Nat.pow_le_pow_right (by omega) h
    omega

theorem newShardedTree_eq (e : Nat) (h : Supported e) :
    newShardedTree T e = some { trees := List.replicate (2 ^ (e + 1)) [], mod := (2 : BitVec 64) <<< e - 1 } := by
  unfold newShardedTree
  have h1 := shards_eq e h
  have h2 : 2 ^ (e + 1) ≤ 2 ^ 62 := Nat.pow_le_pow_right (by omega) (by unfold Supported at h; omega)
  have h3 : ((2 : BitVec 64) <<< e).toInt = ((2 ^ (e + 1) : Nat) : Int) := by
    rw [BitVec.toInt_eq_toNat_of_lt (by omega), h1]
  dsimp only
  rw [h3, if_neg (by omega), Int.toNat_natCast]

theorem shardIndex_eq (e : Nat) (h : Supported e) (st : Sharded T) (hm : st.mod = (2 : BitVec 64) <<< e - 1)
    (x : BitVec 64) : shardIndex st x = x.toNat % 2 ^ (e + 1) := by
  unfold shardIndex
  rw [hm, BitVec.toNat_and]
  have h1 := shards_eq e h
  have hp : 0 < 2 ^ (e + 1) := Nat.pow_pos (by omega)
  have h2 : 2 ^ (e + 1) ≤ 2 ^ 62 := Nat.pow_le_pow_right (by omega) (by unfold Supported at h; omega)
  have : ((2 : BitVec 64) <<< e - 1).toNat = 2 ^ (e + 1) - 1 := by
    rw [BitVec.toNat_sub_of_le, h1]
    · rfl
    · rw [BitVec.le_def, h1]
      have : (1 : BitVec 64).toNat = 1 := rfl
      omega
  rw [this, Nat.and_two_pow_sub_one_eq_mod]

/-- C39. With a supported exponent there are `2^(e+1)` shards and every hash selects one of them; the
selection depends on the hash only. -/
theorem C39_shard_exists (e : Nat) (h : Supported e) :
    ∃ st : Sharded T, newShardedTree T e = some st ∧ st.trees.length = 2 ^ (e + 1) ∧
      ∀ x : BitVec 64, shardIndex st x = x.toNat % 2 ^ (e + 1) ∧ shardIndex st x < st.trees.length := by
  refine ⟨_, newShardedTree_eq e h, by simp, fun x => ?_⟩
  rw [shardIndex_eq e h _ rfl]
  exact ⟨rfl, by simpa using Nat.mod_lt _ (Nat.pow_pos (by omega))⟩

/-- The bound on the exponent is sharp: 62 makes the constructor panic, 63 and more give a tree on which
every access panics. -/
theorem C39_exponent_sharp : newShardedTree Nat 62 = none ∧
    ∃ st, newShardedTree Nat 63 = some st ∧ ∀ less hash x, st.get less hash x = none := by
  refine ⟨by decide, { trees := [], mod := 0 - 1 }, rfl, ?_⟩
  intros
  rfl

/-- An operation on a sharded tree by key. -/
inductive SOp (T : Type)
  | insert (x : T)
  | delete (x : T)

/-- The item an operation is about. -/
def SOp.target : SOp T → T
  | .insert x => x
  | .delete x => x

/-- Operations on the sharded tree, with the returned old items; `none` is a panic. -/
def runSharded (less : T → T → Bool) (hash : T → BitVec 64) : Sharded T → List (SOp T) → Option (Sharded T × List (Option T))
  | st, [] => some (st, [])
  | st, op :: ops =>
    match (match op with | .insert x => st.insert less hash x | .delete x => st.delete less hash x) with
    | none => none
    | some (st', o) => (runSharded less hash st' ops).map fun r => (r.1, o :: r.2)

/-- The same operations on one ordered tree: the specification. -/
def runSingle (less : T → T → Bool) : List T → List (SOp T) → List T × List (Option T)
  | l, [] => (l, [])
  | l, op :: ops =>
    let r := match op with | .insert x => replaceOrInsert less x l | .delete x => BTree.delete less x l
    let r' := runSingle less r.1 ops
    (r'.1, r.2 :: r'.2)

/-- The sharded tree `st` represents the single tree `l`. -/
structure Rep (less : T → T → Bool) (D : T → Prop) (hash : T → BitVec 64) (n : Nat) (st : Sharded T) (l : List T) : Prop where
  num : st.trees.length = n
  idx : ∀ x, shardIndex st x < n
  sortedL : Sorted less l
  domL : ∀ y ∈ l, D y
  sorted : ∀ t ∈ st.trees, Sorted less t
  mem : ∀ (i : Nat) (t : List T), st.trees[i]? = some t → ∀ y, y ∈ t ↔ (y ∈ l ∧ shardIndex st (hash y) = i)
  len : st.len = l.length

theorem len_eq_sum (st : Sharded T) : st.len = (st.trees.map List.length).sum := by
  unfold Sharded.len BTree.len
  have : ∀ (ts : List (List T)) (a : Nat), ts.foldl (fun l t => l + t.length) a = a + (ts.map List.length).sum := by
    intro ts
    induction ts with
    | nil => simp
    | cons t ts ih => intro a; simp only [List.foldl_cons, ih, List.map_cons, List.sum_cons]; omega
  rw [this]
  omega

theorem sum_set (ts : List (List T)) (i : Nat) (t t' : List T) (h : ts[i]? = some t) :
    ((ts.set i t').map List.length).sum + t.length = (ts.map List.length).sum + t'.length := by
  induction ts generalizing i with
  | nil => simp at h
  | cons a ts ih =>
    cases i with
    | zero =>
      simp only [List.getElem?_cons_zero, Option.some.injEq] at h
      subst h
      simp; omega
    | succ i =>
      simp only [List.getElem?_cons_succ] at h
      have := ih i h
      simp only [List.set_cons_succ, List.map_cons, List.sum_cons]; omega

section
variable {less : T → T → Bool} {D : T → Prop} {hash : T → BitVec 64} {n : Nat}

theorem Rep.get_eq (ho : OrdOn less D) (hh : ∀ a b, D a → D b → Eqv less a b → hash a = hash b)
    {st : Sharded T} {l : List T} (h : Rep less D hash n st l) (x : T) (hx : D x) (t : List T)
    (ht : st.trees[shardIndex st (hash x)]? = some t) : BTree.get less x t = BTree.get less x l := by
  have hdt : ∀ y ∈ t, D y := fun y hy => h.domL y ((h.mem _ t ht y).mp hy).1
  have hst := h.sorted t (List.mem_of_getElem? ht)
  apply Option.ext
  intro y
  rw [get_eq_some_iff ho hx hdt hst, get_eq_some_iff ho hx h.domL h.sortedL, h.mem _ t ht]
  constructor
  · exact fun hy => ⟨hy.1.1, hy.2⟩
  · exact fun hy => ⟨⟨hy.1, by rw [hh x y hx (h.domL y hy.1) hy.2]⟩, hy.2⟩

theorem Rep.insert (ho : OrdOn less D) (hh : ∀ a b, D a → D b → Eqv less a b → hash a = hash b)
    {st : Sharded T} {l : List T} (h : Rep less D hash n st l) (x : T) (hx : D x) :
    ∃ st', st.insert less hash x = some (st', (replaceOrInsert less x l).2) ∧
      Rep less D hash n st' (replaceOrInsert less x l).1 := by
  have hi := h.idx (hash x)
  have hlt : shardIndex st (hash x) < st.trees.length := by rw [h.num]; exact hi
  obtain ⟨t, ht⟩ : ∃ t, st.trees[shardIndex st (hash x)]? = some t := ⟨_, List.getElem?_eq_getElem hlt⟩
  have hdt : ∀ y ∈ t, D y := fun y hy => h.domL y ((h.mem _ t ht y).mp hy).1
  have hst := h.sorted t (List.mem_of_getElem? ht)
  have hge := h.get_eq ho hh x hx t ht
  unfold Sharded.insert
  rw [ht]
  dsimp only
  rw [replaceOrInsert_old, replaceOrInsert_old, hge]
  refine ⟨_, rfl, ?_⟩
  constructor
  · simpa using h.num
  · exact h.idx
  · exact sorted_replaceOrInsert ho hx h.domL h.sortedL
  · exact dom_replaceOrInsert ho hx h.domL h.sortedL
  · intro t' ht'
    rcases List.mem_or_eq_of_mem_set ht' with h1 | h1
    · exact h.sorted t' h1
    · rw [h1]; exact sorted_replaceOrInsert ho hx hdt hst
  · intro i t' ht' y
    have hsi : shardIndex { trees := st.trees.set (shardIndex st (hash x)) (replaceOrInsert less x t).1, mod := st.mod } (hash y)
      = shardIndex st (hash y) := rfl
    rw [hsi, mem_replaceOrInsert ho hx h.domL h.sortedL]
    dsimp only at ht'
    rw [List.getElem?_set] at ht'
    by_cases hc : shardIndex st (hash x) = i
    · subst hc
      rw [if_pos rfl, if_pos hlt] at ht'
      rw [← Option.some.inj ht', mem_replaceOrInsert ho hx hdt hst, h.mem _ t ht]
      constructor
      · rintro (rfl | h1)
        · exact ⟨.inl rfl, rfl⟩
        · exact ⟨.inr ⟨h1.1.1, h1.2⟩, h1.1.2⟩
      · rintro ⟨rfl | h1, h2⟩
        · exact .inl rfl
        · exact .inr ⟨⟨h1.1, h2⟩, h1.2⟩
    · rw [if_neg hc] at ht'
      rw [h.mem i t' ht']
      constructor
      · rintro ⟨h1, h2⟩
        refine ⟨.inr ⟨h1, fun he => hc ?_⟩, h2⟩
        rw [← h2, hh x y hx (h.domL y h1) he]
      · rintro ⟨rfl | h1, h2⟩
        · exact absurd h2 hc
        · exact ⟨h1.1, h2⟩
  · have h1 := h.len
    rw [len_eq_sum] at *
    have h2 := sum_set st.trees _ t (replaceOrInsert less x t).1 ht
    rw [length_replaceOrInsert, hge] at h2
    rw [length_replaceOrInsert]
    dsimp only
    split at h2
    · rename_i hs; simp only [hs, ite_true]; omega
    · rename_i hs; rw [if_neg hs]; omega

theorem Rep.delete (ho : OrdOn less D) (hh : ∀ a b, D a → D b → Eqv less a b → hash a = hash b)
    {st : Sharded T} {l : List T} (h : Rep less D hash n st l) (x : T) (hx : D x) :
    ∃ st', st.delete less hash x = some (st', (BTree.delete less x l).2) ∧
      Rep less D hash n st' (BTree.delete less x l).1 := by
  have hi := h.idx (hash x)
  have hlt : shardIndex st (hash x) < st.trees.length := by rw [h.num]; exact hi
  obtain ⟨t, ht⟩ : ∃ t, st.trees[shardIndex st (hash x)]? = some t := ⟨_, List.getElem?_eq_getElem hlt⟩
  have hdt : ∀ y ∈ t, D y := fun y hy => h.domL y ((h.mem _ t ht y).mp hy).1
  have hst := h.sorted t (List.mem_of_getElem? ht)
  have hge := h.get_eq ho hh x hx t ht
  unfold Sharded.delete
  rw [ht]
  dsimp only
  rw [delete_old, delete_old, hge]
  refine ⟨_, rfl, ?_⟩
  constructor
  · simpa using h.num
  · exact h.idx
  · exact sorted_delete x h.sortedL
  · exact dom_delete x h.domL
  · intro t' ht'
    rcases List.mem_or_eq_of_mem_set ht' with h1 | h1
    · exact h.sorted t' h1
    · rw [h1]; exact sorted_delete x hst
  · intro i t' ht' y
    have hsi : shardIndex { trees := st.trees.set (shardIndex st (hash x)) (BTree.delete less x t).1, mod := st.mod } (hash y)
      = shardIndex st (hash y) := rfl
    rw [hsi, mem_delete ho hx h.domL h.sortedL]
    dsimp only at ht'
    rw [List.getElem?_set] at ht'
    by_cases hc : shardIndex st (hash x) = i
    · subst hc
      rw [if_pos rfl, if_pos hlt] at ht'
      rw [← Option.some.inj ht', mem_delete ho hx hdt hst, h.mem _ t ht]
      constructor
      · exact fun h1 => ⟨⟨h1.1.1, h1.2⟩, h1.1.2⟩
      · exact fun h1 => ⟨⟨h1.1.1, h1.2⟩, h1.1.2⟩
    · rw [if_neg hc] at ht'
      rw [h.mem i t' ht']
      constructor
      · rintro ⟨h1, h2⟩
        refine ⟨⟨h1, fun he => hc ?_⟩, h2⟩
        rw [← h2, hh x y hx (h.domL y h1) he]
      · exact fun h1 => ⟨h1.1.1, h1.2⟩
  · have h1 := h.len
    rw [len_eq_sum] at *
    have h2 := sum_set st.trees _ t (BTree.delete less x t).1 ht
    have h3 := length_delete (less := less) x t
    have h4 := length_delete (less := less) x l
    rw [hge] at h3
    dsimp only
    omega

theorem runSharded_rep (ho : OrdOn less D) (hh : ∀ a b, D a → D b → Eqv less a b → hash a = hash b)
    (ops : List (SOp T)) (hops : ∀ op ∈ ops, D op.target) (st : Sharded T) (l : List T)
    (h : Rep less D hash n st l) :
    ∃ st', runSharded less hash st ops = some (st', (runSingle less l ops).2) ∧
      Rep less D hash n st' (runSingle less l ops).1 := by
  induction ops generalizing st l with
  | nil => exact ⟨st, rfl, h⟩
  | cons op ops ih =>
    have hx := hops op (by simp)
    have hrest := fun o ho => hops o (List.mem_cons_of_mem _ ho)
    cases op with
    | insert x =>
      obtain ⟨st1, h1, h2⟩ := h.insert ho hh x hx
      obtain ⟨st2, h3, h4⟩ := ih hrest st1 _ h2
      refine ⟨st2, ?_, h4⟩
      simp only [runSharded, h1, h3, Option.map_some]
      rfl
    | delete x =>
      obtain ⟨st1, h1, h2⟩ := h.delete ho hh x hx
      obtain ⟨st2, h3, h4⟩ := ih hrest st1 _ h2
      refine ⟨st2, ?_, h4⟩
      simp only [runSharded, h1, h3, Option.map_some]
      rfl

/-- C39. For every supported exponent, every strict weak order, every hash function that agrees on items
the order regards as equal, and every sequence of inserts and deletes: no access panics, every operation
returns what it returns on one ordered tree, a lookup finds what it finds there, and `Len` is its size. -/
theorem C39_like_one_tree (ho : OrdOn less D) (hh : ∀ a b, D a → D b → Eqv less a b → hash a = hash b)
    (e : Nat) (he : Supported e) (ops : List (SOp T)) (hops : ∀ op ∈ ops, D op.target) :
    ∃ st0 st, newShardedTree T e = some st0 ∧
      runSharded less hash st0 ops = some (st, (runSingle less [] ops).2) ∧
      (∀ x, D x → st.get less hash x = some (BTree.get less x (runSingle less [] ops).1)) ∧
      st.len = BTree.len (runSingle less [] ops).1 := by
  obtain ⟨st0, h0, hl, hidx⟩ := C39_shard_exists (T := T) e he
  have hrep : Rep less D hash (2 ^ (e + 1)) st0 [] := by
    rw [newShardedTree_eq e he] at h0
    have h0' := Option.some.inj h0
    refine ⟨hl, fun x => by rw [← hl]; exact (hidx x).2, by simp [Sorted], by simp, ?_, ?_, ?_⟩
    · intro t ht
      rw [← h0'] at ht
      rw [(List.mem_replicate.mp ht).2]
      simp [Sorted]
    · intro i t ht y
      rw [← h0'] at ht
      have := List.mem_of_getElem? ht
      rw [(List.mem_replicate.mp this).2]
      simp
    · rw [len_eq_sum, ← h0']
      simp
  obtain ⟨st, h1, h2⟩ := runSharded_rep ho hh ops hops st0 [] hrep
  refine ⟨st0, st, h0, h1, ?_, h2.len⟩
  intro x hx
  have hlt : shardIndex st (hash x) < st.trees.length := by rw [h2.num]; exact h2.idx _
  unfold Sharded.get
  rw [List.getElem?_eq_getElem hlt]
  dsimp only
  rw [h2.get_eq ho hh x hx _ (List.getElem?_eq_getElem hlt)]

end

/-- The hypotheses are met by byte strings hashed by their length. -/
example : OrdOn bytesLess (fun _ => True) ∧
    (∀ a b : Bytes, True → True → Eqv bytesLess a b → BitVec.ofNat 64 a.length = BitVec.ofNat 64 b.length) :=
  ⟨bytesLess_ordOn, fun a b _ _ h => by rw [(bytesLess_eqv a b).mp h]⟩
example : (runSharded bytesLess (fun a => BitVec.ofNat 64 a.length) { trees := [[], []], mod := 1 }
    [.insert [2], .insert [1], .insert [1, 1], .delete [2]]).map (fun r => (r.1.trees, r.2)) =
    some ([[[1, 1]], [[1]]], [none, none, none, some [2]]) := by decide

end Verif.Stores
