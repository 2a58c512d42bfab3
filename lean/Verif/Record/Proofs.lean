import Verif.Record.Model
/-
Builder calls as data, their specification, and helper lemmas for the record properties.
-/
namespace Verif.Record

/-- One call of the public builder API of `Record` (`streams/record.go:154-219`). -/
inductive Op
  | key (bs : List Bytes)
  | value (bs : List Bytes)
  | topic (t : Bytes)
  | header (k v : Bytes)
  | type (t : Bytes)
  | partition (p : BitVec 32)
deriving DecidableEq, Repr

/-- Executing one builder call; each case is the method cited at the called definition. -/
def exec (r : Rec) : Op → Rec
  | .key bs => writeKey r bs
  | .value bs => writeValue r bs
  | .topic t => withTopic r t
  | .header k v => withHeader r k v
  | .type t => withRecordType r t
  | .partition p => withPartition r p

/-- Building a record: builder calls on a record obtained from `NewRecord` (`streams/record.go:80`). -/
def build (ops : List Op) : Rec := ops.foldl exec alloc

namespace Spec
/-! What the user asked for, read off the list of builder calls. -/

/-- All key bytes written, in order. -/
def key (ops : List Op) : Bytes := (ops.map fun | .key bs => bs.flatten | _ => []).flatten
/-- All value bytes written, in order. -/
def value (ops : List Op) : Bytes := (ops.map fun | .value bs => bs.flatten | _ => []).flatten
/-- All headers added, in order. -/
def headers (ops : List Op) : List Header := ops.filterMap fun | .header k v => some ⟨k, v⟩ | _ => none
/-- The last topic set, empty if none. -/
def topic (ops : List Op) : Bytes := ((ops.filterMap fun | .topic t => some t | _ => none).getLast?).getD []
/-- The last record type set, empty if none. -/
def type (ops : List Op) : Bytes := ((ops.filterMap fun | .type t => some t | _ => none).getLast?).getD []
/-- The last partition set, -1 if none. -/
def partition (ops : List Op) : BitVec 32 :=
  ((ops.filterMap fun | .partition p => some p | _ => none).getLast?).getD (BitVec.ofInt 32 (-1))
/-- The value of the last header with the reserved type key. -/
def lastType (hs : List Header) : Option Bytes :=
  ((hs.filter (fun h => h.key = ascii "__grt__")).getLast?).map (·.value)
/-- Number of headers with the reserved type key. -/
def typeCount (hs : List Header) : Nat := (hs.filter (fun h => h.key = ascii "__grt__")).length

end Spec

theorem writeKey_eq (r : Rec) (bs : List Bytes) :
    writeKey r bs = { r with keyBuffer := r.keyBuffer ++ bs.flatten } := by
  unfold writeKey
  induction bs generalizing r with
  | nil => simp
  | cons b bs ih => simp [List.foldl_cons, ih]

theorem writeValue_eq (r : Rec) (bs : List Bytes) :
    writeValue r bs = { r with valueBuffer := r.valueBuffer ++ bs.flatten } := by
  unfold writeValue
  induction bs generalizing r with
  | nil => simp
  | cons b bs ih => simp [List.foldl_cons, ih]

theorem build_append (ops : List Op) (op : Op) : build (ops ++ [op]) = exec (build ops) op := by
  simp [build]

/-- Reverse induction on lists. -/
theorem snoc_induction {α : Type} {P : List α → Prop} (h0 : P []) (hs : ∀ l a, P l → P (l ++ [a]))
    (l : List α) : P l := by
  have : ∀ l : List α, P l.reverse := by
    intro l
    induction l with
    | nil => simpa using h0
    | cons a l ih => simpa using hs _ _ ih
  simpa using this l.reverse

theorem build_fields (ops : List Op) :
    build ops =
      { keyBuffer := Spec.key ops, valueBuffer := Spec.value ops,
        kRecord :=
          { topic := Spec.topic ops, partition := Spec.partition ops, key := [], value := none,
            headers := Spec.headers ops, offset := 0 },
        recordType := Spec.type ops, err := false } := by
  induction ops using snoc_induction with
  | h0 => rfl
  | hs ops op ih =>
    rw [build_append, ih]
    cases op <;>
      simp [exec, writeKey_eq, writeValue_eq, withTopic, withHeader, withRecordType, withPartition,
        Spec.key, Spec.value, Spec.topic, Spec.headers, Spec.type, Spec.partition,
        List.filterMap_append]

theorem foldl_type (hs : List Header) (r : Incoming) :
    hs.foldl (fun r h => if h.key = recordTypeHeaderKey then { r with recordType := h.value } else r) r
      = { r with recordType := (Spec.lastType hs).getD r.recordType } := by
  induction hs using snoc_induction with
  | h0 => simp [Spec.lastType]
  | hs hs h ih =>
    rw [List.foldl_append, ih]
    simp only [List.foldl_cons, List.foldl_nil, Spec.lastType, List.filter_append, recordTypeHeaderKey]
    by_cases hk : h.key = ascii "__grt__"
    · simp [hk]
    · simp [hk]

theorem newIncoming_eq (k : KRecord) :
    newIncoming k = { kRecord := k, recordType := (Spec.lastType k.headers).getD [] } := by
  unfold newIncoming
  rw [foldl_type]

theorem any_iff_lastType (hs : List Header) :
    hs.any (fun h => h.key == recordTypeHeaderKey) = true ↔ Spec.lastType hs ≠ none := by
  simp only [List.any_eq_true, beq_iff_eq, Spec.lastType, ne_eq, Option.map_eq_none_iff,
    List.getLast?_eq_none_iff, List.filter_eq_nil_iff, decide_eq_true_eq, recordTypeHeaderKey]
  constructor
  · rintro ⟨h, hm, hk⟩ hall
    exact hall h hm hk
  · intro hall
    apply Classical.byContradiction
    intro hc
    exact hall fun h hm hk => hc ⟨h, hm, hk⟩

end Verif.Record
