import Verif.Codec.Proofs
/-
Properties C45, C46, C47 (`streams/codec.go`) and the byte-level part of C11 (`streams/commit_log.go`).
-/
namespace Verif.Codec

/-! ### C45 — integer codec round trip -/

/-- C45. For every signed integer type of width `w ≤ 64` (`int`, `int64`, `int32`, …) and every value,
decoding the bytes written by `Encode` gives the value back; trailing bytes are ignored. -/
theorem C45_intCodec_roundtrip (w : Nat) (hw : w ≤ 64) (i : BitVec w) (rest : Bytes) :
    readInteger w (writeSignedInt [] i ++ rest) = some i := by
  have hlen : (leBytes intByteSize (i.signExtend 64).toNat).length = intByteSize := leBytes_length _ _
  unfold readInteger writeSignedInt
  simp only [List.nil_append, List.length_append, hlen]
  rw [if_neg (by omega), List.take_append_of_le_length (by omega), List.take_of_length_le (by omega)]
  rw [show intByteSize = 8 from rfl, leNat_leBytes64, setWidth_signExtend hw]

/-- C45, no encoding is ambiguous: two values with the same encoding are equal. -/
theorem C45_intCodec_injective (w : Nat) (hw : w ≤ 64) (i j : BitVec w)
    (h : writeSignedInt [] i = writeSignedInt [] j) : i = j := by
  have hi := C45_intCodec_roundtrip w hw i []
  have hj := C45_intCodec_roundtrip w hw j []
  rw [h] at hi
  rw [hi] at hj
  exact Option.some.inj hj

example : (32 : Nat) ≤ 64 ∧ readInteger 32 (writeSignedInt [] (BitVec.ofInt 32 (-7))) = some (BitVec.ofInt 32 (-7)) := by
  decide

/-- C45. Decoding is safe exactly for inputs of at least eight bytes; only the first eight matter. -/
theorem C45_intCodec_defined_iff (w : Nat) (b : Bytes) :
    (readInteger w b = none ↔ b.length < 8) ∧ readInteger w (b.take 8) = readInteger w b := by
  have h8 : intByteSize = 8 := rfl
  unfold readInteger
  constructor
  · by_cases h : b.length < intByteSize
    · rw [if_pos h]; rw [h8] at h; simp [h]
    · rw [if_neg h]; rw [h8] at h; simp [h]
  · by_cases h : b.length < intByteSize
    · rw [if_pos h, if_pos (by rw [List.length_take]; omega)]
    · rw [if_neg h, if_neg (by rw [List.length_take]; omega), h8, List.take_take, Nat.min_self]

example : readInteger 32 [1, 0, 0, 0, 0, 0, 0] = none ∧ readInteger 32 [1, 2, 0, 0, 0, 0, 0, 0, 9] = some 513#32 := by decide

/-- C45 for the string and byte codecs. -/
theorem C45_bytesCodec_roundtrip (s : Bytes) : bytesDecode (bytesEncode [] s) = some s := by
  simp [bytesDecode, bytesEncode]

/-! ### C46 — LexoInt64Codec round trip and length check -/

/-- C46. Every `int64` survives the round trip, including the minimum, where `MaxInt64 + i` wraps. -/
theorem C46_lexo_roundtrip (i : BitVec 64) : lexoDecode (lexoEncode i) = some i := by
  unfold lexoEncode
  split
  · simp [lexoDecode, leBytes_length, lexInt64Size, leNat_leBytes64]
  · simp only [lexoDecode, List.length_cons, leBytes_length, lexInt64Size, leNat_leBytes64]
    rw [if_neg (by omega), if_neg (by decide)]
    congr 1
    rw [BitVec.add_comm, BitVec.add_sub_cancel]

/-- C46. `Decode` reports an error exactly for inputs whose length is not nine. -/
theorem C46_lexo_error_iff (b : Bytes) : lexoDecode b = none ↔ b.length ≠ 9 := by
  cases b with
  | nil => simp [lexoDecode]
  | cons s r =>
    unfold lexoDecode
    by_cases h : (s :: r).length = 9
    · simp only [lexInt64Size, h, ne_eq, not_true_eq_false, ite_false, iff_false]
      split <;> simp
    · simp only [lexInt64Size, ne_eq, h, not_false_eq_true, ite_true]

/-- C46. The encoding has the advertised size. -/
theorem C46_lexo_size (i : BitVec 64) : (lexoEncode i).length = 9 := by
  unfold lexoEncode
  split <;> simp [leBytes_length]

example : lexoDecode (lexoEncode (BitVec.ofInt 64 (-(2 ^ 63)))) = some (BitVec.ofInt 64 (-(2 ^ 63))) := by
  decide

/-! ### C47 — LexoInt64Codec order -/

/-- Specification: strict byte-wise lexicographic order, Go's `bytes.Compare(a, b) < 0`. -/
inductive LexLt : Bytes → Bytes → Prop
  | nil (b : Byte) (bs : Bytes) : LexLt [] (b :: bs)
  | head (a b : Byte) (as bs : Bytes) : a.toNat < b.toNat → LexLt (a :: as) (b :: bs)
  | tail (a : Byte) (as bs : Bytes) : LexLt as bs → LexLt (a :: as) (a :: bs)

/-- The full claim: encodings are ordered like the integers. -/
def LexoOrderPreserving : Prop :=
  ∀ i j : BitVec 64, i.toInt < j.toInt → LexLt (lexoEncode i) (lexoEncode j)

/-- C47 is violated by the code: `1 < 256`, but the little-endian encoding of `256` sorts first. -/
theorem C47_violated : ¬ LexoOrderPreserving := by
  intro h
  have h1 := h 1 256 (by decide)
  have e1 : lexoEncode 1 = [1, 1, 0, 0, 0, 0, 0, 0, 0] := by decide
  have e2 : lexoEncode 256 = [1, 0, 1, 0, 0, 0, 0, 0, 0] := by decide
  rw [e1, e2] at h1
  cases h1 with
  | head _ _ _ _ h => exact absurd h (by decide)
  | tail _ _ _ h =>
    cases h with
    | head _ _ _ _ h => exact absurd h (by decide)

/-- C47 even inverts the order for neighbours of the same sign: the encoding of the larger value is
strictly smaller. -/
theorem C47_violated_inverted :
    ∃ i j : BitVec 64, i.toInt < j.toInt ∧ LexLt (lexoEncode j) (lexoEncode i) := by
  refine ⟨255, 256, by decide, ?_⟩
  have e1 : lexoEncode 255 = [1, 255, 0, 0, 0, 0, 0, 0, 0] := by decide
  have e2 : lexoEncode 256 = [1, 0, 1, 0, 0, 0, 0, 0, 0] := by decide
  rw [e1, e2]
  exact .tail _ _ _ (.head _ _ _ _ (by decide))

/-- C47, the part that holds. Missing from the full claim: two values on the same side of zero that
differ in more than their low byte (see `C47_violated`).
(1) a non-positive value sorts before a positive one; (2) two positive values that differ in the low
byte only are ordered correctly. -/
theorem C47_lexo_order_partial (i j : BitVec 64) (h : i.toInt < j.toInt)
    (hc : (i.toInt ≤ 0 ∧ 0 < j.toInt) ∨ (0 < i.toInt ∧ i.toNat / 256 = j.toNat / 256)) :
    LexLt (lexoEncode i) (lexoEncode j) := by
  rcases hc with ⟨h1, h2⟩ | ⟨h1, h2⟩
  · unfold lexoEncode
    rw [if_neg (by omega), if_pos h2]
    exact .head _ _ _ _ (by decide)
  · unfold lexoEncode
    rw [if_pos h1, if_pos (by omega)]
    refine .tail _ _ _ ?_
    simp only [leBytes]
    rw [h2]
    refine .head _ _ _ _ ?_
    simp only [BitVec.toNat_ofNat]
    have hi := BitVec.toInt_eq_toNat_cond i
    have hj := BitVec.toInt_eq_toNat_cond j
    have li := i.isLt
    have lj := j.isLt
    split at hi <;> split at hj <;> omega

example : (BitVec.ofInt 64 (-5)).toInt < (BitVec.ofInt 64 3).toInt ∧
    (BitVec.ofInt 64 (-5)).toInt ≤ 0 ∧ 0 < (BitVec.ofInt 64 3).toInt := by decide

example : (0 < (BitVec.ofInt 64 513).toInt ∧
    (BitVec.ofInt 64 513).toNat / 256 = (BitVec.ofInt 64 600).toNat / 256) := by decide

end Verif.Codec
