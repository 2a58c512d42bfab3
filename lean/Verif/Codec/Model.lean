import Verif.Base
/-
Model of `streams/codec.go` and of the byte-level helpers of `streams/commit_log.go`.
-/
namespace Verif.Codec

/-- The `n` low-order bytes of a natural number, least significant byte first: the memory
representation of a fixed-width integer on a little-endian machine and
`binary.LittleEndian.PutUint64` (`n = 8`), used in `streams/codec.go:109,111` and implicitly by the
pointer casts in `streams/commit_log.go:40,47`.
Simplification: a 64-bit little-endian machine is assumed (`intByteSize = 8`). -/
def leBytes : Nat → Nat → Bytes
  | 0, _ => []
  | n + 1, v => BitVec.ofNat 8 v :: leBytes n (v / 256)

/-- Inverse direction, `binary.LittleEndian.Uint64` (`streams/codec.go:123`) and the pointer cast in
`streams/commit_log.go:52`. -/
def leNat : Bytes → Nat
  | [] => 0
  | b :: bs => b.toNat + 256 * leNat bs

/-- `intByteSize`, `streams/commit_log.go:36`. -/
def intByteSize : Nat := 8

/-- `writeSignedIntToByteArray[T]`, `streams/commit_log.go:45-49`, for a signed type `T` of width `w`:
the value is converted to `int64` (sign extension) and its eight bytes are appended.
`intCodec.Encode`, `streams/codec.go:73-76`, is the same function. -/
def writeSignedInt {w : Nat} (buf : Bytes) (i : BitVec w) : Bytes :=
  buf ++ leBytes intByteSize (i.signExtend 64).toNat

/-- `readIntegerFromByteArray[T]`, `streams/commit_log.go:51-53`: reads eight bytes as `int64` and
converts to `T` (truncation). With fewer than eight bytes the Go code reads out of bounds
(or panics on an empty slice): `none`. `intCodec.Decode`, `streams/codec.go:78-80`. -/
def readInteger (w : Nat) (b : Bytes) : Option (BitVec w) :=
  if b.length < intByteSize then none
  else some ((BitVec.ofNat 64 (leNat (b.take intByteSize))).setWidth w)

/-- `LexInt64Size`, `streams/codec.go:102`. -/
def lexInt64Size : Nat := 9

/-- `math.MaxInt64`. `streams/codec.go:73-130` (the integer codecs). -/
def maxInt64 : BitVec 64 := BitVec.ofNat 64 (2 ^ 63 - 1)

/-- `lexoInt64Codec.Encode`, `streams/codec.go:105-115` (bytes written to an empty buffer).
`math.MaxInt64+i` wraps around as in Go. -/
def lexoEncode (i : BitVec 64) : Bytes :=
  if i.toInt > 0 then 1 :: leBytes 8 i.toNat
  else 0 :: leBytes 8 (maxInt64 + i).toNat

/-- `lexoInt64Codec.Decode`, `streams/codec.go:118-128`; `none` is the error result. -/
def lexoDecode (b : Bytes) : Option (BitVec 64) :=
  match b with
  | [] => none
  | sign :: rest =>
    if b.length ≠ lexInt64Size then none
    else
      let val := BitVec.ofNat 64 (leNat rest)
      if sign = 1 then some val else some (val - maxInt64)

/-- `stringCodec.Encode` / `byteCodec.Encode`, `streams/codec.go:155-158,171-174`: append to the
buffer. -/
def bytesEncode (buf : Bytes) (s : Bytes) : Bytes := buf ++ s

/-- `stringCodec.Decode` / `byteCodec.Decode`, `streams/codec.go:161-163,177-179`. -/
def bytesDecode (b : Bytes) : Option Bytes := some b

/-- `writeTopicPartitionToBytes`, `streams/commit_log.go:38-43`. -/
def writeTopicPartition (buf : Bytes) (tp : TopicPartition) : Bytes :=
  buf ++ leBytes intByteSize (tp.partition.signExtend 64).toNat ++ tp.topic

/-- `topicPartitionFromBytes`, `streams/commit_log.go:55-59`; `none` is the out-of-bounds read. -/
def topicPartitionFromBytes (b : Bytes) : Option TopicPartition :=
  match readInteger 32 b with
  | none => none
  | some p => some { partition := p, topic := b.drop intByteSize }

end Verif.Codec
