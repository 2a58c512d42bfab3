import Verif.Sak.Model
import Verif.Stores.Model
/-
Helpers: the comparison and hash functions for trees (`streams/stores/sharded_tree.go:23-43`) and the functions on numbers, slices and maps of `streams/sak/util.go`,
here with floating-point numbers and with memory.
-/
namespace Verif.Helpers
open Verif.BTree

/-! ### Numbers -/

/-- The value without the sign of the bits of a floating-point number of width `w` (IEEE 754). The type parameter `Float` of `streams/sak/util.go:37-39`. -/
def mag {w : Nat} (x : BitVec w) : Nat := x.toNat % 2 ^ (w - 1)

/-- The position of a number on the line: the bits without the sign order the numbers of one sign; the two zeros have the same position. `streams/sak/util.go:37-39`. -/
def place {w : Nat} (x : BitVec w) : Int := if x.msb then - (mag x : Int) else (mag x : Int)

/-- Not a number: the exponent has all bits set and the mantissa (of `m` bits) is not zero. `streams/sak/util.go:37-39`. -/
def isNaN {w : Nat} (m : Nat) (x : BitVec w) : Bool := decide (2 ^ (w - 1) - 2 ^ m < mag x)

/-- The comparison `a < b` of two floating-point numbers: false if one of them is not a number. `NumberLess` with `float32` (`w = 32`, `m = 23`) or `float64`
(`w = 64`, `m = 52`), `streams/stores/sharded_tree.go:41-43`. -/
def floatLess {w : Nat} (m : Nat) (a b : BitVec w) : Bool := !isNaN m a && !isNaN m b && decide (place a < place b)

/-- The number with the other sign. `streams/sak/util.go:52`. -/
def floatNeg {w : Nat} (x : BitVec w) : BitVec w := x ^^^ BitVec.intMin w

/-- `Abs` on floating-point numbers, `streams/sak/util.go:50-55`. -/
def floatAbs {w : Nat} (m : Nat) (x : BitVec w) : BitVec w := if floatLess m x 0 then floatNeg x else x

/-- `NumberLess` on signed integers, `streams/stores/sharded_tree.go:41-43`. -/
def signedLess {w : Nat} (a b : BitVec w) : Bool := a.slt b

/-- `NumberLess` on unsigned integers, `streams/stores/sharded_tree.go:41-43`. -/
def unsignedLess {w : Nat} (a b : BitVec w) : Bool := a.ult b

/-! ### Strings -/

/-- `StringLess`, `streams/stores/sharded_tree.go:37-39`. -/
def stringLess (a b : Bytes) : Bool := bytesLess a b

/-- `StringHash`, `streams/stores/sharded_tree.go:28-30`; `xx` is the hash function of the external package. -/
def stringHash (xx : Bytes → BitVec 64) (s : Bytes) : BitVec 64 := xx s

/-- `ByteHash`, `streams/stores/sharded_tree.go:34-36`; the package hashes the bytes of a string as it hashes a slice of them. -/
def byteHash (xx : Bytes → BitVec 64) (b : Bytes) : BitVec 64 := xx b

/-! ### Memory -/

/-- A pointer: `nil` or an address. The pointers of `streams/sak/util.go:111-130`. -/
abbrev Ptr := Option Nat

/-- The memory cells of one type; the address of a cell is its place. Cells are never freed here. What `new(T)` at `streams/sak/util.go:114` allocates from. -/
abbrev Mem (T : Type) := List T

/-- `new(T)` and the assignment to it, `streams/sak/util.go:114-115`; also `Ptr`, `streams/sak/util.go:25-27`. -/
def new {T : Type} (mem : Mem T) (v : T) : Mem T × Ptr := (mem ++ [v], some mem.length)

/-- `*p`; `none` is the panic of a nil pointer. `streams/sak/util.go:127`. -/
def load {T : Type} (mem : Mem T) : Ptr → Option T
  | none => none
  | some a => mem[a]?

/-- `*p = v` by the owner of the pointers (`streams/partition_worker.go:228-231` changes the interjections through theirs). -/
def store {T : Type} (mem : Mem T) (p : Ptr) (v : T) : Mem T :=
  match p with
  | none => mem
  | some a => mem.set a v

/-- `ToPtrSlice`, `streams/sak/util.go:111-119`. -/
def toPtrSlice {T : Type} : Mem T → List T → Mem T × List Ptr
  | mem, [] => (mem, [])
  | mem, v :: vs =>
    let r := new mem v
    let s := toPtrSlice r.1 vs
    (s.1, r.2 :: s.2)

/-- `ToStructSlice`, `streams/sak/util.go:124-130`. -/
def toStructSlice {T : Type} (mem : Mem T) : List Ptr → Option (List T)
  | [] => some []
  | p :: ps => match load mem p, toStructSlice mem ps with
    | some v, some vs => some (v :: vs)
    | _, _ => none

/-- `Noescape`, `streams/sak/util.go:172-175`, on an address of 64 bits. -/
def noescape (p : BitVec 64) : BitVec 64 := p ^^^ 0

/-- `Must`, `streams/sak/util.go:179-184`; `none` is the panic. -/
def must {T : Type} (item : T) (err : Bool) : Option T := if err then none else some item

/-! ### Maps -/

/-- A map: its entries in the order in which a `range` happens to visit them (Go leaves the order open, and it differs from loop to loop). Later entries for a key would replace
earlier ones. The maps of `streams/sak/util.go:135-164`. -/
abbrev GoMap (K T : Type) := List (K × T)

variable {K T : Type} [DecidableEq K]

/-- `m[k]`, `streams/sak/util.go:135-142`. -/
def lookup (m : GoMap K T) (k : K) : Option T := (m.find? fun e => e.1 = k).map (·.2)

/-- `c[k] = v`, `streams/sak/util.go:139`. -/
def assign (m : GoMap K T) (k : K) (v : T) : GoMap K T :=
  if m.any fun e => e.1 = k then m.map fun e => if e.1 = k then (k, v) else e else m ++ [(k, v)]

/-- `MapCopy`, `streams/sak/util.go:135-142`; `range` is the order of the loop. -/
def mapCopy (range : GoMap K T) : GoMap K T := range.foldl (fun c e => assign c e.1 e.2) []

/-- `MapValuesToSlice`, `streams/sak/util.go:147-153`. -/
def mapValues (range : GoMap K T) : List T := range.foldl (fun s e => s ++ [e.2]) []

/-- `MapKeysToSlice`, `streams/sak/util.go:158-164`. -/
def mapKeys (range : GoMap K T) : List K := range.foldl (fun s e => s ++ [e.1]) []

/-- `toTopicPartitions` and `ntp`, `streams/topics.go:310-316`, `38-40`. -/
def toTopicPartitions (topic : Bytes) (partitions : List Int) : List (Bytes × Int) := partitions.map fun p => (topic, p)

end Verif.Helpers
