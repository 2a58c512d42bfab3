import Verif.Codec.Model
/-
Helper lemmas for the codec properties.
-/
namespace Verif.Codec

theorem leBytes_length (n v : Nat) : (leBytes n v).length = n := by
  induction n generalizing v with
  | zero => rfl
  | succ n ih => simp [leBytes, ih]

theorem leNat_leBytes (n v : Nat) (h : v < 256 ^ n) : leNat (leBytes n v) = v := by
  induction n generalizing v with
  | zero => simp [leBytes, leNat] at *; omega
  | succ n ih =>
    have h2 : v / 256 < 256 ^ n := by
      rw [Nat.pow_succ] at h
      omega
    simp only [leBytes, leNat, ih _ h2, BitVec.toNat_ofNat]
    omega

theorem leNat_leBytes64 (x : BitVec 64) : BitVec.ofNat 64 (leNat (leBytes 8 x.toNat)) = x := by
  have : x.toNat < 256 ^ 8 := by have := x.isLt; omega
  rw [leNat_leBytes _ _ this]
  simp

theorem setWidth_signExtend {w : Nat} (hw : w ≤ 64) (i : BitVec w) :
    (i.signExtend 64).setWidth w = i := by
  apply BitVec.eq_of_getLsbD_eq
  intro k hk
  have h64 : k < 64 := by omega
  simp [BitVec.getElem_signExtend, hk, h64]

end Verif.Codec
