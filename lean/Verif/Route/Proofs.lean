import Verif.Route.Model
import Mathlib.Tactic.Common
import Mathlib.Data.List.Induction
/-
The chain built by registrations is the list of registrations.
-/
namespace Verif.Route
open Verif.Record (Incoming)

/-- The heap after the registrations `regs`: a chain through all cells in order. -/
def cells (regs : List (Bytes × Nat)) : List Node :=
  regs.mapIdx fun i x => ⟨x.1, x.2, if i + 1 < regs.length then some (i + 1) else none⟩

theorem cells_get (regs : List (Bytes × Nat)) (i : Nat) :
    (cells regs)[i]? = regs[i]?.map fun x => ⟨x.1, x.2, if i + 1 < regs.length then some (i + 1) else none⟩ := by
  simp [cells]

theorem build_eq (regs : List (Bytes × Nat)) :
    (build regs).heap = cells regs ∧ (build regs).root = (if regs = [] then none else some 0) ∧
      (build regs).tail = (if regs = [] then none else some (regs.length - 1)) := by
  induction regs using List.reverseRecOn with
  | nil => simp [build, Chain.new, cells]
  | append_singleton regs x ih =>
    obtain ⟨h1, h2, h3⟩ := ih
    have hb : build (regs ++ [x]) = (build regs).register x.1 x.2 := by simp [build]
    rw [hb]
    by_cases hn : regs = []
    · subst hn
      simp only [if_true] at h2 h3
      unfold Chain.register
      rw [h2, h3, h1]
      simp [cells]
    · rw [if_neg hn] at h2 h3
      have hl : 0 < regs.length := List.length_pos_iff.mpr hn
      unfold Chain.register
      rw [h2, h3, h1]
      have hlen : (cells regs).length = regs.length := by simp [cells]
      refine ⟨?_, by simp, by simp [hlen]⟩
      dsimp only
      apply List.ext_getElem?
      intro i
      have hg : (cells regs ++ [⟨x.1, x.2, none⟩])[regs.length - 1]? =
          some ⟨(regs[regs.length - 1]'(by omega)).1, (regs[regs.length - 1]'(by omega)).2, none⟩ := by
        rw [List.getElem?_append_left (by omega), cells_get, List.getElem?_eq_getElem (by omega)]
        simp; omega
      unfold setNext
      rw [hg, cells_get]
      dsimp only
      rw [List.getElem?_set]
      simp only [hlen, List.length_append, List.length_cons, List.length_nil, Nat.zero_add]
      by_cases h4 : regs.length - 1 = i
      · subst h4
        rw [if_pos rfl, if_pos (by omega), List.getElem?_append_left (by omega), List.getElem?_eq_getElem (by omega)]
        simp; omega
      · rw [if_neg h4]
        by_cases h5 : i < regs.length
        · rw [List.getElem?_append_left (by omega), List.getElem?_append_left (by omega), cells_get, List.getElem?_eq_getElem h5]
          have : i + 1 < regs.length := by omega
          simp [this]; omega
        · rw [List.getElem?_append_right (by omega), List.getElem?_append_right (by omega)]
          by_cases h6 : i = regs.length
          · subst h6; simp [hlen]
          · have : ∃ k, i - regs.length = k + 1 := ⟨i - regs.length - 1, by omega⟩
            obtain ⟨k, hk⟩ := this
            simp [hlen, hk]

/-- What the rest of the chain does. -/
theorem process_eq (u : User) (regs : List (Bytes × Nat)) (r : Incoming) (fuel i : Nat) (hi : i < regs.length) (hf : regs.length ≤ i + fuel) :
    process u (cells regs) fuel i r =
      match (regs.drop i).find? fun x => decide (x.1 = r.recordType) with
      | some x => exec u x.2 r
      | none => ([], some .unknown) := by
  induction fuel generalizing i with
  | zero => omega
  | succ fuel ih =>
    unfold process
    rw [cells_get, List.getElem?_eq_getElem hi, Option.map_some]
    dsimp only
    rw [List.drop_eq_getElem_cons hi, List.find?_cons]
    by_cases h : r.recordType = (regs[i]).1
    · rw [if_pos h]; simp [h]
    · rw [if_neg h]
      have : decide ((regs[i]).1 = r.recordType) = false := by simp [Ne.symm h]
      rw [this]
      by_cases h2 : i + 1 < regs.length
      · rw [if_pos h2]
        exact ih (i + 1) h2 (by omega)
      · rw [if_neg h2]
        have : regs.drop (i + 1) = [] := by simp; omega
        rw [this]; rfl

end Verif.Route
