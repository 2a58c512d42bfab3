import Verif.Confine.Spec
/-
How to see that nothing orders two operations of a given trace: a set of places that contains the first, and with every place all that happen after it, but not the second.
-/
namespace Verif.Confine

/-- The operation at place `i` happens directly before that at place `j`. -/
def edge (tr : List Op) (i j : Nat) : Bool :=
  decide (i < j) && match tr[i]?, tr[j]? with
    | some a, some b => decide (a.gor = b.gor) || match a, b with
      | .snd _ m, .rcv _ m' => decide (m = m')
      | .unlock _, .lock _ => true
      | _, _ => false
    | _, _ => false

/-- All that happens directly after something in the set is in it. -/
def closed (tr : List Op) (S : List Nat) : Bool :=
  S.all fun i => (List.range tr.length).all fun j => !edge tr i j || decide (j ∈ S)

theorem Before.lt {tr : List Op} {i j : Nat} (h : Before tr i j) : i < j := by
  induction h with
  | same h _ _ _ => exact h
  | chan h _ _ => exact h
  | lock h _ _ => exact h
  | trans _ _ h1 h2 => exact Nat.lt_trans h1 h2

theorem Before.closed {tr : List Op} {S : List Nat} (hS : closed tr S = true) {i j : Nat} (h : Before tr i j) (hi : i ∈ S) : j ∈ S := by
  have go : ∀ i j, i ∈ S → edge tr i j = true → j < tr.length → j ∈ S := by
    intro i j hi he hj
    unfold Verif.Confine.closed at hS
    rw [List.all_eq_true] at hS
    have := hS i hi
    rw [List.all_eq_true] at this
    have := this j (List.mem_range.mpr hj)
    rw [he] at this
    simpa using this
  have len : ∀ {j : Nat} {b : Op}, tr[j]? = some b → j < tr.length := by
    intro j b h
    rcases Nat.lt_or_ge j tr.length with h' | h'
    · exact h'
    · rw [List.getElem?_eq_none h'] at h; cases h
  induction h with
  | same h h1 h2 h3 => exact go _ _ hi (by simp [edge, h, h1, h2, h3]) (len h2)
  | chan h h1 h2 => exact go _ _ hi (by simp [edge, h, h1, h2]) (len h2)
  | lock h h1 h2 => exact go _ _ hi (by simp [edge, h, h1, h2]) (len h2)
  | trans _ _ ih1 ih2 => exact ih2 (ih1 hi)

/-- A data race, by computation. -/
theorem race_of {tr : List Op} (S : List Nat) {i j : Nat} {a b : Op} (hi : tr[i]? = some a) (hj : tr[j]? = some b) (hij : i < j) (hc : Conflict a b) (hS : closed tr S = true) (h1 : i ∈ S)
    (h2 : j ∉ S) : RaceAt tr i j :=
  ⟨a, b, hi, hj, Nat.ne_of_lt hij, hc, fun h => h2 (h.closed hS h1), fun h => by have := h.lt; omega⟩

end Verif.Confine
