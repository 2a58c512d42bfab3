import Verif.Confine.Free
import Verif.Confine.Sent
import Verif.Confine.Unordered
/-
C115: a state store needs no locks of its own, since all that is done with it is in order.
-/
namespace Verif.Props.Confine
open Verif.Confine

/-- **C115**. In every execution, of any number of partitions, workers and callers: nothing is done with a store that was not made, the store is made only once, and the making happens before all else that is done with it. -/
theorem C115_made_first (s : St) (hs : Reach s) (j : Nat) (g : Gor) (st : Nat) (k : Kind) (hj : s.tr[j]? = some (.acc g st k)) :
    ∃ i g', s.tr[i]? = some (.acc g' st .made) ∧ (i = j ∨ Before s.tr i j) ∧ ∀ i' g'', s.tr[i']? = some (.acc g'' st .made) → i' = i := by
  have I := mi_reach hs
  obtain ⟨i, g', hi⟩ := I.mkd st (I.lt j g st k hj)
  refine ⟨i, g', hi, ?_, ?_⟩
  · by_cases h : i = j
    · exact .inl h
    · exact .inr (I.one i j g' g st k hi hj h)
  · intro i' g'' hi'
    by_contra h
    have h1 := (I.one i i' g' g'' st .made hi hi' (fun e => h e.symm)).lt
    have h2 := (I.one i' i g'' g' st .made hi' hi h).lt
    omega

/-- **C115** (what is missing: `Revoked`, and executions that are not calm; see the theorems `C115_violated…`). In every calm execution: of two accesses to the same store, none of which is `Revoked`, the earlier one happens before
the later one. -/
theorem C115_in_order_partial (s : St) (hs : Calm s) (i j : Nat) (g g' : Gor) (st : Nat) (k k' : Kind) (hij : i < j) (hi : s.tr[i]? = some (.acc g st k)) (hj : s.tr[j]? = some (.acc g' st k'))
    (hk : k ≠ .revoked) (hk' : k' ≠ .revoked) : Before s.tr i j :=
  (fi_calm hs).free i j g g' st k k' hij hi hj hk hk'

/-- **C115**. In a calm execution every data race is one with `Revoked`. -/
theorem C115_races_are_revoked (s : St) (hs : Calm s) (i j : Nat) (h : RaceAt s.tr i j) : ∃ o, (s.tr[i]? = some o ∨ s.tr[j]? = some o) ∧ o.isRevoked := by
  obtain ⟨a, b, hi, hj, hne, hc, h1, h2⟩ := h
  cases a <;> cases b <;> simp only [Conflict] at hc
  rename_i g st k g' st' k'
  obtain ⟨rfl, -⟩ := hc
  by_cases hk : k = .revoked
  · subst hk; exact ⟨_, .inl hi, trivial⟩
  · by_cases hk' : k' = .revoked
    · subst hk'; exact ⟨_, .inr hj, trivial⟩
    · exfalso
      rcases Nat.lt_or_gt_of_ne hne with h | h
      · exact h1 (C115_in_order_partial s hs i j g g' st k k' h hi hj hk hk')
      · exact h2 (C115_in_order_partial s hs j i g' g st k' k h hj hi hk' hk)

/-- **C115**. In a calm execution without calls of `Revoked`, for instance one in which nothing is revoked, there are no data races. -/
theorem C115_race_free (s : St) (hs : Calm s) (hr : ∀ o ∈ s.tr, ¬ o.isRevoked) (i j : Nat) : ¬ RaceAt s.tr i j := by
  intro h
  obtain ⟨o, ho, hv⟩ := C115_races_are_revoked s hs i j h
  rcases ho with h | h
  · exact hr o (List.mem_of_getElem? h) hv
  · exact hr o (List.mem_of_getElem? h) hv

/-- **C115**. In a calm execution a store is first filled and then used: no change of the change log comes after the first use by a handler. -/
theorem C115_filled_first (s : St) (hs : Calm s) (i j : Nat) (g g' : Gor) (st : Nat) (w : Bool) (hi : s.tr[i]? = some (.acc g st (.handled w))) (hj : s.tr[j]? = some (.acc g' st .change)) :
    Before s.tr j i :=
  (fi_calm hs).free j i g' g st .change (.handled w) ((fi_calm hs).late i j g g' st w hi hj) hj hi (by simp) (by simp)

/-- **C115**. In a calm state no two goroutines are about to use the same store: neither two that fill it, nor two workers, nor one of each. -/
theorem C115_alone (s : St) (hs : Calm s) :
    (∀ n m, step s (.apply n) ≠ none → step s (.apply m) ≠ none → s.pStore n = s.pStore m → n = m) ∧
    (∀ k l w w', step s (.handle k w) ≠ none → step s (.handle l w') ≠ none → s.wStore k = s.wStore l → k = l) ∧
    ∀ n k w, step s (.apply n) ≠ none → step s (.handle k w) ≠ none → s.pStore n ≠ s.wStore k := by
  have C := ci_calm hs
  have ha : ∀ n, step s (.apply n) ≠ none → n < s.pops ∧ s.pSt n = .run := by
    intro n h
    simp only [step] at h
    split at h
    · assumption
    · exact absurd rfl h
  have hh : ∀ k w, step s (.handle k w) ≠ none → k < s.works ∧ s.has k = true := by
    intro n w h
    simp only [step] at h
    split at h
    · assumption
    · exact absurd rfl h
  refine ⟨?_, ?_, ?_⟩
  · intro n m h1 h2 h; exact C.pI n m (ha n h1).1 (ha m h2).1 h
  · intro k l w w' h1 h2 h; exact C.wI k l (hh k w h1).1 (hh l w' h2).1 h
  · intro n k w h1 h2 h
    obtain ⟨a, b⟩ := ha n h1
    obtain ⟨c, d⟩ := hh k w h2
    have := C.pd n k a c h (.inr d) (.inr (C.hasw k c d))
    rw [b] at this; cases this

/-- **C115**. The order is that of Go and not more: in every execution, what is received has been sent before, and nothing is sent twice. -/
theorem C115_orderly (s : St) (hs : Reach s) : Orderly s.tr := (oi_reach hs).ord

/-! ### Executions -/

/-- `CalmStep`, by computation. -/
def calmB (s : St) : Act → Bool
  | .prepare _ p => (s.prepping p).isSome || ((s.workers p).isNone && (s.data p).isNone && (List.range s.pops).all fun n => s.pPart n != p || s.pSt n == .done)
  | .assign _ p =>
    match s.prepping p with
    | some n => (s.workers p).isNone && s.wait (.prep n) == .got
    | none => (s.workers p).isSome || ((s.data p).isNone && (List.range s.pops).all fun n => s.pPart n != p || s.pSt n == .done)
  | _ => true

/-- Several calm steps. -/
def runCalm (s : St) : List Act → Option St
  | [] => some s
  | x :: xs => if calmB s x then (step s x).bind fun s' => runCalm s' xs else none

theorem idle_of {s : St} {p : Nat} (h : ((List.range s.pops).all fun n => s.pPart n != p || s.pSt n == .done) = true) : Idle s p := by
  intro n hn hp
  rw [List.all_eq_true] at h
  have := h n (List.mem_range.mpr hn)
  simpa [hp] using this

theorem calm_of {s : St} {x : Act} (h : calmB s x = true) : CalmStep s x := by
  cases x with
  | prepare c p =>
    intro hp
    simp only [calmB, hp, Option.isSome_none, Bool.false_or, Bool.and_eq_true, Option.isNone_iff_eq_none] at h
    exact ⟨h.1.1, h.1.2, idle_of h.2⟩
  | assign c p =>
    simp only [calmB] at h
    simp only [CalmStep]
    cases hp : s.prepping p with
    | some n =>
      simp only [hp, Bool.and_eq_true, Option.isNone_iff_eq_none, beq_iff_eq] at h
      exact h
    | none =>
      intro hw
      simp only [hp, hw, Option.isSome_none, Bool.false_or, Bool.and_eq_true, Option.isNone_iff_eq_none] at h
      exact ⟨h.1, idle_of h.2⟩
  | _ => trivial

theorem calm_run {s s' : St} (hs : Calm s) : ∀ xs, runCalm s xs = some s' → Calm s' := by
  intro xs
  induction xs generalizing s with
  | nil => intro h; cases h; exact hs
  | cons x xs ih =>
    intro h
    unfold runCalm at h
    split at h
    · rename_i hc
      cases hx : step s x with
      | none => rw [hx] at h; cases h
      | some s1 => rw [hx] at h; exact ih (.step x hs (calm_of hc) hx) h
    · cases h

theorem reach_run {s s' : St} (hs : Reach s) : ∀ xs, run s xs = some s' → Reach s' := by
  intro xs
  induction xs generalizing s with
  | nil => intro h; cases h; exact hs
  | cons x xs ih =>
    intro h
    unfold run at h
    cases hx : step s x with
    | none => rw [hx] at h; cases h
    | some s1 => rw [hx] at h; exact ih (.step x hs hx) h

/-- Partition 0 is prepared and then assigned by another goroutine, partition 1 is assigned without preparation; both stores are filled and used; partition 1 is revoked while its handler still works, and is assigned again with a
new store. -/
def demo : List Act :=
  [.prepare 0 0, .begin 0, .apply 0, .sync (.prep 0), .apply 0, .mark 0 (.prep 0), .got (.prep 0), .assign 1 1, .begin 1, .assign 1 0, .apply 1, .sync (.work 1), .apply 0, .sync (.work 0), .mark 0 (.work 1), .got (.work 1),
    .sched 1, .handle 1 true, .mark 1 (.work 0), .got (.work 0), .sched 0, .handle 0 true, .handle 1 false, .revoke 1 1, .handle 0 true, .assign 1 1, .begin 2, .apply 2, .sync (.work 2), .mark 2 (.work 2), .got (.work 2),
    .sched 2, .handle 2 true, .handle 0 false]

/-- The hypotheses are met by long executions: `demo` is calm; the change that is given to store 0 by `populate` and its use by the worker are ordered; three stores are in use. -/
example : ∃ s, runCalm St.init demo = some s ∧ Calm s ∧ s.stores = 3 ∧ (∃ i j : Nat, s.tr[i]? = some (.acc (.pop 0) 0 .change) ∧ s.tr[j]? = some (.acc (.work 1) 0 (.handled true)) ∧ Before s.tr i j) := by
  have h : ∃ s, runCalm St.init demo = some s ∧ s.stores = 3 ∧ (∃ i : Nat, s.tr[i]? = some (.acc (.pop 0) 0 .change)) ∧ ∃ j : Nat, s.tr[j]? = some (.acc (.work 1) 0 (.handled true)) :=
    ⟨_, rfl, by decide +kernel, ⟨5, by decide +kernel⟩, ⟨24, by decide +kernel⟩⟩
  obtain ⟨s, h1, h2, ⟨i, hi⟩, j, hj⟩ := h
  have hs := calm_run .init demo h1
  exact ⟨s, h1, hs, h2, i, j, hi, hj, C115_filled_first s hs j i _ _ _ _ hj hi⟩

/-! ### What is missing -/

/-- Two accesses can be made together, and are a data race. -/
def Clash (s : St) (x y : Act) (a b : Op) : Prop :=
  Together s x y a b ∧ ∃ s1 i j, run s [x, y] = some s1 ∧ s1.tr[i]? = some a ∧ s1.tr[j]? = some b ∧ RaceAt s1.tr i j

/-- A clash, by computation: what the two steps add to the trace, the places, and what happens after the first. -/
theorem clash_of {s s1 s2 : St} {x y : Act} {a b : Op} (l1 l2 : List Op) (i j : Nat) (S : List Nat) (h1 : run s [x, y] = some s1) (h2 : run s [y, x] = some s2)
    (hl1 : s1.tr = s.tr ++ l1) (hl2 : s2.tr = s.tr ++ l2) (hf1 : l1.filter (fun o => o = a ∨ o = b) = [a, b]) (hf2 : l2.filter (fun o => o = a ∨ o = b) = [b, a]) (hc : Conflict a b) (hg : a.gor ≠ b.gor)
    (hi : s1.tr[i]? = some a) (hj : s1.tr[j]? = some b) (hij : i < j) (hS : closed s1.tr S = true) (hiS : i ∈ S) (hjS : j ∉ S) : Clash s x y a b :=
  ⟨⟨hc, hg, s1, s2, h1, h2, ⟨l1, hl1, hf1⟩, l2, hl2, hf2⟩, s1, i, j, h1, hi, hj, race_of S hi hj hij hc hS hiS hjS⟩

/-- The partition was assigned, its store filled, its worker has scheduled an event. -/
def working : List Act := [.assign 0 0, .begin 0, .apply 0, .sync (.work 0), .mark 0 (.work 0), .got (.work 0), .sched 0]

/-- **C115 violated**: even in calm executions, `Revoked` and the handler of an event can use a store at the same time. -/
theorem C115_violated_worker : ∃ s, Calm s ∧ Clash s (.handle 0 true) (.revoke 0 0) (.acc (.work 0) 0 (.handled true)) (.acc (.caller 0) 0 .revoked) := by
  have h : ∃ s s1 s2, runCalm St.init working = some s ∧ run s [.handle 0 true, .revoke 0 0] = some s1 ∧ run s [.revoke 0 0, .handle 0 true] = some s2 ∧
      s1.tr = s.tr ++ [.acc (.work 0) 0 (.handled true), .lock (.caller 0), .acc (.caller 0) 0 .revoked, .unlock (.caller 0)] ∧
      s2.tr = s.tr ++ [.lock (.caller 0), .acc (.caller 0) 0 .revoked, .unlock (.caller 0), .acc (.work 0) 0 (.handled true)] ∧
      s1.tr[10]? = some (.acc (.work 0) 0 (.handled true)) ∧ s1.tr[12]? = some (.acc (.caller 0) 0 .revoked) ∧ closed s1.tr [10] = true :=
    ⟨_, _, _, rfl, rfl, rfl, by decide +kernel, by decide +kernel, by decide +kernel, by decide +kernel, by decide +kernel⟩
  obtain ⟨s, s1, s2, h0, h1, h2, e1, e2, a1, a2, a3⟩ := h
  exact ⟨s, calm_run .init _ h0, clash_of _ _ 10 12 [10] h1 h2 e1 e2 (by decide +kernel) (by decide +kernel) ⟨rfl, .inr rfl⟩ (by decide) a1 a2 (by omega) a3 (by simp) (by simp)⟩

/-- **C115 violated**: even in calm executions, `Revoked` and `ReceiveChange` can use a store at the same time. -/
theorem C115_violated_populate : ∃ s, Calm s ∧ Clash s (.apply 0) (.revoke 0 0) (.acc (.pop 0) 0 .change) (.acc (.caller 0) 0 .revoked) := by
  have h : ∃ s s1 s2, runCalm St.init [.assign 0 0, .begin 0] = some s ∧ run s [.apply 0, .revoke 0 0] = some s1 ∧ run s [.revoke 0 0, .apply 0] = some s2 ∧
      s1.tr = s.tr ++ [.acc (.pop 0) 0 .change, .lock (.caller 0), .acc (.caller 0) 0 .revoked, .unlock (.caller 0)] ∧
      s2.tr = s.tr ++ [.lock (.caller 0), .acc (.caller 0) 0 .revoked, .unlock (.caller 0), .acc (.pop 0) 0 .change] ∧
      s1.tr[6]? = some (.acc (.pop 0) 0 .change) ∧ s1.tr[8]? = some (.acc (.caller 0) 0 .revoked) ∧ closed s1.tr [6] = true :=
    ⟨_, _, _, rfl, rfl, rfl, by decide +kernel, by decide +kernel, by decide +kernel, by decide +kernel, by decide +kernel⟩
  obtain ⟨s, s1, s2, h0, h1, h2, e1, e2, a1, a2, a3⟩ := h
  exact ⟨s, calm_run .init _ h0, clash_of _ _ 6 8 [6] h1 h2 e1 e2 (by decide +kernel) (by decide +kernel) ⟨rfl, .inr rfl⟩ (by decide) a1 a2 (by omega) a3 (by simp) (by simp)⟩

/-- **C115 violated**: a preparation is forgotten and begun again; the goroutine of the first one still has changes, and both fill the same store at the same time. Nothing was ever assigned or revoked. -/
theorem C115_violated_forgotten : ∃ s, Reach s ∧ Clash s (.apply 0) (.apply 1) (.acc (.pop 0) 0 .change) (.acc (.pop 1) 0 .change) := by
  have h : ∃ s s1 s2, run St.init [.prepare 0 0, .begin 0, .forget 0, .prepare 0 0, .begin 1] = some s ∧ run s [.apply 0, .apply 1] = some s1 ∧ run s [.apply 1, .apply 0] = some s2 ∧
      s1.tr = s.tr ++ [.acc (.pop 0) 0 .change, .acc (.pop 1) 0 .change] ∧ s2.tr = s.tr ++ [.acc (.pop 1) 0 .change, .acc (.pop 0) 0 .change] ∧
      s1.tr[9]? = some (.acc (.pop 0) 0 .change) ∧ s1.tr[10]? = some (.acc (.pop 1) 0 .change) ∧ closed s1.tr [9] = true :=
    ⟨_, _, _, rfl, rfl, rfl, by decide +kernel, by decide +kernel, by decide +kernel, by decide +kernel, by decide +kernel⟩
  obtain ⟨s, s1, s2, h0, h1, h2, e1, e2, a1, a2, a3⟩ := h
  exact ⟨s, reach_run .init _ h0, clash_of _ _ 9 10 [9] h1 h2 e1 e2 (by decide +kernel) (by decide +kernel) ⟨rfl, .inr rfl⟩ (by decide) a1 a2 (by omega) a3 (by simp) (by simp)⟩

/-- **C115 violated**: the partition is assigned before its preparation is complete, and the marker of the worker precedes that of the preparation; `populate` takes it for the first one and goes on, the worker begins, and both
use the store at the same time. -/
theorem C115_violated_early : ∃ s, Reach s ∧ Clash s (.apply 0) (.handle 0 true) (.acc (.pop 0) 0 .change) (.acc (.work 0) 0 (.handled true)) := by
  have h : ∃ s s1 s2, run St.init [.prepare 0 0, .begin 0, .assign 0 0, .sync (.work 0), .sync (.prep 0), .mark 0 (.work 0), .got (.work 0), .sched 0] = some s ∧
      run s [.apply 0, .handle 0 true] = some s1 ∧ run s [.handle 0 true, .apply 0] = some s2 ∧
      s1.tr = s.tr ++ [.acc (.pop 0) 0 .change, .acc (.work 0) 0 (.handled true)] ∧ s2.tr = s.tr ++ [.acc (.work 0) 0 (.handled true), .acc (.pop 0) 0 .change] ∧
      s1.tr[11]? = some (.acc (.pop 0) 0 .change) ∧ s1.tr[12]? = some (.acc (.work 0) 0 (.handled true)) ∧ closed s1.tr [11] = true :=
    ⟨_, _, _, rfl, rfl, rfl, by decide +kernel, by decide +kernel, by decide +kernel, by decide +kernel, by decide +kernel⟩
  obtain ⟨s, s1, s2, h0, h1, h2, e1, e2, a1, a2, a3⟩ := h
  exact ⟨s, reach_run .init _ h0, clash_of _ _ 11 12 [11] h1 h2 e1 e2 (by decide +kernel) (by decide +kernel) ⟨rfl, .inr rfl⟩ (by decide) a1 a2 (by omega) a3 (by simp) (by simp)⟩

/-- **C115 violated**: the partition is revoked while its store is being filled, and assigned again; the old `populate` finds the old marker and ends the filling for both, the new `populate` finds the new marker without
ending, and it and the new worker use the new store at the same time. -/
theorem C115_violated_refilled : ∃ s, Reach s ∧ Clash s (.apply 1) (.handle 1 true) (.acc (.pop 1) 1 .change) (.acc (.work 1) 1 (.handled true)) := by
  have h : ∃ s s1 s2, run St.init [.assign 0 0, .begin 0, .sync (.work 0), .revoke 0 0, .assign 0 0, .begin 1, .sync (.work 1), .mark 0 (.work 0), .mark 1 (.work 1), .got (.work 1), .sched 1] = some s ∧
      run s [.apply 1, .handle 1 true] = some s1 ∧ run s [.handle 1 true, .apply 1] = some s2 ∧
      s1.tr = s.tr ++ [.acc (.pop 1) 1 .change, .acc (.work 1) 1 (.handled true)] ∧ s2.tr = s.tr ++ [.acc (.work 1) 1 (.handled true), .acc (.pop 1) 1 .change] ∧
      s1.tr[20]? = some (.acc (.pop 1) 1 .change) ∧ s1.tr[21]? = some (.acc (.work 1) 1 (.handled true)) ∧ closed s1.tr [20] = true :=
    ⟨_, _, _, rfl, rfl, rfl, by decide +kernel, by decide +kernel, by decide +kernel, by decide +kernel, by decide +kernel⟩
  obtain ⟨s, s1, s2, h0, h1, h2, e1, e2, a1, a2, a3⟩ := h
  exact ⟨s, reach_run .init _ h0, clash_of _ _ 20 21 [20] h1 h2 e1 e2 (by decide +kernel) (by decide +kernel) ⟨rfl, .inr rfl⟩ (by decide) a1 a2 (by omega) a3 (by simp) (by simp)⟩

/-- The condition that a partition is not prepared by its owner is needed too: nothing in `PrepareTopicPartition` looks for a worker, and the store that is filled would be the one that is in use. -/
theorem C115_needs_no_worker : ∃ s, Reach s ∧ Clash s (.apply 1) (.handle 0 true) (.acc (.pop 1) 0 .change) (.acc (.work 0) 0 (.handled true)) := by
  have h : ∃ s s1 s2, run St.init (working ++ [.prepare 0 0, .begin 1]) = some s ∧ run s [.apply 1, .handle 0 true] = some s1 ∧ run s [.handle 0 true, .apply 1] = some s2 ∧
      s1.tr = s.tr ++ [.acc (.pop 1) 0 .change, .acc (.work 0) 0 (.handled true)] ∧ s2.tr = s.tr ++ [.acc (.work 0) 0 (.handled true), .acc (.pop 1) 0 .change] ∧
      s1.tr[14]? = some (.acc (.pop 1) 0 .change) ∧ s1.tr[15]? = some (.acc (.work 0) 0 (.handled true)) ∧ closed s1.tr [14] = true :=
    ⟨_, _, _, rfl, rfl, rfl, by decide +kernel, by decide +kernel, by decide +kernel, by decide +kernel, by decide +kernel⟩
  obtain ⟨s, s1, s2, h0, h1, h2, e1, e2, a1, a2, a3⟩ := h
  exact ⟨s, reach_run .init _ h0, clash_of _ _ 14 15 [14] h1 h2 e1 e2 (by decide +kernel) (by decide +kernel) ⟨rfl, .inr rfl⟩ (by decide) a1 a2 (by omega) a3 (by simp) (by simp)⟩

end Verif.Props.Confine
