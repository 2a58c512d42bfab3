import Verif.Whole.Ended
import Verif.Whole.Spec
/-
The transactions that a worker's waiter counts.
-/
namespace Verif.Whole
open Verif.Eos (Ev Pool)
open Verif.Worker (PW It)

variable {c : Eos.Cfg} {ecap : Nat} {src : Nat → List Nat} {w : Group}

theorem find_evOf (added : List (Ev × Nat)) (g tp : Nat) :
    ((added.find? fun x => x.2 = g ∧ x.1.part = tp).map fun x => owner x.1) = ((Eos.evOf added g).find? fun e => e.part = tp).map owner := by
  unfold Eos.evOf
  rw [List.find?_map, List.find?_filter, Option.map_map]
  congr 2
  funext x
  simp

theorem root_count {j tp : Nat} (l : List Ev) (h : ∀ e ∈ l, owner e = j → e.part = tp) :
    ((rootEvs l).countP fun e => owner e = j) = if (l.find? fun e => e.part = tp).map owner = some j then 1 else 0 := by
  induction l using List.reverseRecOn with
  | nil => rfl
  | append_singleton l e ih =>
    have ih := ih fun d hd => h d (List.mem_append.2 (.inl hd))
    have he := h e (by simp)
    rw [rootEvs_snoc, List.find?_append]
    cases ha : (rootEvs l).any fun d => decide (d.part = e.part) with
    | true =>
      simp only [if_true]
      rw [ih]
      by_cases hp : e.part = tp
      · rw [hp] at ha
        rw [rootEvs_any] at ha
        obtain ⟨d, hd, hdp⟩ := List.any_eq_true.1 ha
        have : (l.find? fun e => decide (e.part = tp)).isSome := List.find?_isSome.2 ⟨d, hd, hdp⟩
        obtain ⟨x, hx⟩ := Option.isSome_iff_exists.1 this
        rw [hx]; rfl
      · simp [hp]
    | false =>
      simp only [Bool.false_eq_true, if_false]
      rw [List.countP_append, ih]
      by_cases hp : e.part = tp
      · have hn : (l.find? fun e => decide (e.part = tp)) = none := by
          rw [rootEvs_any, hp] at ha
          rw [List.find?_eq_none]
          intro d hd hdp
          have : l.any (fun d => decide (d.part = tp)) = true := List.any_eq_true.2 ⟨d, hd, hdp⟩
          rw [this] at ha; cases ha
        rw [hn]
        by_cases ho : owner e = j <;> simp [hp, ho]
      · have ho : owner e ≠ j := fun ho => hp (he ho)
        simp [hp, ho]

theorem sum_ite (l : List Nat) (p : Nat → Prop) [DecidablePred p] : (l.map fun g => if p g then 1 else 0).sum = l.countP fun g => decide (p g) := by
  induction l with
  | nil => rfl
  | cons a l ih => rw [List.map_cons, List.sum_cons, ih, List.countP_cons]; by_cases h : p a <;> simp [h]; omega

theorem entered_eq (hn : 0 < c.poolSize) (B : Base c ecap src w) (L : Link w) (k j : Nat) : w.entered k j = openRoots (w.inst k).pool j := by
  unfold Group.entered openRoots
  have hlen := pool_len hn (B.pr k)
  have hr : List.range ((w.inst k).pool.gen + 1) = List.range (w.inst k).pool.ended.length ++
      List.range' (w.inst k).pool.ended.length ((w.inst k).pool.gen + 1 - (w.inst k).pool.ended.length) := by
    have h1 := List.range'_append_1 (s := 0) (m := (w.inst k).pool.ended.length)
      (n := (w.inst k).pool.gen + 1 - (w.inst k).pool.ended.length)
    rw [Nat.zero_add, show (w.inst k).pool.ended.length + ((w.inst k).pool.gen + 1 - (w.inst k).pool.ended.length) =
      (w.inst k).pool.gen + 1 by omega] at h1
    rw [List.range_eq_range', List.range_eq_range', h1]
  rw [hr, List.countP_append]
  have h0 : (List.range (w.inst k).pool.ended.length).countP (fun g => decide ((w.inst k).pool.ended.length ≤ g) &&
      decide (((w.inst k).pool.added.find? fun x => x.2 = g ∧ x.1.part = w.part k j).map (fun x => owner x.1) = some j)) = 0 := by
    rw [List.countP_eq_zero]
    intro g hg
    have := List.mem_range.1 hg
    simp only [Bool.and_eq_true, decide_eq_true_eq, not_and]
    intro h; omega
  rw [h0, Nat.zero_add]
  have hp : ∀ g, ((rootEvs (Eos.evOf (w.inst k).pool.added g)).countP fun e => owner e = j) =
      if ((Eos.evOf (w.inst k).pool.added g).find? fun e => e.part = w.part k j).map owner = some j then 1 else 0 := by
    intro g
    refine root_count _ fun e he ho => ?_
    have := (event_worker L (Eos.mem_evOf.1 he)).2.1
    rw [ho] at this; exact this.symm
  simp only [hp]
  rw [sum_ite]
  refine List.countP_congr fun g hg => ?_
  have := (List.mem_range'_1.1 hg).1
  simp only [find_evOf, this, decide_true, Bool.true_and]

end Verif.Whole
