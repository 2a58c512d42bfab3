import Verif.Whole.Model
import Verif.Worker.Fifo
/-
What the steps of a worker leave alone.
-/
namespace Verif.Whole
open Verif.Worker

variable {cw : Cfg} {s s' : PW}

/-- Steps that decide about no producer, start no worker, take nothing from Kafka and revoke nothing. -/
structure Mild (s s' : PW) : Prop where
  fetched : s'.fetched = s.fetched
  wm : s'.wm = s.wm
  boot : s'.wk = .boot ↔ s.wk = .boot
  revoked : s'.revoked = s.revoked
  prod : s'.prod = s.prod
  sched : s'.sched = s.sched ∨ ∃ it, s'.sched = s.sched ++ [it] ∧ s.prod it.id = none

theorem Mild.refl (s : PW) : Mild s s := ⟨rfl, rfl, Iff.rfl, rfl, rfl, .inl rfl⟩

/-- Events without a decision: identities that were not given out yet have none. -/
theorem prod_fresh (A : InvA s) {i : Nat} (h : s.nextId ≤ i) : s.prod i = none := by
  by_contra hc
  obtain ⟨pre, k1, k2⟩ := A.dec
  have := (k2 i).1 hc
  have h1 : i ∈ s.sched.map It.id := by rw [k1, List.map_append]; exact List.mem_append.2 (.inl this)
  rw [A.ids] at h1
  have := List.mem_range.1 h1
  omega

theorem mild_own (h : Worker.Reach cw s) {l : Label} (hl : own l = true) (hs : Worker.step cw s l = some s') : Mild s s' := by
  have A := invA_reach h
  have hf := prod_fresh A (Nat.le_refl _)
  have nb : ∀ {p : Push}, s.push = p → p ≠ .unborn → s.wk ≠ .boot := by
    intro p h1 h2 h3; exact h2 (h1 ▸ A.born.2 h3)
  cases l <;> simp only [own, Bool.false_eq_true] at hl <;> simp only [Worker.step] at hs <;> (repeat' split at hs) <;>
    first
    | (cases hs; done)
    | (simp only [Option.some.injEq] at hs; subst hs
       first
       | exact ⟨rfl, rfl, Iff.rfl, rfl, rfl, .inl rfl⟩
       | (refine ⟨rfl, rfl, ?_, rfl, rfl, .inl rfl⟩; simp_all)
       | exact ⟨rfl, rfl, Iff.rfl, rfl, rfl, .inr ⟨_, rfl, hf⟩⟩
       | (unfold schedIj
          split
          · exact ⟨rfl, rfl, Iff.rfl, rfl, rfl, .inl rfl⟩
          · exact ⟨rfl, rfl, Iff.rfl, rfl, rfl, .inr ⟨_, rfl, hf⟩⟩))
    | (obtain ⟨s1, h1, rfl⟩ := Option.map_eq_some_iff.1 hs
       unfold completeEv at h1
       split at h1
       · cases h1
       · cases h1
         first
         | exact ⟨rfl, rfl, Iff.rfl, rfl, rfl, .inl rfl⟩
         | (refine ⟨rfl, rfl, ?_, rfl, rfl, .inl rfl⟩; simp_all))

/-- The pool's calls of `Done` change the counter only. -/
theorem mild_done {l : Label} (hl : l = .root ∨ ∃ i, l = .finalize i) : Mild s ((Worker.step cw s l).getD s) := by
  rcases hl with rfl | ⟨i, rfl⟩ <;> simp only [Worker.step] <;> split <;>
    first
    | exact Mild.refl _
    | exact ⟨rfl, rfl, Iff.rfl, rfl, rfl, .inl rfl⟩

theorem reach_getD (h : Worker.Reach cw s) (l : Label) : Worker.Reach cw ((Worker.step cw s l).getD s) := by
  cases hs : Worker.step cw s l with
  | none => exact h
  | some s1 => exact .step l h hs

/-- The events that a decision was made about. -/
def decided (s : PW) : List It := s.sched.filter fun it => (s.prod it.id).isSome

theorem decided_mild (M : Mild s s') : decided s' = decided s := by
  unfold decided
  rw [M.prod]
  rcases M.sched with h | ⟨it, h, h1⟩
  · rw [h]
  · rw [h, List.filter_append]
    simp [h1]

/-- The decisions are made in the order of scheduling. -/
theorem decided_prefix (A : InvA s) : s.sched = decided s ++ undecided s := by
  obtain ⟨pre, k1, k2⟩ := A.dec
  have hn : (s.sched.map It.id).Nodup := by rw [A.ids]; exact List.nodup_range
  have : decided s = pre := by
    unfold decided
    rw [k1, List.filter_append]
    rw [List.filter_eq_self.2, List.filter_eq_nil_iff.2, List.append_nil]
    · intro it h1 h2
      have h3 := (k2 it.id).1 (by intro h; rw [h] at h2; cases h2)
      rw [k1, List.map_append, List.nodup_append] at hn
      exact hn.2.2 it.id h3 it.id (List.mem_map.2 ⟨it, h1, rfl⟩) rfl
    · intro it h1
      exact Option.isSome_iff_ne_none.2 ((k2 it.id).2 (List.mem_map.2 ⟨it, h1, rfl⟩))
  rw [this]; exact k1

/-- The decision about the first event in the pool's channel. -/
theorem decided_assign (A : InvA s) {it : It} {buf : List It} (hb : s.buf = it :: buf) {r : Bool}
    (hs : Worker.step cw s (.assign r) = some s') :
    decided s' = decided s ++ [it] ∧ s'.fetched = s.fetched ∧ s'.wm = s.wm ∧ s'.wk = s.wk ∧ s'.revoked = s.revoked ∧ s'.sched = s.sched ∧
    s'.prod = upd s.prod it.id (some (!s.revoked)) ∧ it ∈ s.sched ∧ s.prod it.id = none := by
  have hd := decided_prefix A
  have hu : undecided s = it :: (buf ++ addIt s.push ++ slotIt s.push) := by unfold undecided; rw [hb]; simp
  rw [hu] at hd
  have hn : (s.sched.map It.id).Nodup := by rw [A.ids]; exact List.nodup_range
  have hi : it ∈ s.sched := by rw [hd]; simp
  have hp : s.prod it.id = none := by
    by_contra hc
    have h1 : it ∈ decided s := by
      unfold decided; exact List.mem_filter.2 ⟨hi, Option.isSome_iff_ne_none.2 hc⟩
    rw [hd, List.map_append, List.nodup_append] at hn
    exact hn.2.2 it.id (List.mem_map.2 ⟨it, h1, rfl⟩) it.id (by simp) rfl
  have main : ∀ b, s.sched.filter (fun x => (upd s.prod it.id (some b) x.id).isSome) = decided s ++ [it] := by
    intro b
    have h0 : ∀ x ∈ s.sched, x.id = it.id → x = it := fun x hx he => List.inj_on_of_nodup_map hn hx hi he
    conv => lhs; rw [hd]
    rw [List.filter_append, List.filter_cons_of_pos (by simp [upd])]
    rw [List.filter_eq_self.2, List.filter_eq_nil_iff.2]
    · intro x hx
      have hne : x.id ≠ it.id := by
        intro he
        rw [hd, List.map_append, List.map_cons, List.nodup_append] at hn
        have := (List.nodup_cons.1 hn.2.1).1
        exact this (he ▸ List.mem_map.2 ⟨x, hx, rfl⟩)
      have hxs : x ∈ s.sched := by rw [hd]; exact List.mem_append.2 (.inr (List.mem_cons.2 (.inr hx)))
      simp only [upd, hne, if_false]
      intro hc
      have hxd : x ∈ decided s := List.mem_filter.2 ⟨hxs, hc⟩
      rw [hd, List.map_append, List.nodup_append] at hn
      exact hn.2.2 x.id (List.mem_map.2 ⟨x, hxd, rfl⟩) x.id (List.mem_map.2 ⟨x, List.mem_cons.2 (.inr hx), rfl⟩) rfl
    · intro x hx
      simp only [upd]
      split
      · rfl
      · exact (List.mem_filter.1 hx).2
  simp only [Worker.step, hb] at hs
  split at hs
  · rename_i hr
    cases hs
    exact ⟨main false, rfl, rfl, rfl, rfl, rfl, by simp [hr], hi, hp⟩
  · rename_i hr
    have hr : s.revoked = false := by simpa using hr
    cases hs
    exact ⟨main true, rfl, rfl, rfl, rfl, rfl, by simp [hr], hi, hp⟩

end Verif.Whole
