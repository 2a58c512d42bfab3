import Verif.Whole.Refine
import Verif.Fleet.Once
/-
What the pool knows of the events of the workers and what the workers know of the pool.
-/
set_option linter.unusedSimpArgs false
namespace Verif.Whole
open Verif.Eos (Ev Pool)
open Verif.Effects (Inc)
open Verif.Worker (PW It)

variable {c : Eos.Cfg} {ecap : Nat} {src : Nat → List Nat} {w w' : Group}

/-! ### Steps of the pool -/

theorem produce_frame (s : Pool) (p tp : Nat) (r : Eos.Rec) : (Eos.produce s p tp r).added = s.added ∧ (Eos.produce s p tp r).done = s.done ∧
    (Eos.produce s p tp r).asg = s.asg ∧ (Eos.produce s p tp r).ended = s.ended ∧ (Eos.produce s p tp r).gen = s.gen := by
  unfold Eos.produce; dsimp only; split <;> exact ⟨rfl, rfl, rfl, rfl, rfl⟩

theorem relinquish_frame (n : Nat) (s : Pool) (p tp : Nat) : (Eos.relinquish n s p tp).added = s.added ∧
    (Eos.relinquish n s p tp).done = s.done ∧ (Eos.relinquish n s p tp).asg = s.asg ∧ (Eos.relinquish n s p tp).ended = s.ended ∧
    (Eos.relinquish n s p tp).gen = s.gen := by
  unfold Eos.relinquish; dsimp only; split <;> exact ⟨rfl, rfl, rfl, rfl, rfl⟩

/-- Which steps of the pool change what. -/
theorem pool_frame {p p' : Pool} {l : Eos.Label} (h : Eos.step c p l = some p') :
    (p'.added = p.added ∨ ∃ e, l = .add e ∧ p'.added = p.added ++ [(e, p.gen)]) ∧
    (p'.done = p.done ∨ ∃ e, l = .complete e ∧ p'.done = p.done ++ [e.id]) ∧
    (∀ i, (p.asg i).isSome → (p'.asg i).isSome) ∧
    (p'.ended = p.ended ∨ ∃ order q fl b, l = .endTxn order ∧ p.com = .fin q [] fl [] ∧ p'.ended = p.ended ++ [(p.nodeGen q, b)]) ∧
    (p'.gen = p.gen ∨ l = .swapIn ∧ p'.gen = p.gen + 1) := by
  have nop : ∀ {p' : Pool}, p'.added = p.added → p'.done = p.done → p'.asg = p.asg → p'.ended = p.ended → p'.gen = p.gen → _ :=
    fun {p'} h1 h2 h3 h4 h5 => (show (p'.added = p.added ∨ ∃ e, l = .add e ∧ p'.added = p.added ++ [(e, p.gen)]) ∧
    (p'.done = p.done ∨ ∃ e, l = .complete e ∧ p'.done = p.done ++ [e.id]) ∧
    (∀ i, (p.asg i).isSome → (p'.asg i).isSome) ∧
    (p'.ended = p.ended ∨ ∃ order q fl b, l = .endTxn order ∧ p.com = .fin q [] fl [] ∧ p'.ended = p.ended ++ [(p.nodeGen q, b)]) ∧
    (p'.gen = p.gen ∨ l = .swapIn ∧ p'.gen = p.gen + 1) from ⟨.inl h1, .inl h2, fun i => by rw [h3]; exact id, .inl h4, .inl h5⟩)
  have pf := produce_frame p
  have rf := relinquish_frame c.poolSize p
  cases l <;> simp only [Eos.step] at h <;> (repeat' split at h) <;>
    first
    | (cases h; done)
    | (simp only [Option.some.injEq] at h; subst h
       first
       | exact nop rfl rfl rfl rfl rfl
       | exact nop (pf _ _ _).1 (pf _ _ _).2.1 (pf _ _ _).2.2.1 (pf _ _ _).2.2.2.1 (pf _ _ _).2.2.2.2
       | exact nop (rf _ _).1 (rf _ _).2.1 (rf _ _).2.2.1 (rf _ _).2.2.2.1 (rf _ _).2.2.2.2
       | exact ⟨.inr ⟨_, rfl, rfl⟩, .inl rfl, fun i => id, .inl rfl, .inl rfl⟩
       | exact ⟨.inl rfl, .inr ⟨_, rfl, rfl⟩, fun i => id, .inl rfl, .inl rfl⟩
       | exact ⟨.inl rfl, .inl rfl, fun i => id, .inl rfl, .inr ⟨rfl, rfl⟩⟩
       | exact ⟨.inl rfl, .inl rfl, fun i => id, .inr ⟨_, _, _, _, rfl, by assumption, rfl⟩, .inl rfl⟩
       | (refine ⟨.inl rfl, .inl rfl, fun i hi => ?_, .inl rfl, .inl rfl⟩
          simp only [Eos.upd]; split
          · rfl
          · exact hi))

/-- An event that has been waited for while committing, or whose transaction has ended. -/
def Passed (p : Pool) (e : Ev) : Prop :=
  ∃ g, (e, g) ∈ p.added ∧ (g < p.ended.length ∨ g = p.ended.length ∧ (p.com = .stopped ∨
    ∃ q cur fl rest, p.com = .fin q cur fl rest ∧ e ∉ cur ∧ e.part ∉ rest))

theorem chain_part {nd : Eos.Node} {tp : Nat} {e : Ev} (h : e ∈ nd.chain tp) : e.part = tp := (Eos.mem_chain.1 h).2

/-- What has been passed stays so. -/
theorem passed_step {p p' : Pool} {l : Eos.Label} (h : Eos.step c p l = some p') (hl : l ≠ .commitFail true) {e : Ev} (P : Passed p e) :
    Passed p' e := by
  obtain ⟨g, h1, h2⟩ := P
  obtain ⟨f1, _, _, f4, _⟩ := pool_frame h
  have h1' : (e, g) ∈ p'.added := by
    rcases f1 with h | ⟨d, _, h⟩
    · rw [h]; exact h1
    · rw [h]; exact List.mem_append.2 (.inl h1)
  have hlen : p.ended.length ≤ p'.ended.length := by
    rcases f4 with h | ⟨_, _, _, _, _, _, h⟩
    · rw [h]
    · rw [h, List.length_append]; omega
  refine ⟨g, h1', ?_⟩
  rcases h2 with h2 | ⟨h2, h3⟩
  · exact .inl (by omega)
  · by_cases hlt : g < p'.ended.length
    · exact .inl hlt
    refine .inr ⟨by omega, ?_⟩
    have hend : p'.ended = p.ended := by
      rcases f4 with h | ⟨_, _, _, _, _, _, h⟩
      · exact h
      · rw [h, List.length_append, List.length_singleton] at hlt; omega
    rcases h3 with h3 | ⟨q, cur, fl, rest, h3, h4, h5⟩
    · refine .inl ?_
      have pc : ∀ a b r, (Eos.produce p a b r).com = p.com := by
        intro a b r; unfold Eos.produce; dsimp only; split <;> rfl
      cases l <;> simp only [Eos.step, h3] at h <;> (repeat' split at h) <;>
        first
        | (cases h; done)
        | (simp only [Option.some.injEq] at h; subst h
           first
           | exact h3
           | exact (pc _ _ _).trans h3
           | rfl)
    · have pc : ∀ a b r, (Eos.produce p a b r).com = p.com := by
        intro a b r; unfold Eos.produce; dsimp only; split <;> rfl
      have keep : p'.com = p.com → p'.com = .stopped ∨ ∃ q cur fl rest, p'.com = .fin q cur fl rest ∧ e ∉ cur ∧ e.part ∉ rest :=
        fun hh => .inr ⟨q, cur, fl, rest, by rw [hh]; exact h3, h4, h5⟩
      cases l with
      | wait =>
        simp only [Eos.step, h3] at h
        split at h
        · rename_i q' d es flag rest' heq
          cases heq
          split at h
          · split at h
            · cases h
              exact .inr ⟨q, es, true, rest, rfl, fun hh => h4 (List.mem_cons.2 (.inr hh)), h5⟩
            · cases h
              exact .inr ⟨_, es, _, _, rfl, fun hh => h4 (List.mem_cons.2 (.inr hh)), h5⟩
          · cases h
        · rename_i q' flag tp rest' heq
          cases heq
          cases h
          refine .inr ⟨q, _, false, rest', rfl, fun hh => h5 ?_, fun hh => h5 (List.mem_cons.2 (.inr hh))⟩
          rw [chain_part hh]; exact List.mem_cons_self
        · cases h
      | endTxn order =>
        simp only [Eos.step, h3] at h
        split at h
        · split at h
          · cases h
            exact absurd (congrArg List.length hend) (by simp)
          · cases h
        · cases h
      | commitFail b =>
        cases b with
        | true => exact absurd rfl hl
        | false =>
          simp only [Eos.step, h3] at h
          cases h
          exact .inl rfl
      | _ =>
        refine keep ?_
        simp only [Eos.step, h3] at h
        (repeat' split at h) <;>
          first
          | (cases h; done)
          | (simp only [Option.some.injEq] at h; subst h
             first
             | rfl
             | exact h3.symm
             | exact pc _ _ _)

/-! ### Steps of a worker -/

/-- Completed events of a worker. -/
theorem own_done {cw : Worker.Cfg} {s s' : PW} {l : Worker.Label} (hl : own l = true) (hs : Worker.step cw s l = some s') :
    s'.fin = s.fin ∧ s'.roots = s.roots ∧
    (completes s l = none → s'.done = s.done) ∧
    (∀ it, completes s l = some it → s'.done = s.done ++ [it.id] ∧ (it ∈ s.pend ∨ s.wk = .run it ∨ (it, true) ∈ s.jobs)) ∧
    (∀ it, (s'.wk = .run it ∨ it ∈ s'.pend) → s.wk = .run it ∨ it ∈ s.pend ∨ l = .got ∧ s.wk = .assign it ∧ s.prod it.id = some true) := by
  cases l with
  | got =>
    simp only [Worker.step] at hs
    split at hs
    · rename_i it hw
      split at hs
      · rename_i hp
        split at hs <;> cases hs <;> refine ⟨rfl, rfl, fun _ => rfl, fun _ h => by simp [completes] at h, fun d hd => ?_⟩ <;>
          rcases hd with hd | hd
        · cases hd; exact .inr (.inr ⟨rfl, hw, hp⟩)
        · exact .inr (.inl hd)
        · cases hd; exact .inr (.inr ⟨rfl, hw, hp⟩)
        · exact .inr (.inl hd)
      · split at hs
        · cases hs
        · cases hs
          refine ⟨rfl, rfl, fun _ => rfl, fun _ h => by simp [completes] at h, fun d hd => ?_⟩
          rcases hd with hd | hd
          · cases hd
          · exact .inr (.inl hd)
      · cases hs
    · cases hs
  | ret b =>
    simp only [Worker.step] at hs
    split at hs
    · rename_i it hw
      split at hs
      · rename_i hb; subst hb
        split at hs
        · cases hs
        · obtain ⟨s1, h1, rfl⟩ := Option.map_eq_some_iff.1 hs
          unfold Worker.completeEv at h1
          split at h1
          · cases h1
          · cases h1
            refine ⟨rfl, rfl, fun h => by simp [completes, hw] at h, fun d h => ?_, fun d hd => ?_⟩
            · simp only [completes, hw, Option.some.injEq] at h
              subst h; exact ⟨rfl, .inr (.inl hw)⟩
            · rcases hd with hd | hd
              · cases hd
              · exact .inr (.inl hd)
      · rename_i hb
        have hb : b = false := by simpa using hb
        subst hb
        cases hs
        refine ⟨rfl, rfl, fun _ => rfl, fun _ h => by simp [completes] at h, fun d hd => ?_⟩
        rcases hd with hd | hd
        · cases hd
        · rcases List.mem_append.1 hd with hd | hd
          · exact .inr (.inl hd)
          · rw [List.mem_singleton.1 hd]; exact .inl hw
    · cases hs
  | job =>
    simp only [Worker.step] at hs
    split at hs
    · rename_i it b jobs hj
      split at hs
      · split at hs
        · rename_i hb; subst hb
          obtain ⟨s1, h1, rfl⟩ := Option.map_eq_some_iff.1 hs
          unfold Worker.completeEv at h1
          split at h1
          · cases h1
          · cases h1
            refine ⟨rfl, rfl, fun h => by simp [completes, hj] at h, fun d h => ?_, fun d hd => ?_⟩
            · simp only [completes, hj, Option.some.injEq] at h
              subst h; exact ⟨rfl, .inr (.inr (by rw [hj]; exact List.mem_cons_self))⟩
            · rcases hd with hd | hd
              · exact .inl hd
              · exact .inr (.inl (List.mem_of_mem_erase hd))
        · rename_i hb
          have hb : b = false := by simpa using hb
          subst hb
          cases hs
          refine ⟨rfl, rfl, fun _ => rfl, fun _ h => by simp [completes, hj] at h, fun d hd => ?_⟩
          rcases hd with hd | hd
          · exact .inl hd
          · exact .inr (.inl hd)
      · cases hs
    · cases hs
  | _ =>
    all_goals
      simp only [own, Bool.false_eq_true] at hl
    all_goals
      simp only [Worker.step] at hs
      (repeat' split at hs) <;>
      first
      | (cases hs; done)
      | (simp only [Option.some.injEq] at hs; subst hs
         first
         | (refine ⟨rfl, rfl, fun _ => rfl, fun _ h => by simp [completes] at h, fun d hd => ?_⟩
            rcases hd with hd | hd
            · first
              | exact .inl hd
              | cases hd
            · exact .inr (.inl hd))
         | (unfold Worker.schedIj
            split <;>
              (refine ⟨rfl, rfl, fun _ => rfl, fun _ h => by simp [completes] at h, fun d hd => ?_⟩
               rcases hd with hd | hd
               · exact .inl hd
               · exact .inr (.inl hd))))

end Verif.Whole
